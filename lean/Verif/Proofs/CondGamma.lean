import Verif.Proofs.CondSeg
import Verif.Proofs.Masked
import Verif.Spec.Examples
import Verif.Model.Examples

/-! # `control` lines calling functions made of `toffoli` -/

namespace Verif
open Classical Complex RegOps CircuitBuilder Rooted TempBuilder

section
variable {ang : Rot → ℝ} {β : Type} [Conditionable β] [Rooted β] [Sim β] {cs : List Reg} {rs : List Reg}

/-- a `control(bits)` line whose function leaves the flipped qubits alone -/
theorem Moves.control_masked {f : List Reg → M (Conditioned β) (List Reg)} {g0 : List Sel} {gs : List (List Sel)} {U : Asg → Wave} {c : Reg} {as : List Reg}
    (m : ℕ) (e0 : groupReg rs g0 = c) (e1 : gs.map (groupReg rs) = as) (hc : c ≠ []) (hcn : c.Nodup)
    (hU : ∀ x, lift (fun y => ket (negMask c m y)) (U (negMask c m x)) = U x)
    (h : Moves ang (c :: cs) (f as) as as.flatten U) :
    Moves ang cs (Line.call rs (.control (some m) f (g0 :: gs) : Line β)) ((g0 :: gs).map (groupReg rs))
      ((g0 :: gs).map (groupReg rs)).flatten (fun x => if valQ c x = m % 2 ^ c.length then U x else ket x) := by
  have e : (g0 :: gs).map (groupReg rs) = c :: as := by simp [e0, e1]
  rw [e, List.flatten_cons]
  have hneg : Moves ang cs (Verif.negateBitmask c m : M β _) c (c ++ as.flatten) (fun x => ket (negMask c m x)) :=
    ((Maps.negateBitmask cs c hc m).mono hcn (by intro p hp; simp [hp])).moves
  have h2 : Moves ang cs (Verif.negateBitmask c m >>= fun c => Pure.pure (c :: as) : M β _) (c :: as) (c ++ as.flatten) (fun x => ket (negMask c m x)) :=
    hneg.map (f := fun c => c :: as) rfl
  have h3 := hneg.bind (f := fun c => do
    let (rs, cr) ← Conditioned.conditioned c (f as)
    let cr ← Verif.negateBitmask cr m
    Pure.pure (cr :: rs)) ((Moves.conditioned hc h).bind (f := fun p : List Reg × Reg => do
      let cr ← Verif.negateBitmask p.2 m
      Pure.pure (cr :: p.1)) h2)
  refine (h3.cast ?_ rfl).congr fun x => ?_
  · unfold Line.call
    simp only [List.map_cons, e0, e1]
  · rw [lift_ket]
    by_cases hx : valQ c x = m % 2 ^ c.length
    · rw [if_pos hx, if_pos ((negMask_all c hcn m x).mpr hx)]
      exact hU x
    · rw [if_neg hx, if_neg fun h => hx ((negMask_all c hcn m x).mp h), lift_ket, Maps.negMask_negMask]

/-- a line of either kind -/
theorem Moves.control_holds {f : List Reg → M (Conditioned β) (List Reg)} {g0 : List Sel} {gs : List (List Sel)} {U : Asg → Wave} {c : Reg} {as : List Reg}
    (m : Option ℕ) (e0 : groupReg rs g0 = c) (e1 : gs.map (groupReg rs) = as) (hc : c ≠ []) (hcn : c.Nodup)
    (hU : ∀ m x, lift (fun y => ket (negMask c m y)) (U (negMask c m x)) = U x)
    (h : Moves ang (c :: cs) (f as) as as.flatten U) :
    Moves ang cs (Line.call rs (.control m f (g0 :: gs) : Line β)) ((g0 :: gs).map (groupReg rs))
      ((g0 :: gs).map (groupReg rs)).flatten (fun x => if Holds m c x then U x else ket x) := by
  cases m with
  | none => exact (Moves.control e0 e1 hc h).congr fun x => by unfold Holds; congr
  | some m => exact (Moves.control_masked m e0 e1 hc hcn (hU m) h).congr fun x => by unfold Holds; congr

end

/-! ## operations which leave the flipped qubits alone -/

theorem negMask_all_keeps {c cr : Reg} (h : ∀ q ∈ cr, q ∉ c) (m : ℕ) (x : Asg) :
    (∀ q ∈ cr, negMask c m x q = true) ↔ ∀ q ∈ cr, x q = true :=
  forall₂_congr fun q hq => by rw [Maps.negMask_keeps c m x q (h q hq)]

theorem flipIf_neg (d : ℂ) {c cr r : Reg} (h1 : ∀ q ∈ cr, q ∉ c) (h2 : ∀ q ∈ r, q ∉ c) (m : ℕ) (x : Asg) :
    lift (fun y => ket (negMask c m y)) (flipIf d cr r (negMask c m x)) = flipIf d cr r x := by
  unfold flipIf
  simp only [negMask_all_keeps h1]
  split
  · rw [map_smul, lift_ket]
    congr 2
    funext q
    by_cases hq : q ∈ r
    · rw [Maps.negMask_keeps c m _ q (h2 q hq)]
      unfold flipAll
      rw [if_pos hq, if_pos hq, Maps.negMask_keeps c m _ q (h2 q hq)]
    · have : negMask c m (flipAll r (negMask c m x)) q = negMask c m (negMask c m x) q := by
        conv_lhs => unfold negMask
        rw [flipAll_not_mem _ _ _ hq]
        rfl
      rw [this, Maps.negMask_negMask, flipAll_not_mem _ _ _ hq]
  · rw [lift_ket, Maps.negMask_negMask]

theorem turnIf_neg {c cr : Reg} {q : ℕ} (h1 : ∀ q ∈ cr, q ∉ c) (h2 : q ∉ c) (m : ℕ) (x : Asg) :
    lift (fun y => ket (negMask c m y)) (turnIf cr q (negMask c m x)) = turnIf cr q x := by
  unfold turnIf
  simp only [negMask_all_keeps h1]
  split
  · rw [gate1_ket, gate1_ket, map_add, map_smul, map_smul, lift_ket, lift_ket, Maps.negMask_keeps c m x q h2]
    have : ∀ v, negMask c m (setQ q v (negMask c m x)) = setQ q v x := by
      intro v
      funext p
      by_cases hp : p = q
      · subst hp
        rw [Maps.negMask_keeps c m _ p h2]; simp [setQ]
      · have : negMask c m (setQ q v (negMask c m x)) p = negMask c m (negMask c m x) p := by
          conv_lhs => unfold negMask
          rw [show ∀ z : Asg, setQ q v z p = z p from fun z => by simp [setQ, hp]]
          rfl
        rw [this, Maps.negMask_negMask, show ∀ z : Asg, setQ q v z p = z p from fun z => by simp [setQ, hp]]
    rw [this, this]
  · rw [lift_ket, Maps.negMask_negMask]

theorem comp_neg {c : Reg} {m : ℕ} {U V : Asg → Wave} (hU : ∀ x, lift (fun y => ket (negMask c m y)) (U (negMask c m x)) = U x)
    (hV : ∀ x, lift (fun y => ket (negMask c m y)) (V (negMask c m x)) = V x) (x : Asg) :
    lift (fun y => ket (negMask c m y)) (lift V (U (negMask c m x))) = lift V (U x) := by
  have e : lift (fun y => ket (negMask c m y)) ∘ₗ lift V = lift V ∘ₗ lift (fun y => ket (negMask c m y)) := wave_ext fun y => by
    rw [LinearMap.comp_apply, LinearMap.comp_apply, lift_ket, lift_ket, lift_ket]
    have := hV (negMask c m y)
    rwa [Maps.negMask_negMask] at this
  rw [← hU x]
  exact LinearMap.congr_fun e _

/-! ## `gamma` -/

section
variable {β : Type} [Conditionable β] [Rooted β] [Sim β]

theorem turnIf_eq (a b q : ℕ) (x : Asg) : turnIf [a, b] q x = if x a && x b then gateW [q] wMat (ket x) else ket x := by
  unfold turnIf wMat
  simp

theorem flipIf_one (c : ℕ) (r : Reg) (x : Asg) : flipIf 1 [c] r x = ket (if x c = true then flipAll r x else x) := by
  unfold flipIf
  simp only [List.mem_singleton, forall_eq, one_smul]
  split <;> rfl

/-- `gamma` with two qubits and one on a builder with conditions -/
theorem Moves.gamma_two {cs : List Reg} (hc : cs ≠ []) (a b q : ℕ) :
    Moves rotAngle cs (gamma [[a, b], [q]] : M β _) [[a, b], [q]] [a, b, q] (fun x => lift (flipIf 1 [q] [a, b]) (turnIf [a, b] q x)) := by
  have h1 := Moves.toffoli_two (β := β) hc a b q
  have h2 : Moves rotAngle cs (toffoli [q] [a, b] : M β _) ([q], [a, b]) [a, b, q] (fun x => flipIf 1 [q] [a, b] x) := by
    have h := (Maps.cnot (β := β) (ang := rotAngle) cs q [a, b] (by simp)).moves
    refine ⟨fun x => ?_, fun s L hs ho => ?_⟩
    · rw [flipIf_one]
      exact (h.keeps x).mono fun y hy p hp => hy p fun hc => hp (by simp at hc ⊢; tauto)
    · have hp : (cs.flatten ++ [a, b, q] ++ L).Perm (cs.flatten ++ [q, a, b] ++ L) := by
        refine List.Perm.append_right _ (List.Perm.append_left _ ?_)
        exact (List.perm_append_comm : ([a, b] ++ [q]).Perm ([q] ++ [a, b]))
      refine Does.congr (U := fun x => if ∀ c ∈ cs.flatten, x c = true then ket (if x q = true then flipAll [a, b] x else x) else ket x)
        (h.does s L hs (ho.perm hp)) rfl hp.symm fun x _ => ?_
      rw [flipIf_one]
  refine ((h1.bind (f := fun p : Reg × Reg => toffoli p.2 p.1 >>= fun p => Pure.pure [p.2, p.1]) (h2.map (f := fun p : Reg × Reg => [p.2, p.1]) rfl)).cast rfl rfl).congr
    fun x => ?_
  rw [turnIf_eq]

/-- `gamma` with single qubits -/
theorem Moves.gamma_one {cs : List Reg} (a q : ℕ) :
    Moves rotAngle cs (gamma [[a], [q]] : M β _) [[a], [q]] [a, q] (fun x => lift (flipIf 1 [q] [a]) (flipIf 1 [a] [q] x)) := by
  have h1 := (Maps.cnot (β := β) (ang := rotAngle) cs a [q] (by simp)).moves
  have h2 : Moves rotAngle cs (toffoli [q] [a] : M β _) ([q], [a]) [a, q] (fun x => flipIf 1 [q] [a] x) := by
    have h := (Maps.cnot (β := β) (ang := rotAngle) cs q [a] (by simp)).moves
    refine ⟨fun x => ?_, fun s L hs ho => ?_⟩
    · rw [flipIf_one]
      exact (h.keeps x).mono fun y hy p hp => hy p fun hc => hp (by simp at hc ⊢; tauto)
    · have hp : (cs.flatten ++ [a, q] ++ L).Perm (cs.flatten ++ [q, a] ++ L) := by
        refine List.Perm.append_right _ (List.Perm.append_left _ ?_)
        exact (List.perm_append_comm : ([a] ++ [q]).Perm ([q] ++ [a]))
      refine Does.congr (U := fun x => if ∀ c ∈ cs.flatten, x c = true then ket (if x q = true then flipAll [a] x else x) else ket x)
        (h.does s L hs (ho.perm hp)) rfl hp.symm fun x _ => ?_
      rw [flipIf_one]
  refine ((h1.bind (f := fun p : Reg × Reg => toffoli p.2 p.1 >>= fun p => Pure.pure [p.2, p.1]) (h2.map (f := fun p : Reg × Reg => [p.2, p.1]) rfl)).cast rfl rfl).congr
    fun x => ?_
  rw [flipIf_one]

end

end Verif
