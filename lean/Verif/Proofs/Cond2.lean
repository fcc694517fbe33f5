import Verif.Proofs.Cond
import Verif.Props.Gates

/-! # `try_apply_with_condition` of `LocalBuilder`, gate by gate -/

namespace Verif
open Classical Complex RegOps Rooted TempBuilder

variable {ang : Rot → ℝ}

/-- on states in which the condition qubits have the values they have in `x` -/
theorem ctl_on {cr : List ℕ} {B : Wave →ₗ[ℂ] Wave} {x : Asg} {ψ : Wave} (h : On {y | ∀ c ∈ cr, y c = x c} ψ) :
    lift (ctlW cr B) ψ = if ∀ c ∈ cr, x c = true then B ψ else ψ := by
  by_cases hx : ∀ c ∈ cr, x c = true
  · rw [if_pos hx]
    apply h.agree
    intro y hy
    rw [lift_ket]
    exact if_pos fun c hc => (hy c hc).trans (hx c hc)
  · rw [if_neg hx]
    refine h.agree (B := LinearMap.id) ?_
    intro y hy
    rw [lift_ket]
    exact if_neg fun hh => hx fun c hc => (hy c hc).symm.trans (hh c hc)

theorem tofU_ctl (ang : Rot → ℝ) (cr r : Reg) (hn : r.Nodup) (x : Asg) :
    tofU cr r x = ctlW cr (tofPhase cr.length r.length • eachW (uMat ang 1 .X) r) x := by
  unfold tofU ctlW
  split
  · rw [LinearMap.smul_apply, ← each_eachW, each_x ang r hn]
  · rfl

theorem tofPhase_one (k : ℕ) : tofPhase k 1 = 1 := by unfold tofPhase; split <;> simp

/-- gates on `r` keep the values of the other qubits -/
theorem On.eachW (m : ℕ → ℕ → ℂ) (r cr : List ℕ) (hd : ∀ c ∈ cr, c ∉ r) (x : Asg) {ψ : Wave}
    (h : On {y | ∀ c ∈ cr, y c = x c} ψ) : On {y | ∀ c ∈ cr, y c = x c} (Verif.eachW m r ψ) := by
  induction r generalizing ψ with
  | nil => exact h
  | cons q r ih =>
    apply ih (fun c hc hm => hd c hc (by simp [hm]))
    apply h.gate
    intro y hy c d hd'
    rw [writeQ_not_mem]
    · exact hy d hd'
    · intro hm; simp at hm; exact hd d hd' (by simp [hm])

/-- a gate, a Toffoli, the inverse gate -/
theorem conj_does {g g' : Reg → M LocalBuilder Reg} {A A' : Wave →ₗ[ℂ] Wave} {cr r L : List ℕ} {s : LocalBuilder}
    (hc : cr ≠ []) (hr : r ≠ []) (ho : Own s (cr ++ r ++ L))
    (hg : ∀ s', Own s' (cr ++ r ++ L) → Does ang (g r) s' r (cr ++ r ++ L) (fun x => A (ket x)))
    (hg' : ∀ s', Own s' (cr ++ r ++ L) → Does ang (g' r) s' r (cr ++ r ++ L) (fun x => A' (ket x)))
    (hA : ∀ x, On {y | ∀ c ∈ cr, y c = x c} (A (ket x))) (hinv : ∀ ψ, A' (A ψ) = ψ) :
    Does ang (do
      let r ← g r
      let (cr, r) ← toffoli cr r
      let r ← g' r
      pure (cr, r)) s (cr, r) (cr ++ r ++ L)
      (ctlW cr (tofPhase cr.length r.length • (A' ∘ₗ eachW (uMat ang 1 .X) r ∘ₗ A))) := by
  have hn : r.Nodup := (List.nodup_append.mp (List.nodup_append.mp ho.left).1).2.1
  have h := Does.bind (f := fun r => do
      let (cr, r) ← toffoli cr r
      let r ← g' r
      pure (cr, r)) (hg s ho) fun s1 _ o1 => Does.bind (toffoli_does ang cr r L s1 hc hr o1) fun s2 _ o2 =>
    Does.bind (f := fun r => pure (cr, r)) (hg' s2 o2) fun s3 _ o3 => Does.pure o3 (cr, r)
  refine h.congrU fun x _ => ?_
  have h1 : tofU cr r = ctlW cr (tofPhase cr.length r.length • eachW (uMat ang 1 .X) r) :=
    funext fun x => tofU_ctl ang cr r hn x
  have h2 : lift ket = LinearMap.id := wave_ext fun x => lift_ket _ _
  have h3 : (fun x => lift (fun x => lift ket (A' (ket x))) (tofU cr r x)) =
      fun x => (A' ∘ₗ lift (tofU cr r)) (ket x) := by
    funext x
    rw [LinearMap.comp_apply, lift_ket, h2, show (fun x => LinearMap.id (A' (ket x))) = fun x => A' (ket x) from rfl,
      lift_linear]
  rw [h3, lift_linear, LinearMap.comp_apply, h1, ctl_on (hA x)]
  unfold ctlW
  split
  · simp only [LinearMap.smul_apply, LinearMap.comp_apply, map_smul]
  · exact hinv _

section
variable (ang) (cr r L : List ℕ) (s : LocalBuilder) (hc : cr ≠ []) (ho : Own s (cr ++ r ++ L))
include hc ho

theorem mem_r {q : ℕ} (hq : q ∈ r) : q ∈ cr ++ r ++ L := by simp [hq]

omit hc in
theorem disj : ∀ c ∈ cr, c ∉ r := fun c h1 h2 =>
  List.disjoint_of_nodup_append (List.nodup_append.mp ho.left).1 h1 h2

/-- conditioned X -/
theorem condX_does (n : ℕ) (hr : r ≠ []) : Does ang (LocalBuilder.tryCond cr r ⟨n, .unitary .X⟩) s (cr, r) (cr ++ r ++ L)
    (ctlW cr (tofPhase cr.length r.length • eachW (uMat ang 1 .X) r)) := by
  have hn : r.Nodup := (List.nodup_append.mp (List.nodup_append.mp ho.left).1).2.1
  exact (toffoli_does ang cr r L s hc hr ho).congrU fun x _ => tofU_ctl ang cr r hn x

/-- conditioned Z -/
theorem condZ_does (n : ℕ) (hr : r ≠ []) : Does ang (LocalBuilder.tryCond cr r ⟨n, .unitary .Z⟩) s (cr, r) (cr ++ r ++ L)
    (ctlW cr (tofPhase cr.length r.length • eachW (uMat ang 1 .Z) r)) := by
  have hn : r.Nodup := (List.nodup_append.mp (List.nodup_append.mp ho.left).1).2.1
  have hg : ∀ s', Own s' (cr ++ r ++ L) → Does ang (Gate.h r) s' r (cr ++ r ++ L) (fun x => eachW (uMat ang 1 .H) r (ket x)) :=
    fun s' o => ((h_emits r hr hn).does ang o (segOK_each o r (fun q hq => by simp [hq]) .H rfl (by simp))).congrU
      fun x _ => each_eachW ang r .H _
  refine (conj_does hc hr ho hg hg (fun x => On.eachW _ r cr (disj cr r L s ho) x (On.ket (fun _ _ => rfl))) ?_).congrU
    fun x _ => ?_
  · intro ψ
    rw [← each_eachW, ← each_eachW, each_hh ang r hn]
  · congr 2
    apply LinearMap.ext
    intro ψ
    have h := each_hzh ang r hn (runW ang (each r .H) ψ)
    rw [each_hh ang r hn] at h
    rw [LinearMap.comp_apply, LinearMap.comp_apply, ← each_eachW, ← each_eachW, ← each_eachW, ← each_eachW, ← h,
      each_hh ang r hn]

end

section
variable (ang) (cr L : List ℕ) (q : ℕ) (s : LocalBuilder) (hc : cr ≠ []) (ho : Own s (cr ++ [q] ++ L))
include hc ho

/-- conditioned Y: the inverse of the gate comes out -/
theorem condY_does (n : ℕ) : Does ang (LocalBuilder.tryCond cr [q] ⟨n, .unitary .Y⟩) s (cr, [q]) (cr ++ [q] ++ L)
    (ctlW cr (-u1 ang q .Y)) := by
  have hq : ∀ p ∈ [q], p ∈ cr ++ [q] ++ L := by intro p hp; simp [List.mem_singleton.mp hp]
  have g1 : ∀ s', Own s' (cr ++ [q] ++ L) → Does ang (Gate.s [q]) s' [q] (cr ++ [q] ++ L) (fun x => u1 ang q .S (ket x)) :=
    fun s' o => (s_emits [q] (by simp) (by simp)).does ang o (segOK_each o [q] hq .S rfl (by simp))
  have g2 : ∀ s', Own s' (cr ++ [q] ++ L) → Does ang (sDagger [q]) s' [q] (cr ++ [q] ++ L)
      (fun x => (u1 ang q .S ∘ₗ u1 ang q .Z) (ket x)) :=
    fun s' o => (sDagger_emits [q] (by simp) (by simp)).does ang o (segOK_append (segOK_each o [q] hq .Z rfl (by simp))
      (segOK_each o [q] hq .S rfl (by simp)))
  have hI : I * I = -1 := I_mul_I
  refine (conj_does hc (by simp) ho g1 g2 (fun x => On.eachW _ [q] cr (disj cr [q] L s ho) x
    (On.ket (fun _ _ => rfl))) ?_).congrU fun x _ => ?_
  · intro ψ
    show gateW [q] (mat2 _ _ _ _) (gateW [q] (mat2 _ _ _ _) (gateW [q] (mat2 _ _ _ _) ψ)) = ψ
    rw [gate1_comp, gate1_comp]
    refine Eq.trans ?_ (gate1_one q ψ)
    congr 3 <;> first | ring1 | linear_combination -hI
  · rw [show ([q] : List ℕ).length = 1 from rfl, tofPhase_one, one_smul]
    congr 1
    apply wave_ext
    intro x
    rw [LinearMap.neg_apply, y_ket]
    show u1 ang q .S (u1 ang q .Z (u1 ang q .X (u1 ang q .S (ket x)))) = _
    rw [s_ket, map_smul, x_ket, map_smul, z_ket, map_smul, map_smul, s_ket, flipQ_self]
    cases x q
    · simp
    · simp

/-- the matrix applied by a conditioned H -/
noncomputable def condHMat : ℕ → ℕ → ℂ :=
  mat2 (sin (1 / 4)) (cos (1 / 4)) (cos (1 / 4)) (-sin (1 / 4))

/-- conditioned H -/
theorem condH_does (n : ℕ) : Does rotAngle (LocalBuilder.tryCond cr [q] ⟨n, .unitary .H⟩) s (cr, [q]) (cr ++ [q] ++ L)
    (ctlW cr (gateW [q] condHMat)) := by
  have perm : (cr ++ [q] ++ L).Perm (q :: (cr ++ L)) := by
    rw [List.append_assoc]; exact List.perm_middle
  have g : ∀ (m : ℤ), m ≠ 0 → ∀ s', Own s' (cr ++ [q] ++ L) → Does rotAngle (Rotations.ryPiBy [q] m) s' [q] (cr ++ [q] ++ L)
      (fun x => gateW [q] (ryMat (1 / m)) (ket x)) := fun m hm s' o =>
    ((Props.C34_one_qubit_partial s' q (cr ++ L) 0 0 m (o.perm perm) hm).2.2.2.2.2.2.2.2).congr rfl perm.symm
      (fun _ _ => rfl)
  have e1 : ((1 / ((-4 : ℤ) : ℝ) : ℝ) : ℂ) / 2 = -(1 / 8) := by push_cast; norm_num
  have e2 : ((1 / ((4 : ℤ) : ℝ) : ℝ) : ℂ) / 2 = 1 / 8 := by push_cast; norm_num
  have e3 : (1 / 4 : ℂ) = 2 * (1 / 8) := by norm_num
  have hsq : cos (1 / 8 : ℂ) ^ 2 + sin (1 / 8 : ℂ) ^ 2 = 1 := by rw [add_comm]; exact sin_sq_add_cos_sq _
  refine (conj_does (g := fun r => Rotations.ryPiBy r 4) (g' := fun r => Rotations.ryPiBy r (-4))
    (r := [q]) (A := gateW [q] (ryMat (1 / ((4 : ℤ) : ℝ)))) (A' := gateW [q] (ryMat (1 / ((-4 : ℤ) : ℝ))))
    hc (by simp) ho (g 4 (by norm_num)) (g (-4) (by norm_num)) (fun x => On.eachW _ [q] cr
    (disj cr [q] L s ho) x (On.ket (fun _ _ => rfl))) ?_).congrU fun x _ => ?_
  · intro ψ
    show gateW [q] (mat2 _ _ _ _) (gateW [q] (mat2 _ _ _ _) ψ) = ψ
    rw [gate1_comp, e1, e2, cos_neg, sin_neg]
    refine Eq.trans ?_ (gate1_one q ψ)
    congr 3 <;> first | ring1 | linear_combination hsq
  · rw [show ([q] : List ℕ).length = 1 from rfl, tofPhase_one, one_smul]
    congr 1
    apply LinearMap.ext
    intro ψ
    show gateW [q] (mat2 _ _ _ _) (gateW [q] (mat2 _ _ _ _) (gateW [q] (mat2 _ _ _ _) ψ)) = gateW [q] (mat2 _ _ _ _) ψ
    rw [gate1_comp, gate1_comp, e1, e2, cos_neg, sin_neg, e3, sin_two_mul, cos_two_mul']
    congr 3 <;> ring1

/-- conditioned S -/
theorem condS_does (n : ℕ) : Does ang (LocalBuilder.tryCond cr [q] ⟨n, .unitary .S⟩) s (cr, [q]) (cr ++ [q] ++ L)
    (ctlW cr (u1 ang q .S)) :=
  condPhase_does (u := .S) (a := I) rfl rfl (by simp) (fun t => s_emits [t] (by simp) (by simp)) cr q L s hc ho

/-- conditioned T -/
theorem condT_does (n : ℕ) : Does ang (LocalBuilder.tryCond cr [q] ⟨n, .unitary .T⟩) s (cr, [q]) (cr ++ [q] ++ L)
    (ctlW cr (u1 ang q .T)) :=
  condPhase_does (u := .T) (a := exp (Real.pi / 4 * I)) rfl rfl (by simp) (fun t => t_emits [t] (by simp) (by simp)) cr q L s hc ho

end

/-- conditioned CNOT: one more control -/
theorem condCnot_does (ang : Rot → ℝ) (cr L : List ℕ) (a b : ℕ) (s : LocalBuilder) (hc : cr ≠ [])
    (ho : Own s (cr ++ [a, b] ++ L)) (n : ℕ) :
    Does ang (LocalBuilder.tryCond cr [a, b] ⟨n, .unitary .CNOT⟩) s (cr, [a, b]) (cr ++ [a, b] ++ L)
      (ctlW cr (gateW [a, b] (uMat ang 2 .CNOT))) := by
  have hnd : (cr ++ [a, b]).Nodup := (List.nodup_append.mp ho.left).1
  have hab : a ≠ b := by
    have := (List.nodup_append.mp hnd).2.1; simpa using this
  have hca : (cr ++ [a]).Nodup := by
    have : (cr ++ [a]).Sublist (cr ++ [a, b]) := List.Sublist.append_left (by simp) cr
    exact this.nodup hnd
  have hsplit : (splitFirst [a, b] : M LocalBuilder _) = pure (some [a], [b]) := splitFirst_eq a [b] (by simpa using hab) (by simp)
  have h1 := Does.bind (toffoli_does ang (cr ++ [a]) [b] L s (by simp) (by simp) (by simpa using ho)) (c := (cr, [a, b]))
    (L2 := cr ++ [a, b] ++ L) (V := ket) (f := fun p => do
      let (cr, ra) ← splitLast p.1
      let ra ← unwrapO ra
      let r ← RegOps.mergeTwo ra p.2
      pure (cr, r)) (by
    intro s' _ o'
    simp only
    rw [splitLast_eq cr a hca hc]
    simp only [pure_bind, unwrapO_some]
    rw [LawfulReg.mergeTwo_eq _ _ (by simp), pure_bind]
    exact Does.pure (by simpa using o') _)
  refine Does.congrU ?_ ?_ (U := fun x => lift ket (tofU (cr ++ [a]) [b] x))
  · unfold LocalBuilder.tryCond
    simp only
    rw [if_neg (by simp)]
    simp only [pure_bind, hsplit, unwrapO_some]
    rw [LawfulReg.mergeTwo_eq _ _ (by simp), pure_bind]
    exact h1
  · intro x _
    rw [show lift ket = LinearMap.id from wave_ext fun x => lift_ket _ _, LinearMap.id_apply, tofU_one]
    unfold ctlW
    rw [cnot_ket ang a b hab]
    by_cases h : ∀ c ∈ cr, x c = true
    · rw [if_pos h]
      by_cases ha : x a = true
      · rw [if_pos, if_pos ha]
        intro c hc
        rcases List.mem_append.mp hc with hc | hc
        · exact h c hc
        · simp at hc; rw [hc]; exact ha
      · rw [if_neg (fun hh => ha (hh a (by simp))), if_neg ha]
    · rw [if_neg h, if_neg (fun hh => h fun c hc => hh c (by simp [hc]))]

end Verif
