import Verif.Proofs.Both
import Verif.Proofs.LooseEqui

/-! # Structured programs with rotations inside conditions: what they do -/

namespace Verif
open Classical Rooted

/-! ## rotations inside conditions -/

theorem rot_does {g : (k : ℕ) → M (NB k) Reg} (hg : ∀ k, g (k + 1) = Conditioned.onParent (g k)) {q : ℕ} {d : ℕ → ℕ → ℂ}
    (h0 : ∀ (s : LocalBuilder) L, Own s (q :: L) → Does (β := LocalBuilder) rotAngle (g 0) s [q] (q :: L) (fun x => gateW [q] d (ket x))) :
    ∀ (k : ℕ) (s : NB k) (L : List ℕ), Own (root s) (q :: L) → Does rotAngle (g k) s [q] (q :: L) (fun x => gateW [q] d (ket x))
  | 0, s, L, ho => h0 s L ho
  | k + 1, s, L, ho => by
    rw [hg k]
    exact Does.onParent (β := NB k) (s := s) (rot_does hg h0 k (Conditioned.parent (β := NB k) s) L ho)

theorem rot_both {g : (k : ℕ) → M (NB k) Reg} (hg : ∀ k, g (k + 1) = Conditioned.onParent (g k)) {q : ℕ} {d : ℕ → ℕ → ℂ}
    (h0 : ∀ (s : LocalBuilder) L, Own s (q :: L) → Does (β := LocalBuilder) rotAngle (g 0) s [q] (q :: L) (fun x => gateW [q] d (ket x))) (k : ℕ) (cs : List Reg) :
    Both rotAngle cs (g k) [q] [q] (fun x => gateW [q] d (ket x)) fun x => gateW [q] d (ket x) where
  keeps x := on_gate (fun _ h => h) _ (on_same _ x)
  keeps' x := on_gate (fun _ h => h) _ (on_same _ x)
  does s L _ ho := by
    have hp : (cs.flatten ++ [q] ++ L).Perm (q :: (cs.flatten ++ L)) := by
      rw [List.append_assoc]
      exact List.perm_middle
    refine Does.congr (U := fun x => gateW [q] d (ket x)) (rot_does hg h0 k s (cs.flatten ++ L) (ho.perm hp)) rfl hp.symm fun x _ => ?_
    rw [ite_self]

theorem rzPiBy_both (q : ℕ) (m : ℤ) (hm : m ≠ 0) (k : ℕ) (cs : List Reg) :
    Both rotAngle cs (Rotations.rzPiBy [q] m : M (NB k) Reg) [q] [q] (fun x => gateW [q] (rzMat (1 / m)) (ket x)) fun x => gateW [q] (rzMat (1 / m)) (ket x) :=
  rot_both (g := fun k => (Rotations.rzPiBy [q] m : M (NB k) Reg)) (fun k => rfl) (fun s L ho => (Props.C34_one_qubit_partial s q L 0 0 m ho hm).2.2.2.2.2.2.1) k cs

/-! ## `qfft` inside conditions -/

theorem qfftRow_both (i q j : ℕ) (sl : List (Option Reg)) (p : ℕ) (hj : sl[j]? = some (some [p])) (k : ℕ) (cs : List Reg) :
    Both rotAngle cs (qfftRow i ([q], sl) j : M (NB k) _) ([q], sl) [q] (fun x => gateW [q] (rzMat (1 / ((2 ^ (j - i) : ℕ) : ℤ))) (ket x))
      fun x => gateW [q] (rzMat (1 / ((2 ^ (j - i) : ℕ) : ℤ))) (ket x) := by
  unfold qfftRow
  rw [hj]
  simp only [Option.join_some, unwrapO_some, pure_bind]
  rw [(Props.C37_rotations_partial (β := NB k) [p] [q] 0 0 _).2.2.2.2.2.2.1, bind_assoc]
  simp only [pure_bind]
  rw [set_same sl j _ hj]
  exact (rzPiBy_both q _ (by positivity) k cs).map (f := fun a => (a, sl)) rfl

/-- the rotations of one qubit together -/
theorem rots_comp (q m : ℕ) : Both.compL ((List.range' 1 m).map fun d => gateW [q] (rzMat (1 / ((2 ^ d : ℕ) : ℤ)))) = gateW [q] (rzMat (1 - 1 / 2 ^ m)) := by
  have h : ∀ l : List ℕ, Both.compL (l.map fun d => gateW [q] (rzMat (1 / ((2 ^ d : ℕ) : ℤ)))) =
      runW rotAngle ((l.map fun d => [(([q], ⟨1, .unitary (.Rz (.piRational (1 / (((2 ^ d : ℕ) : ℤ) : ℚ))))⟩) : List ℕ × CObj)]).flatten) := fun l => by
    induction l with
    | nil => exact wave_ext fun x => by simp [Both.compL, runW]
    | cons d l ih =>
      rw [List.map_cons, List.map_cons, List.flatten_cons]
      refine wave_ext fun x => ?_
      rw [runW_append, ← ih]
      show Both.compL _ (gateW [q] _ (ket x)) = Both.compL _ (gateW [q] (rzMat (rotAngle (.piRational _))) (ket x))
      congr 4
      simp [rotAngle]
  rw [h]
  refine wave_ext fun x => ?_
  rw [rzs_ket, rz_ket, Props.qfftAngle_rot]

theorem qfftCol_both (r : Reg) (i : ℕ) (hi : i < r.length) {k : ℕ} {cs : List Reg} (hc : cs ≠ []) :
    Both rotAngle cs (qfftCol (r.map fun q => some [q]) i : M (NB k) _) (r.map fun q => some [q]) [r[i]]
      (fun x => (gateW [r[i]] (Named.condMat .h) ∘ₗ gateW [r[i]] (rzMat (1 - 1 / 2 ^ (r.length - (i + 1))))) (ket x))
      fun x => gateW [r[i]] (rzMat (1 - 1 / 2 ^ (r.length - (i + 1)))) (ket x) := by
  have hget : ∀ j (hj : j < r.length), (r.map fun q => (some [q] : Option Reg))[j]? = some (some [r[j]]) := fun j hj => by
    simp [hj]
  unfold qfftCol
  rw [hget i hi]
  simp only [Option.join_some, unwrapO_some, pure_bind, List.length_map]
  have h1 := Both.foldlM (β := NB k) (ang := rotAngle) (cs := cs) (Q := [r[i]]) (f := qfftRow i) (st := ([r[i]], (r.map fun q => (some [q] : Option Reg)).set i none))
    (W := fun j => gateW [r[i]] (rzMat (1 / ((2 ^ (j - i) : ℕ) : ℤ)))) (W' := fun j => gateW [r[i]] (rzMat (1 / ((2 ^ (j - i) : ℕ) : ℤ))))
    (List.range' (i + 1) (r.length - (i + 1))) fun j hj => by
      rw [List.mem_range'_1] at hj
      exact qfftRow_both i r[i] j _ (r[j]'(by omega)) (by rw [List.getElem?_set_ne (by omega), hget j (by omega)]) k cs
  have e : (List.range' (i + 1) (r.length - (i + 1))).map (fun j => gateW [r[i]] (rzMat (1 / ((2 ^ (j - i) : ℕ) : ℤ)))) =
      (List.range' 1 (r.length - (i + 1))).map fun d => gateW [r[i]] (rzMat (1 / ((2 ^ d : ℕ) : ℤ))) := by
    rw [List.range'_eq_map_range, List.range'_eq_map_range, List.map_map, List.map_map]
    refine List.map_congr_left fun d _ => ?_
    simp only [Function.comp_apply]
    rw [show i + 1 + d - i = 1 + d by omega]
  rw [e, rots_comp] at h1
  have h2 : Both rotAngle cs (Gate.h [r[i]] >>= fun ri => pure (((r.map fun q => (some [q] : Option Reg)).set i none).set i (some ri)) : M (NB k) _)
      (r.map fun q => some [q]) [r[i]] (fun x => gateW [r[i]] (Named.condMat .h) (ket x)) fun x => (LinearMap.id : Wave →ₗ[ℂ] Wave) (ket x) :=
    (Both.map (Moves.named (β := NB k) hc .h r[i]).both (f := fun ri => ((r.map fun q => (some [q] : Option Reg)).set i none).set i (some ri))
      (set_back _ i _ _ (hget i hi)))
  exact (h1.bindL (f := fun p : Reg × List (Option Reg) => Gate.h p.1 >>= fun ri => pure (p.2.set i (some ri))) h2)

theorem qfftSwap_both (r : Reg) (hn : r.Nodup) (i : ℕ) (hi : i < r.length / 2) (k : ℕ) (cs : List Reg) :
    Both rotAngle cs (qfftSwap (r.map fun q => some [q]) i : M (NB k) _) (r.map fun q => some [q]) [r[i]'(by omega), r[r.length - 1 - i]'(by omega)]
      (fun x => (lift fun y => ket (swapR [r[i]'(by omega)] [r[r.length - 1 - i]'(by omega)] y)) (ket x)) fun x => (LinearMap.id : Wave →ₗ[ℂ] Wave) (ket x) := by
  have hget : ∀ j (hj : j < r.length), (r.map fun q => (some [q] : Option Reg))[j]? = some (some [r[j]]) := fun j hj => by
    simp [hj]
  have hne : i ≠ r.length - 1 - i := by omega
  have hq : r[i]'(by omega) ≠ r[r.length - 1 - i]'(by omega) := fun e => hne ((List.Nodup.getElem_inj_iff hn).mp e)
  unfold qfftSwap
  rw [hget i (by omega)]
  simp only [Option.join_some, unwrapO_some, pure_bind, List.length_map]
  rw [List.getElem?_set_ne hne, hget (r.length - 1 - i) (by omega)]
  simp only [Option.join_some, unwrapO_some, pure_bind]
  have h1 : Moves rotAngle cs (Verif.swap [r[i]'(by omega)] [r[r.length - 1 - i]'(by omega)] : M (NB k) _) ([r[i]'(by omega)], [r[r.length - 1 - i]'(by omega)])
      [r[i]'(by omega), r[r.length - 1 - i]'(by omega)] (fun x => ket (swapR [r[i]'(by omega)] [r[r.length - 1 - i]'(by omega)] x)) := by
    refine ⟨fun x => On.ket fun q hq => swapR_not_mem _ _ _ _ (fun h => hq (by simp at h; simp [h])) (fun h => hq (by simp at h; simp [h])), fun s L hs ho =>
      (sim_swap (ra := [r[i]'(by omega)]) (rb := [r[r.length - 1 - i]'(by omega)]) hs (by simp) rfl ho).congrU fun x _ => ?_⟩
    split <;> rfl
  refine ((h1.both.map (f := fun p : Reg × Reg => (((((r.map fun q => (some [q] : Option Reg)).set i none).set (r.length - 1 - i) none).set i (some p.1)).set
    (r.length - 1 - i) (some p.2))) ?_).cast rfl rfl).congr (fun x => by rw [lift_ket]) fun x => rfl
  simp only
  rw [List.set_comm _ _ hne.symm, List.set_set, List.set_set]
  rw [set_same (r.map fun q => (some [q] : Option Reg)) i _ (hget i (by omega)),
    set_same _ (r.length - 1 - i) _ (hget (r.length - 1 - i) (by omega))]

theorem cols_comp (F : ℕ → ℕ → Wave →ₗ[ℂ] Wave) (G : Reg → Wave →ₗ[ℂ] Wave) (h0 : G [] = LinearMap.id) (h1 : ∀ q r, G (q :: r) = G r ∘ₗ F q r.length) (r : Reg) :
    Both.compL ((List.range r.length).map fun i => F (r.getD i 0) (r.length - (i + 1))) = G r := by
  induction r with
  | nil => exact h0.symm
  | cons q r ih =>
    rw [List.length_cons, List.range_succ_eq_map, List.map_cons, List.map_map, h1, ← ih]
    show Both.compL _ ∘ₗ _ = _
    congr 1
    congr 1
    refine List.map_congr_left fun i _ => ?_
    simp only [Function.comp_apply, List.getD_cons_succ]
    rw [show r.length + 1 - (i + 1 + 1) = r.length - (i + 1) by omega]

theorem swaps_comp (a b : Reg) (hl : a.length = b.length) :
    Both.compL ((a.zip b).map fun p => lift fun y => ket (swapR [p.1] [p.2] y)) = lift fun y => ket (swapR a b y) := by
  induction a generalizing b with
  | nil =>
    obtain rfl := List.length_eq_zero_iff.mp hl.symm
    exact wave_ext fun x => by rw [lift_ket]; rfl
  | cons p a ih =>
    obtain ⟨q, b, rfl⟩ := List.exists_cons_of_length_eq_add_one hl.symm
    rw [List.zip_cons_cons, List.map_cons]
    show Both.compL _ ∘ₗ _ = _
    rw [ih b (by simpa using hl)]
    exact wave_ext fun x => by rw [LinearMap.comp_apply, lift_ket, lift_ket, lift_ket]; rfl

theorem idle_comp {γ : Type} (l : List γ) : Both.compL (l.map fun _ => (LinearMap.id : Wave →ₗ[ℂ] Wave)) = LinearMap.id := by
  induction l with
  | nil => rfl
  | cons a l ih => rw [List.map_cons]; show Both.compL _ ∘ₗ _ = _; rw [ih]; rfl

theorem qfft_both (r : Reg) (hr : r ≠ []) (hn : r.Nodup) {k : ℕ} {cs : List Reg} (hc : cs ≠ []) :
    Both rotAngle cs (Verif.qfft r : M (NB k) _) r r (fun x => lift (fun y => ket (reverseMap r y)) (turnsBy (Named.condMat .h) r (ket x)))
      fun x => rotsW r (ket x) := by
  unfold qfft
  rw [splitAll_eq r hr hn]
  simp only [pure_bind, List.length_map, List.map_map]
  have e1 := Both.foldlM (β := NB k) (ang := rotAngle) (cs := cs) (Q := r) (f := qfftCol) (st := r.map fun q => some [q])
    (W := fun i => gateW [r.getD i 0] (Named.condMat .h) ∘ₗ gateW [r.getD i 0] (rzMat (1 - 1 / 2 ^ (r.length - (i + 1)))))
    (W' := fun i => gateW [r.getD i 0] (rzMat (1 - 1 / 2 ^ (r.length - (i + 1))))) (List.range r.length) fun i hi => by
      rw [List.mem_range] at hi
      rw [List.getD_eq_getElem _ _ hi]
      exact (qfftCol_both r i hi hc).mono (by simp) (by simp)
  have e2 := Both.foldlM (β := NB k) (ang := rotAngle) (cs := cs) (Q := r) (f := qfftSwap) (st := r.map fun q => some [q])
    (W := fun i => lift fun y => ket (swapR [r.getD i 0] [r.getD (r.length - 1 - i) 0] y)) (W' := fun i => LinearMap.id) (List.range (r.length / 2)) fun i hi => by
      rw [List.mem_range] at hi
      rw [List.getD_eq_getElem _ _ (by omega), List.getD_eq_getElem _ _ (by omega)]
      refine (qfftSwap_both r hn i hi k cs).mono ?_ ?_
      · simpa using fun e => absurd ((List.Nodup.getElem_inj_iff hn).mp e) (by omega)
      · simp
  rw [cols_comp (fun q m => gateW [q] (Named.condMat .h) ∘ₗ gateW [q] (rzMat (1 - 1 / 2 ^ m))) (turnsBy (Named.condMat .h)) rfl (fun q r => rfl),
    cols_comp (fun q m => gateW [q] (rzMat (1 - 1 / 2 ^ m))) rotsW rfl (fun q r => rfl)] at e1
  have e3 : (List.range (r.length / 2)).map (fun i => lift fun y => ket (swapR [r.getD i 0] [r.getD (r.length - 1 - i) 0] y)) =
      ((r.take (r.length / 2)).zip (r.reverse.take (r.length / 2))).map fun p => lift fun y => ket (swapR [p.1] [p.2] y) := by
    apply List.ext_getElem
    · simp; omega
    · intro i h1 h2
      simp at h1
      simp [List.getElem_zip, List.getElem?_eq_getElem (show i < r.length by omega),
        List.getElem?_eq_getElem (show r.length - 1 - i < r.length by omega)]
  rw [e3, swaps_comp _ _ (by simp), idle_comp] at e2
  have e4 : (r.map fun q => (some [q] : Option Reg)).mapM id = some (r.map fun q => [q]) := by
    clear e1 e2 e3 hr hn
    induction r with
    | nil => rfl
    | cons q r ih => rw [List.map_cons, List.mapM_cons, ih]; rfl
  have e6 : Both rotAngle cs ((List.range (r.length / 2)).foldlM qfftSwap (r.map fun q => some [q]) >>= fun rs => do
      let rs ← unwrapO (rs.mapM id)
      match ← mergeRegisters rs with
      | some r => pure r
      | none => throw .error : M (NB k) _) r r (fun x => (lift fun y => ket (swapR (r.take (r.length / 2)) (r.reverse.take (r.length / 2)) y)) (ket x))
      fun x => (LinearMap.id : Wave →ₗ[ℂ] Wave) (ket x) := by
    refine (e2.bindL (A' := LinearMap.id) (B' := LinearMap.id) (c := r) ?_).congr (fun x => rfl) fun x => rfl
    rw [e4]
    simp only [unwrapO_some, pure_bind]
    rw [mergeSingles r hr]
    exact Both.pure r
  refine (e1.bindL (f := fun rs => (List.range (rs.length / 2)).foldlM qfftSwap rs >>= fun rs => do
      let rs ← unwrapO (rs.mapM id)
      match ← mergeRegisters rs with
      | some r => pure r
      | none => throw .error) (by simp only [List.length_map]; exact e6)).congr (fun x => ?_) fun x => rfl
  rw [LinearMap.comp_apply]
  congr 2
  funext y
  rw [← revQ_eq r hn]
  rfl

/-! ## library functions -/

/-- where a builder with `k` conditions carries out its methods if they hold -/
def Mode.at : ℕ → Mode
  | 0 => .outside
  | _ + 1 => .held

theorem Mode.at_inside (k : ℕ) : (Mode.at k).inside = decide (k ≠ 0) := by cases k <;> rfl

theorem on_rots {Q : List ℕ} {r : List ℕ} (h : ∀ q ∈ r, q ∈ Q) {x : Asg} {ψ : Wave} (hψ : On {y | ∀ p, p ∉ Q → y p = x p} ψ) :
    On {y | ∀ p, p ∉ Q → y p = x p} (rotsW r ψ) := by
  induction r generalizing ψ with
  | nil => exact hψ
  | cons q r ih =>
    have hq : ∀ p ∈ [q], p ∈ Q := fun p hp => h p (by simp at hp; simp [hp])
    exact ih (fun p hp => h p (by simp [hp])) (on_gate hq _ hψ)

theorem Method.idle_keeps (m : Method) (inside : Bool) (rs : List Reg) (h : m.TakesLoose inside rs) (hn : rs.flatten.Nodup) (x : Asg) :
    On {y | ∀ q, q ∉ rs.flatten → y q = x q} (m.looseWave .idle rs x) := by
  by_cases hm : m = .qfft
  · subst hm
    obtain ⟨r, rfl, -⟩ := Method.qfft_takes h
    exact on_rots (fun q hq => by simpa using hq) (on_same _ x)
  · rw [Method.looseWave_idle hm]
    split
    · rename_i ht
      exact (m.moves (k := 0) (cs := []) rfl rs (Method.takes_false ht h) hn).keeps x
    · exact on_same _ x

theorem Method.both_rot {k : ℕ} {cs : List Reg} (m : Method) (hm : m ≠ .qfft) (ht : m.Turns = true) (rs : List Reg) (h : m.Takes false rs) :
    Both rotAngle cs (m.run rs : M (NB k) _) rs rs.flatten (m.wave false rs) (m.wave false rs) := by
  have key : ∀ {g : (k : ℕ) → M (NB k) Reg} {r : Reg} {d : ℕ → ℕ → ℂ}, (∀ k, g (k + 1) = Conditioned.onParent (g k)) → r.length = 1 →
      (∀ q, r = [q] → ∀ (s : LocalBuilder) L, Own s (q :: L) → Does (β := LocalBuilder) rotAngle (g 0) s [q] (q :: L) (fun x => gateW [q] d (ket x))) →
      Both rotAngle cs (do let r ← g k; pure [r] : M (NB k) _) [r] [r].flatten (fun x => gateW r d (ket x)) (fun x => gateW r d (ket x)) := fun {g r d} hg hr h => by
    obtain ⟨q, rfl⟩ := List.length_eq_one_iff.mp hr
    exact (rot_both hg (h q rfl) k cs).map (f := fun r => [r]) rfl
  cases m
  case qfft => exact absurd rfl hm
  case rz θ =>
    match rs, h with
    | [r], h => exact key (g := fun k => (Rotations.rz r θ : M (NB k) Reg)) (fun k => rfl) h.2 fun q e s L ho => by subst e; exact (Props.C34_one_qubit_partial s q L θ 0 1 ho (by simp)).1
  case rx θ =>
    match rs, h with
    | [r], h => exact key (g := fun k => (Rotations.rx r θ : M (NB k) Reg)) (fun k => rfl) h.2 fun q e s L ho => by subst e; exact (Props.C34_one_qubit_partial s q L θ 0 1 ho (by simp)).2.1
  case ry θ =>
    match rs, h with
    | [r], h => exact key (g := fun k => (Rotations.ry r θ : M (NB k) Reg)) (fun k => rfl) h.2 fun q e s L ho => by subst e; exact (Props.C34_one_qubit_partial s q L θ 0 1 ho (by simp)).2.2.1
  case rzRatio t =>
    match rs, h with
    | [r], h => exact key (g := fun k => (Rotations.rzRatio r t : M (NB k) Reg)) (fun k => rfl) h.2 fun q e s L ho => by subst e; exact (Props.C34_one_qubit_partial s q L 0 t 1 ho (by simp)).2.2.2.1
  case rxRatio t =>
    match rs, h with
    | [r], h => exact key (g := fun k => (Rotations.rxRatio r t : M (NB k) Reg)) (fun k => rfl) h.2 fun q e s L ho => by subst e; exact (Props.C34_one_qubit_partial s q L 0 t 1 ho (by simp)).2.2.2.2.1
  case ryRatio t =>
    match rs, h with
    | [r], h => exact key (g := fun k => (Rotations.ryRatio r t : M (NB k) Reg)) (fun k => rfl) h.2 fun q e s L ho => by subst e; exact (Props.C34_one_qubit_partial s q L 0 t 1 ho (by simp)).2.2.2.2.2.1
  case rzPiBy n =>
    match rs, h with
    | [r], h => exact key (g := fun k => (Rotations.rzPiBy r n : M (NB k) Reg)) (fun k => rfl) h.2.1 fun q e s L ho => by subst e; exact (Props.C34_one_qubit_partial s q L 0 0 n ho h.2.2).2.2.2.2.2.2.1
  case rxPiBy n =>
    match rs, h with
    | [r], h => exact key (g := fun k => (Rotations.rxPiBy r n : M (NB k) Reg)) (fun k => rfl) h.2.1 fun q e s L ho => by subst e; exact (Props.C34_one_qubit_partial s q L 0 0 n ho h.2.2).2.2.2.2.2.2.2.1
  case ryPiBy n =>
    match rs, h with
    | [r], h => exact key (g := fun k => (Rotations.ryPiBy r n : M (NB k) Reg)) (fun k => rfl) h.2.1 fun q e s L ho => by subst e; exact (Props.C34_one_qubit_partial s q L 0 0 n ho h.2.2).2.2.2.2.2.2.2.2
  all_goals exact absurd ht Bool.false_ne_true

theorem Method.both {k : ℕ} {cs : List Reg} (hk : cs.length = k) (m : Method) (rs : List Reg) (h : m.TakesLoose (decide (k ≠ 0)) rs) (hn : rs.flatten.Nodup) :
    Both rotAngle cs (m.run rs : M (NB k) _) rs rs.flatten (m.looseWave (Mode.at k) rs) (m.looseWave .idle rs) := by
  rcases k with _ | k
  · obtain rfl := List.length_eq_zero_iff.mp hk
    have h' : m.Takes false rs := by rcases h with h | h; exacts [h, h.2]
    exact Both.free (m.moves (k := 0) (cs := []) rfl rs h' hn) (m.idle_keeps _ rs h hn)
  · have hc : cs ≠ [] := fun e => by subst e; simp at hk
    by_cases hm : m = .qfft
    · subst hm
      obtain ⟨r, rfl, hr⟩ := Method.qfft_takes h
      have := (qfft_both (k := k + 1) r hr (by simpa using hn) hc).map (f := fun r => [r]) rfl
      rw [List.flatten_singleton]
      exact this
    · by_cases ht : m.Turns = true
      · refine (m.both_rot hm ht rs (Method.takes_false ht h)).congr (fun x => ?_) fun x => ?_
        · exact ((Method.looseWave_held hm rs x).trans (if_pos ht)).symm
        · exact ((Method.looseWave_idle hm rs x).trans (if_pos ht)).symm
      · refine (m.moves hk rs (Method.takes_held ht h) hn).both.congr (fun x => ?_) fun x => ?_
        · exact ((Method.looseWave_held hm rs x).trans (if_neg ht)).symm
        · exact ((Method.looseWave_idle hm rs x).trans (if_neg ht)).symm

/-! ## programs -/

theorem Prog.looseWave_blind (p : Prog) (mode : Mode) (rs : List Reg) (h : p.TakesLoose mode.inside rs) : Blind rs.flatten (p.looseWave mode rs) := fun c hc m x => by
  let f : Asg := fun q => decide (q ∈ c ∧ m.testBit (c.idxOf q) = false)
  have e : ∀ x, mv 1 f x = negMask c m x := fun x => by
    funext q
    unfold mv negMask
    rw [show (Equiv.symm (1 : Equiv.Perm ℕ)) q = q from rfl]
    by_cases hq : q ∈ c ∧ m.testBit (c.idxOf q) = false
    · rw [if_pos hq, show f q = true from decide_eq_true hq]; simp
    · rw [if_neg hq, show f q = false from decide_eq_false hq]; simp
  have e' : mvW 1 f = lift fun y => ket (negMask c m y) := wave_ext fun y => by rw [mvW_ket, lift_ket, e]
  have hs := p.looseWave_same (σ := 1) (f := f) mode rs h (fun q hq => decide_eq_false fun h => hc q hq h.1) (negMask c m x)
  rw [show rs.map (List.map (1 : Equiv.Perm ℕ)) = rs by simp [show (List.map id : Reg → Reg) = id from funext List.map_id], e, e', Maps.negMask_negMask] at hs
  exact hs.symm

/-- a program acts on any registers as on those of a new builder -/
theorem Prog.looseWave_move (p : Prog) (mode : Mode) (rs : List Reg) (h : p.TakesLoose mode.inside rs) (hn : rs.flatten.Nodup)
    (hk : ∀ x, On {y | ∀ q, q ∉ (ranges 0 (rs.map List.length)).flatten → y q = x q} (p.looseWave mode (ranges 0 (rs.map List.length)) x)) (x : Asg) :
    p.looseWave mode rs x = moveW rs.flatten (p.looseWave mode (ranges 0 (rs.map List.length))) x :=
  Verif.wave_move (W := p.looseWave mode) hn (fun σ f hf => p.looseWave_same mode _ (p.takesLoose_congr _ _ _ (ranges_map_length _ _) h) hf) (fun z hz =>
    (hk z).mono fun y hy i hi => by
      rw [hy i (by rw [ranges_flatten, List.mem_range'_1, ← List.length_flatten]; omega)]
      exact hz i hi) x

/-- inverting a function outside conditions -/
theorem moves_inv_loose (p : Prog) (rs : List Reg) (hne : rs ≠ []) (hr : ∀ r ∈ rs, r ≠ []) (hn : rs.flatten.Nodup)
    (hp : p.TakesLoose false (ranges 0 (rs.map List.length))) (ht : Touches (rs.flatten.length - 1) (p.looseWave .outside (ranges 0 (rs.map List.length))))
    (h : Moves rotAngle [] (p.run (ranges 0 (rs.map List.length)) : M LocalBuilder _) (ranges 0 (rs.map List.length)) (ranges 0 (rs.map List.length)).flatten
      (p.looseWave .outside (ranges 0 (rs.map List.length)))) :
    Moves rotAngle [] (inverter rs (fun rs => p.run rs) : M LocalBuilder _) rs rs.flatten (daggerW rs.flatten (p.looseWave .outside rs)) ∧
      Moves rotAngle [] (invertFn (fun rs => p.run rs) rs : M LocalBuilder _) rs rs.flatten (daggerW rs.flatten (p.looseWave .outside rs)) := by
  have hfl : (ranges 0 (rs.map List.length)).flatten = List.range rs.flatten.length := by
    rw [ranges_flatten, List.range_eq_range', List.length_flatten]
  have hmv := p.looseWave_move .outside rs (takesLoose_ranges hp) hn h.keeps
  have hmv0 := p.looseWave_move .outside _ hp (by rw [hfl]; exact List.nodup_range) (by rw [ranges_map_length]; exact h.keeps)
  rw [ranges_map_length, hfl] at hmv0
  have hpos : 0 < rs.flatten.length := by
    cases rs with
    | nil => exact absurd rfl hne
    | cons r rs =>
      have := List.length_pos_iff.mpr (hr r (by simp))
      simp
      omega
  have hk : ∀ z ∈ Low rs.flatten.length, On (Low rs.flatten.length) (p.looseWave .outside (ranges 0 (rs.map List.length)) z) := fun z hz =>
    (h.keeps z).mono fun y hy i hi => by
      rw [hy i (by rw [hfl, List.mem_range]; omega)]
      exact hz i hi
  have hf := (h.does ⟨[], rs.flatten.length, [], 0⟩ [] rfl (by
    rw [hfl, List.append_nil]; exact fresh_own _)).congrU (U' := p.looseWave .outside (ranges 0 (rs.map List.length))) fun x _ => by simp
  have e : daggerW rs.flatten (p.looseWave .outside rs) =
      moveW rs.flatten (daggerW (List.range rs.flatten.length) (p.looseWave .outside (ranges 0 (rs.map List.length)))) := by
    funext x
    rw [← dagger_move hn hk, ← (funext hmv : p.looseWave .outside rs = _)]
  have hi := fun (s : LocalBuilder) (L : List ℕ) (ho : Own s (rs.flatten ++ L)) =>
    inverter_does rotAngle_neg' (f := fun rs => p.run rs) hne hr hf (fun b hb => by
      obtain ⟨b', f1, -, -, f4⟩ := hf
      obtain ⟨seg, g1, g2, g3⟩ := f4.seg
      have : b' = b := by
        rw [f1] at hb
        exact (EStateM.Result.ok.inj hb).2
      subst this
      obtain ⟨m, m1, m2⟩ := maxIndex_of_touched (touches_last hpos (seg := seg) (fun z hz => (g3 z ((fresh_clean _ z).mpr hz)).1) hmv0 ht)
      exact ⟨m, by rw [show b'.pipeline = seg from g1]; exact m1, by omega⟩) (daggerW (List.range rs.flatten.length) (p.looseWave .outside (ranges 0 (rs.map List.length))))
      (fun z hz => ⟨(dagger_spec hf hk hz).1, (dagger_spec hf hk hz).2.1⟩) ho
  rw [e]
  exact ⟨moves_free (fun x => move_on _ _ x) fun s L ho => (hi s L ho).1, moves_free (fun x => move_on _ _ x) fun s L ho => (hi s L ho).2⟩

theorem daggerW_on (Q : List ℕ) (U : Asg → Wave) (x : Asg) : On {y | ∀ q, q ∉ Q → y q = x q} (daggerW Q U x) := by
  unfold daggerW
  refine Submodule.sum_mem _ fun v _ => On.smul (On.ket (S := {y | ∀ q, q ∉ Q → y q = x q}) fun q hq => ?_) _
  exact writeQ_not_mem _ _ _ _ hq

/-- a part of the program inside one more condition -/
theorem Mode.at_inner (k : ℕ) (P : Prop) [Decidable P] (W : Mode → Wave) : W ((Mode.at k).inner P) = if P then W .held else W .idle := by
  cases k <;> simp only [Mode.at, Mode.inner] <;> split_ifs <;> rfl

mutual
theorem Prog.both : (p : Prog) → (k : ℕ) → (cs : List Reg) → cs.length = k → (rs : List Reg) → p.TakesLoose (decide (k ≠ 0)) rs → rs.flatten.Nodup →
    Both rotAngle cs (p.run rs : M (NB k) _) rs rs.flatten (p.looseWave (Mode.at k) rs) (p.looseWave .idle rs)
  | .call m, k, cs, hk, rs, h, hn => by
    simp only [Prog.TakesLoose] at h
    refine ((m.both hk rs h hn).cast ?_ rfl).congr (fun x => by simp only [Prog.looseWave]) fun x => by simp only [Prog.looseWave]
    simp only [Prog.run]
  | .seq p q, k, cs, hk, rs, h, hn => by
    simp only [Prog.TakesLoose] at h
    refine (((p.both k cs hk rs h.1 hn).bind (f := fun rs => q.run rs) (q.both k cs hk rs h.2 hn)).cast ?_ rfl).congr (fun x => by
      simp only [Prog.looseWave, lift_eq]) fun x => by simp only [Prog.looseWave, lift_eq]
    simp only [Prog.run]
  | .cond p, k, cs, hk, cr :: rs, h, hn => by
    simp only [Prog.TakesLoose] at h
    rw [List.flatten_cons] at hn ⊢
    have h1 : Both rotAngle (cr :: cs) (p.run rs : M (Conditioned (NB k)) _) rs rs.flatten (p.looseWave .held rs) (p.looseWave .idle rs) :=
      p.both (k + 1) (cr :: cs) (by simp [hk]) rs h.2 (List.nodup_append.mp hn).2.1
    refine (((h1.conditioned h.1).map (f := fun p : List Reg × Reg => p.2 :: p.1) rfl).cast ?_ rfl).congr (fun x => ?_) fun x => ?_
    · simp only [Prog.run]
    · simp only [Prog.looseWave]
      exact (Mode.at_inner k _ fun m => p.looseWave m rs x).symm
    · simp only [Prog.looseWave, Mode.inner]
  | .cond p, _, _, _, [], h, _ => by simp [Prog.TakesLoose] at h
  | .prog ls, k, cs, hk, rs, h, hn => by
    simp only [Prog.TakesLoose] at h
    refine ((Both.program_nodup h.1 hn (ls.both k cs hk rs h.2 hn)).cast ?_ rfl).congr (fun x => by simp only [Prog.looseWave]) fun x => by
      simp only [Prog.looseWave]
    simp only [Prog.run]
  | .sized F, k, cs, hk, rs, h, hn => by
    simp only [Prog.TakesLoose] at h
    refine (((F (rs.map List.length)).both k cs hk rs h hn).cast ?_ rfl).congr (fun x => by simp only [Prog.looseWave]) fun x => by simp only [Prog.looseWave]
    simp only [Prog.run]
  | .inv attr p, k, cs, hk, rs, h, hn => by
    simp only [Prog.TakesLoose] at h
    obtain ⟨h0, h1, h2, h3, h4⟩ := h
    rcases nb_zero_or k hk with ⟨rfl, rfl⟩ | ⟨hne, -⟩
    · have hfl : (ranges 0 (rs.map List.length)).flatten.Nodup := by rw [ranges_flatten]; exact List.nodup_range'
      have hb : Both (β := LocalBuilder) rotAngle [] (p.run (ranges 0 (rs.map List.length))) (ranges 0 (rs.map List.length)) (ranges 0 (rs.map List.length)).flatten
        (p.looseWave .outside (ranges 0 (rs.map List.length))) (p.looseWave .idle (ranges 0 (rs.map List.length))) := p.both 0 [] rfl _ h3 hfl
      have := moves_inv_loose p rs h1 h2 hn h3 h4 hb.moves
      cases attr with
      | false => exact (Both.free (V := (Prog.inv false p).looseWave .idle rs) (this.1.cast (by simp [Prog.run]; rfl) rfl) fun x => by
          simp only [Prog.looseWave]; exact daggerW_on _ _ x).congr (fun x => by simp [Prog.looseWave, Mode.at]) fun x => rfl
      | true => exact (Both.free (V := (Prog.inv true p).looseWave .idle rs) (this.2.cast (by simp [Prog.run]; rfl) rfl) fun x => by
          simp only [Prog.looseWave]; exact daggerW_on _ _ x).congr (fun x => by simp [Prog.looseWave, Mode.at]) fun x => rfl
    · simp [hne] at h0

theorem Lines.both : (ls : Lines) → (k : ℕ) → (cs : List Reg) → cs.length = k → (rs : List Reg) → ls.TakesLoose (decide (k ≠ 0)) rs → rs.flatten.Nodup →
    Both rotAngle cs (ls.lines.foldlM runLine (full rs) : M (NB k) _) (full rs) rs.flatten (ls.looseWave (Mode.at k) rs) (ls.looseWave .idle rs)
  | .nil, k, cs, hk, rs, _, _ => by
    refine ((Both.lines_nil (β := NB k) (ang := rotAngle) (cs := cs) (rs := rs)).cast ?_ rfl).congr (fun x => by simp only [Lines.looseWave]) fun x => by
      simp only [Lines.looseWave]
    simp only [Lines.lines]
  | .plain p gs ls, k, cs, hk, rs, h, hn => by
    simp only [Lines.TakesLoose] at h
    obtain ⟨g1, g2⟩ := groups_nodup rs hn _ h.1
    refine ((Both.lines_cons (β := NB k) (l := .plain (fun rs => p.run rs) gs) hn h.1 (p.both k cs hk _ h.2.1 g1) rfl (ls.both k cs hk rs h.2.2 hn)).cast ?_ rfl).congr
      (fun x => by simp only [Lines.looseWave, lift_eq]) fun x => by simp only [Lines.looseWave, lift_eq]
    simp only [Lines.lines]
  | .control m p g gs ls, k, cs, hk, rs, h, hn => by
    simp only [Lines.TakesLoose] at h
    obtain ⟨g1, g2, g3, g4, g5, g6⟩ := control_disjoint hn h.1
    have h1 : Both rotAngle (groupReg rs g :: cs) (p.run (gs.map (groupReg rs)) : M (Conditioned (NB k)) _) (gs.map (groupReg rs))
        (gs.map (groupReg rs)).flatten (p.looseWave .held (gs.map (groupReg rs))) (p.looseWave .idle (gs.map (groupReg rs))) :=
      p.both (k + 1) (groupReg rs g :: cs) (by simp [hk]) _ h.2.1 g1
    have h2 := Both.control_holds (β := NB k) (f := fun rs => p.run rs) m rfl rfl g4 g3 (fun m x => p.looseWave_blind .held _ h.2.1 _ g6 m x)
      (fun m x => p.looseWave_blind .idle _ h.2.1 _ g6 m x) h1
    refine ((Both.lines_cons (β := NB k) (l := .control m (fun rs => p.run rs) (g :: gs)) hn h.1 h2 rfl (ls.both k cs hk rs h.2.2 hn)).cast ?_ rfl).congr
      (fun x => ?_) fun x => ?_
    · simp only [Lines.lines]
    · simp only [Lines.looseWave, lift_eq]
      rw [Mode.at_inner k _ fun m => p.looseWave m (gs.map (groupReg rs)) x]
    · simp only [Lines.looseWave, lift_eq, Mode.inner]
end

end Verif
