import Verif.Model.Arith
import Verif.Props.Cond
import Mathlib.Algebra.BigOperators.Fin

/-! # The circuit of `qfft` and its amplitudes -/

namespace Verif
open Complex Finset

variable (ang : Rot → ℝ)

/-! ## The circuit -/

/-- the rotations and the Hadamard gate of qubit `q`, followed by `m` more qubits -/
def qfftColSeg (q m : ℕ) : Pipeline :=
  ((List.range' 1 m).map fun d => [(([q], ⟨1, .unitary (.Rz (.piRational (1 / (((2 ^ d : ℕ) : ℤ) : ℚ))))⟩) : List ℕ × CObj)]).flatten ++ each [q] .H

/-- all rotations and Hadamard gates -/
def qfftColsSeg : Reg → Pipeline
  | [] => []
  | q :: r => qfftColSeg q r.length ++ qfftColsSeg r

/-- the exchanges -/
def qfftSwapsSeg (r : Reg) : Pipeline := swapSeg (r.take (r.length / 2)) (r.reverse.take (r.length / 2))

theorem foldlM_emits {σ γ : Type} (f : σ → γ → M LocalBuilder σ) (st : σ) (seg : γ → Pipeline) (l : List γ)
    (h : ∀ a ∈ l, Emits (f st a) st (seg a)) : Emits (l.foldlM f st) st (l.map seg).flatten := by
  induction l with
  | nil => exact Emits.pure st
  | cons a l ih =>
    rw [List.foldlM_cons, List.map_cons, List.flatten_cons]
    exact Emits.bind (h a (by simp)) (ih fun b hb => h b (by simp [hb]))

theorem set_same {α : Type} (l : List α) (i : ℕ) (a : α) (h : l[i]? = some a) : l.set i a = l := by
  apply List.ext_getElem?
  intro j
  rw [List.getElem?_set]
  split
  · rename_i e; subst e
    rw [h]
    obtain ⟨hi, -⟩ := List.getElem?_eq_some_iff.mp h
    simp [hi]
  · rfl

theorem set_back {α : Type} (l : List α) (i : ℕ) (a b : α) (h : l[i]? = some a) : (l.set i b).set i a = l := by
  rw [List.set_set, set_same l i a h]

theorem qfftRow_emits (i q j : ℕ) (sl : List (Option Reg)) (p : ℕ) (hj : sl[j]? = some (some [p])) :
    Emits (qfftRow i ([q], sl) j) ([q], sl) [([q], ⟨1, .unitary (.Rz (.piRational (1 / (((2 ^ (j - i) : ℕ) : ℤ) : ℚ))))⟩)] := by
  unfold qfftRow
  rw [hj]
  simp only [Option.join_some, unwrapO_some, pure_bind]
  rw [(Props.C37_rotations_partial (β := LocalBuilder) [p] [q] 0 0 _).2.2.2.2.2.2.1, bind_assoc]
  refine Emits.cast (Emits.bind (rzPiBy_emits [q] ((2 ^ (j - i) : ℕ) : ℤ) (by positivity)) (q := []) (c := ([q], sl)) ?_) rfl (by simp)
  simp only [pure_bind]
  rw [set_same sl j _ hj]
  exact Emits.pure _

theorem qfftCol_emits (r : Reg) (i : ℕ) (hi : i < r.length) :
    Emits (qfftCol (r.map fun q => some [q]) i) (r.map fun q => some [q]) (qfftColSeg r[i] (r.length - (i + 1))) := by
  have hget : ∀ j (hj : j < r.length), (r.map fun q => (some [q] : Option Reg))[j]? = some (some [r[j]]) := fun j hj => by
    simp [hj]
  unfold qfftCol
  rw [hget i hi]
  simp only [Option.join_some, unwrapO_some, pure_bind, List.length_map]
  refine Emits.bind (foldlM_emits (qfftRow i) ([r[i]], (r.map fun q => (some [q] : Option Reg)).set i none)
    (fun j => [([r[i]], ⟨1, .unitary (.Rz (.piRational (1 / (((2 ^ (j - i) : ℕ) : ℤ) : ℚ))))⟩)]) _ ?_) (q := each [r[i]] .H) ?_ |>.cast rfl ?_
  · intro j hj
    rw [List.mem_range'_1] at hj
    refine qfftRow_emits i r[i] j _ (r[j]'(by omega)) ?_
    rw [List.getElem?_set_ne (by omega), hget j (by omega)]
  · refine Emits.cast (Emits.bind (h_emits [r[i]] (by simp) (by simp)) (q := []) (Emits.pure _)) ?_ (by simp)
    exact set_back _ i _ _ (hget i hi)
  · unfold qfftColSeg
    congr 2
    rw [List.range'_eq_map_range, List.range'_eq_map_range, List.map_map, List.map_map]
    refine List.map_congr_left fun d _ => ?_
    simp only [Function.comp_apply]
    rw [show i + 1 + d - i = 1 + d by omega]

theorem qfftSwap_emits (r : Reg) (hn : r.Nodup) (i : ℕ) (hi : i < r.length / 2) :
    Emits (qfftSwap (r.map fun q => some [q]) i) (r.map fun q => some [q])
      (swapSeg1 (r[i]'(by omega), r[r.length - 1 - i]'(by omega))) := by
  have hget : ∀ j (hj : j < r.length), (r.map fun q => (some [q] : Option Reg))[j]? = some (some [r[j]]) := fun j hj => by
    simp [hj]
  have hne : i ≠ r.length - 1 - i := by omega
  have hq : r[i]'(by omega) ≠ r[r.length - 1 - i]'(by omega) := fun e => hne ((List.Nodup.getElem_inj_iff hn).mp e)
  unfold qfftSwap
  rw [hget i (by omega)]
  simp only [Option.join_some, unwrapO_some, pure_bind, List.length_map]
  rw [List.getElem?_set_ne hne, hget (r.length - 1 - i) (by omega)]
  simp only [Option.join_some, unwrapO_some, pure_bind]
  refine Emits.cast (Emits.bind (swap_emits [r[i]'(by omega)] [r[r.length - 1 - i]'(by omega)] rfl (by simp) (by simpa using hq)) (q := [])
    (Emits.pure _)) ?_ ?_
  · simp only
    rw [List.set_comm _ _ hne.symm, List.set_set, List.set_set]
    rw [set_same (r.map fun q => (some [q] : Option Reg)) i _ (hget i (by omega)),
      set_same _ (r.length - 1 - i) _ (hget (r.length - 1 - i) (by omega))]
  · simp [swapSeg]

theorem qfftCols_flatten (r : Reg) :
    ((List.range r.length).map fun i => qfftColSeg (r.getD i 0) (r.length - (i + 1))).flatten = qfftColsSeg r := by
  induction r with
  | nil => rfl
  | cons q r ih =>
    rw [List.length_cons, List.range_succ_eq_map, List.map_cons, List.flatten_cons, List.map_map, qfftColsSeg, ← ih]
    congr 1
    congr 1
    refine List.map_congr_left fun i _ => ?_
    simp only [Function.comp_apply, List.getD_cons_succ]
    rw [show r.length + 1 - (i + 1 + 1) = r.length - (i + 1) by omega]

theorem qfftSwaps_flatten (r : Reg) :
    ((List.range (r.length / 2)).map fun i => swapSeg1 (r.getD i 0, r.getD (r.length - 1 - i) 0)).flatten = qfftSwapsSeg r := by
  unfold qfftSwapsSeg swapSeg
  congr 1
  apply List.ext_getElem
  · simp; omega
  · intro i h1 h2
    simp at h1
    simp [List.getElem_zip, List.getElem?_eq_getElem (show i < r.length by omega),
      List.getElem?_eq_getElem (show r.length - 1 - i < r.length by omega)]

theorem qfft_emits (r : Reg) (hr : r ≠ []) (hn : r.Nodup) : Emits (qfft r) r (qfftColsSeg r ++ qfftSwapsSeg r) := by
  unfold qfft
  rw [splitAll_eq r hr hn]
  simp only [pure_bind, List.length_map, List.map_map]
  have e1 := foldlM_emits qfftCol (r.map fun q => some [q]) (fun i => qfftColSeg (r.getD i 0) (r.length - (i + 1))) (List.range r.length) (by
    intro i hi
    rw [List.mem_range] at hi
    rw [List.getD_eq_getElem _ _ hi]
    exact qfftCol_emits r i hi)
  have e2 := foldlM_emits qfftSwap (r.map fun q => some [q]) (fun i => swapSeg1 (r.getD i 0, r.getD (r.length - 1 - i) 0))
    (List.range (r.length / 2)) (by
    intro i hi
    rw [List.mem_range] at hi
    rw [List.getD_eq_getElem _ _ (by omega), List.getD_eq_getElem _ _ (by omega)]
    exact qfftSwap_emits r hn i hi)
  rw [qfftCols_flatten] at e1
  rw [qfftSwaps_flatten] at e2
  refine Emits.bind e1 ?_
  simp only [List.length_map]
  refine Emits.cast (Emits.bind e2 (q := []) (c := r) ?_) rfl (by simp)
  have e3 : (r.map fun q => (some [q] : Option Reg)).mapM id = some (r.map fun q => [q]) := by
    clear e1 e2 hr hn
    induction r with
    | nil => rfl
    | cons q r ih => rw [List.map_cons, List.mapM_cons, ih]; rfl
  rw [e3]
  simp only [unwrapO_some, pure_bind]
  rw [mergeSingles r hr]
  exact Emits.pure r

/-! ## The amplitudes -/

/-- the sum of the angles of the rotations of a qubit followed by `m` others -/
noncomputable def qfftAngle (m : ℕ) : ℝ := ∑ d ∈ range m, ang (.piRational (1 / (2 : ℚ) ^ (d + 1)))

/-- the factor of one qubit going from `b` to `c` -/
noncomputable def qfftFactor (θ : ℝ) (b c : Bool) : ℂ :=
  exp (θ * ((b.toNat : ℂ) - 1 / 2) * I) * (1 / Real.sqrt 2) * (if b = true ∧ c = true then -1 else 1)

/-- the product of the factors -/
noncomputable def qfftColAmp : Reg → Asg → Asg → ℂ
  | [], _, _ => 1
  | q :: r, x, y => qfftFactor (qfftAngle ang r.length) (x q) (y q) * qfftColAmp r x y

theorem rz_ket (q : ℕ) (θ : ℝ) (x : Asg) : gateW [q] (rzMat θ) (ket x) = exp (θ * (((x q).toNat : ℂ) - 1 / 2) * I) • ket x := by
  rw [gate1_ket]
  cases h : x q with
  | false =>
    rw [setQ_self q x false h]
    simp only [rzMat, mat2, Bool.toNat_false, if_true, if_neg one_ne_zero, zero_smul, add_zero]
    congr 2; push_cast; ring
  | true =>
    rw [setQ_self q x true h]
    simp only [rzMat, mat2, Bool.toNat_true, if_true, if_neg one_ne_zero, zero_smul, zero_add]
    congr 2; push_cast; ring

theorem rzs_ket (q m : ℕ) (x : Asg) :
    runW ang (((List.range' 1 m).map fun d => [(([q], ⟨1, .unitary (.Rz (.piRational (1 / (((2 ^ d : ℕ) : ℤ) : ℚ))))⟩) : List ℕ × CObj)]).flatten) (ket x) =
      exp (qfftAngle ang m * (((x q).toNat : ℂ) - 1 / 2) * I) • ket x := by
  induction m with
  | zero => simp [qfftAngle, runW]
  | succ m ih =>
    rw [List.range'_concat, List.map_append, List.flatten_append, runW_append, ih, map_smul]
    show _ • gateW [q] (rzMat _) (ket x) = _
    rw [rz_ket, smul_smul, ← exp_add]
    congr 2
    unfold qfftAngle
    rw [sum_range_succ]
    have e : ((1 : ℚ) / (((2 ^ (1 + 1 * m) : ℕ) : ℤ) : ℚ)) = 1 / (2 : ℚ) ^ (m + 1) := by
      push_cast; rw [show 1 + 1 * m = m + 1 by ring]
    rw [e]
    push_cast
    ring

theorem qfftCol_ket (q m : ℕ) (x : Asg) :
    runW ang (qfftColSeg q m) (ket x) =
      qfftFactor (qfftAngle ang m) (x q) false • ket (setQ q false x) + qfftFactor (qfftAngle ang m) (x q) true • ket (setQ q true x) := by
  unfold qfftColSeg
  rw [runW_append, rzs_ket, map_smul]
  show _ • gateW [q] _ (ket x) = _
  rw [gate1_ket, smul_add, smul_smul, smul_smul]
  unfold qfftFactor
  cases h : x q <;> simp [uMat, mat2]

theorem qfftCols_amp (r : Reg) (hn : r.Nodup) (x y : Asg) [Decidable (∀ q, q ∉ r → y q = x q)] :
    runW ang (qfftColsSeg r) (ket x) y = if ∀ q, q ∉ r → y q = x q then qfftColAmp ang r x y else 0 := by
  classical
  induction r generalizing x with
  | nil =>
    show ket x y = _
    rw [ket_apply]
    by_cases h : x = y
    · subst h; simp [qfftColAmp]
    · rw [if_neg h, if_neg]
      intro hc
      exact h (funext fun q => (hc q (by simp)).symm)
  | cons q r ih =>
    obtain ⟨hq, hn'⟩ := List.nodup_cons.mp hn
    rw [qfftColsSeg, runW_append, qfftCol_ket, map_add, map_smul, map_smul, Finsupp.add_apply, Finsupp.smul_apply, Finsupp.smul_apply,
      ih hn', ih hn']
    have hcong : ∀ b, qfftColAmp ang r (setQ q b x) y = qfftColAmp ang r x y := by
      intro b
      clear ih hn hn'
      induction r with
      | nil => rfl
      | cons p r ih2 =>
        simp only [List.mem_cons, not_or] at hq
        rw [qfftColAmp, qfftColAmp, ih2 hq.2, setQ_ne (Ne.symm hq.1)]
    have hiff : ∀ b, (∀ p, p ∉ r → y p = setQ q b x p) ↔ y q = b ∧ ∀ p, p ∉ q :: r → y p = x p := by
      intro b
      constructor
      · intro h
        refine ⟨by rw [h q hq, setQ_eq], fun p hp => ?_⟩
        simp only [List.mem_cons, not_or] at hp
        have := h p hp.2
        rwa [setQ_ne hp.1] at this
      · rintro ⟨h1, h2⟩ p hp
        by_cases e : p = q
        · subst e; rw [setQ_eq]; exact h1
        · rw [setQ_ne e]
          exact h2 p (by simp [e, hp])
    rw [hcong, hcong]
    simp only [hiff]
    by_cases h : ∀ p, p ∉ q :: r → y p = x p
    · rw [if_pos h]
      simp only [eq_true h, and_true]
      cases hy : y q <;> simp [qfftColAmp, hy]
    · simp only [h, and_false, if_false, smul_zero, add_zero]

/-- a register read backwards -/
def revQ (r : Reg) (y : Asg) : Asg := swapR (r.take (r.length / 2)) (r.reverse.take (r.length / 2)) y

theorem halves_nodup (r : Reg) (hn : r.Nodup) : (r.take (r.length / 2) ++ r.reverse.take (r.length / 2)).Nodup := by
  rw [List.nodup_append]
  refine ⟨hn.sublist (List.take_sublist _ _), (List.nodup_reverse.mpr hn).sublist (List.take_sublist _ _), ?_⟩
  intro a ha b hb e
  subst e
  rw [List.mem_take_iff_getElem] at ha hb
  obtain ⟨i, hi, e1⟩ := ha
  obtain ⟨j, hj, e2⟩ := hb
  rw [List.getElem_reverse] at e2
  rw [← e2] at e1
  have := (List.Nodup.getElem_inj_iff hn).mp e1
  simp at hi hj
  omega

theorem revQ_get (r : Reg) (hn : r.Nodup) (y : Asg) (i : ℕ) (hi : i < r.length) :
    revQ r y r[i] = y (r[r.length - 1 - i]'(by omega)) := by
  have hl : (r.take (r.length / 2)).length = (r.reverse.take (r.length / 2)).length := by simp
  have key : ∀ k (hk : k < r.length / 2), revQ r y (r[k]'(by omega)) = y (r[r.length - 1 - k]'(by omega)) ∧
      revQ r y (r[r.length - 1 - k]'(by omega)) = y (r[k]'(by omega)) := by
    intro k hk
    have h := swapR_get _ _ hl (halves_nodup r hn) y k (by simp; omega)
    simp only [List.getElem_take, List.getElem_reverse] at h
    exact h
  by_cases h1 : i < r.length / 2
  · exact (key i h1).1
  · by_cases h2 : r.length - 1 - i < r.length / 2
    · have h := (key (r.length - 1 - i) h2).2
      simp only [show r.length - 1 - (r.length - 1 - i) = i by omega] at h
      exact h
    · have e : r.length - 1 - i = i := by omega
      simp only [e]
      refine swapR_not_mem _ _ _ _ ?_ ?_
      · intro hm
        rw [List.mem_take_iff_getElem] at hm
        obtain ⟨j, hj, e1⟩ := hm
        have := (List.Nodup.getElem_inj_iff hn).mp e1
        omega
      · intro hm
        rw [List.mem_take_iff_getElem] at hm
        obtain ⟨j, hj, e1⟩ := hm
        rw [List.getElem_reverse] at e1
        have := (List.Nodup.getElem_inj_iff hn).mp e1
        simp at hj
        omega

theorem revQ_not_mem (r : Reg) (y : Asg) (q : ℕ) (hq : q ∉ r) : revQ r y q = y q :=
  swapR_not_mem _ _ _ _ (fun h => hq (List.mem_of_mem_take h)) (fun h => hq (by simpa using List.mem_of_mem_take h))

theorem revQ_revQ (r : Reg) (hn : r.Nodup) (y : Asg) : revQ r (revQ r y) = y := by
  funext q
  by_cases hq : q ∈ r
  · obtain ⟨i, hi, rfl⟩ := List.getElem_of_mem hq
    rw [revQ_get r hn _ i hi, revQ_get r hn _ _ (by omega)]
    simp only [show r.length - 1 - (r.length - 1 - i) = i by omega]
  · rw [revQ_not_mem r _ q hq, revQ_not_mem r _ q hq]

/-- a linear map that permutes the basis states by an involution -/
theorem amp_of_involution (T : Wave →ₗ[ℂ] Wave) (R : Asg → Asg) (hT : ∀ z, T (ket z) = ket (R z)) (hR : ∀ z, R (R z) = z) (ψ : Wave) (y : Asg) :
    T ψ y = ψ (R y) := by
  classical
  induction ψ using Finsupp.induction_linear with
  | zero => simp
  | add f g hf hg => rw [map_add, Finsupp.add_apply, Finsupp.add_apply, hf, hg]
  | single z a =>
    rw [show Finsupp.single z a = a • ket z by unfold ket; rw [Finsupp.smul_single, smul_eq_mul, mul_one], map_smul, hT,
      Finsupp.smul_apply, Finsupp.smul_apply, ket_apply, ket_apply]
    congr 1
    refine if_congr ⟨?_, ?_⟩ rfl rfl
    · rintro rfl; exact (hR z).symm
    · rintro rfl; exact hR y

theorem qfft_amp (r : Reg) (hn : r.Nodup) (x y : Asg) [Decidable (∀ q, q ∉ r → y q = x q)] :
    runW ang (qfftColsSeg r ++ qfftSwapsSeg r) (ket x) y = if ∀ q, q ∉ r → y q = x q then qfftColAmp ang r x (revQ r y) else 0 := by
  classical
  rw [runW_append, amp_of_involution (runW ang (qfftSwapsSeg r)) (revQ r)
    (fun z => swap_ket ang _ _ (by simp) (halves_nodup r hn) z) (revQ_revQ r hn), qfftCols_amp ang r hn]
  refine if_congr ⟨fun h q hq => ?_, fun h q hq => ?_⟩ rfl rfl
  · rw [← revQ_not_mem r y q hq]; exact h q hq
  · rw [revQ_not_mem r y q hq]; exact h q hq

theorem qfftColAmp_prod (r : Reg) (x y : Asg) :
    qfftColAmp ang r x y = ∏ i ∈ range r.length, qfftFactor (qfftAngle ang (r.length - 1 - i)) (x (r.getD i 0)) (y (r.getD i 0)) := by
  induction r with
  | nil => simp [qfftColAmp]
  | cons q r ih =>
    rw [List.length_cons, prod_range_succ', qfftColAmp, ih, mul_comm]
    simp only [List.getD_cons_zero, List.getD_cons_succ]
    congr 1
    refine prod_congr rfl fun i _ => ?_
    rw [show r.length + 1 - 1 - (i + 1) = r.length - 1 - i by omega]

theorem segOK_qfft {b : LocalBuilder} {L : List ℕ} (h : Own b L) (r : Reg) (hn : r.Nodup) (hr : ∀ q ∈ r, q ∈ L) :
    ∀ e ∈ qfftColsSeg r ++ qfftSwapsSeg r, SegU b.n e ∧ ∀ q ∈ e.1, q ∈ L := by
  refine segOK_append ?_ (segOK_swap h _ _ (halves_nodup r hn) ?_)
  · clear hn
    induction r with
    | nil => intro e he; cases he
    | cons q r ih =>
      refine segOK_append (segOK_append ?_ (segOK_each h [q] (by simpa using hr q (by simp)) .H (by trivial) (by simp))) (ih fun p hp => hr p (by simp [hp]))
      intro e he
      rw [List.mem_flatten] at he
      obtain ⟨l, hl, he⟩ := he
      rw [List.mem_map] at hl
      obtain ⟨d, -, rfl⟩ := hl
      exact segOK_one h [q] (by simp) (by simpa using hr q (by simp)) (.Rz _) (by trivial) (by simp) 1 rfl e he
  · intro q hq
    rw [List.mem_append] at hq
    rcases hq with h | h
    · exact hr q (List.mem_of_mem_take h)
    · exact hr q (by simpa using List.mem_of_mem_take h)

end Verif
