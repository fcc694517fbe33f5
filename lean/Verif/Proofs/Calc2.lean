import Verif.Proofs.Calc
import Verif.Proofs.Measure2
import Verif.Props.Ops

/-! # Probability, and measuring a basis state -/

namespace Verif
open Complex Classical Finset

/-! ## values of registers -/

theorem testBit_valQ (r : Reg) (x : Asg) (i : ℕ) :
    (valQ r x).testBit i = if h : i < r.length then x r[i] else false := by
  induction r generalizing i with
  | nil => simp [valQ]
  | cons q r ih =>
    rw [valQ, add_comm, testBit_two_mul_add]
    cases i with
    | zero => simp
    | succ i => simp [ih]

theorem valQ_lt (r : Reg) (x : Asg) : valQ r x < 2 ^ r.length := by
  apply Nat.lt_pow_two_of_testBit
  intro i hi
  rw [testBit_valQ, dif_neg (by omega)]

theorem valQ_congr (r : Reg) (x y : Asg) (h : ∀ q ∈ r, x q = y q) : valQ r x = valQ r y := by
  induction r with
  | nil => rfl
  | cons q r ih => rw [valQ, valQ, h q (by simp), ih fun p hp => h p (by simp [hp])]

theorem valQ_init (r : Reg) (hn : r.Nodup) (v : ℕ) (it : List (Reg × ℕ)) (h : (r, v) ∈ it)
    (hd : ∀ p ∈ it, p ≠ (r, v) → List.Disjoint r p.1) : valQ r (initAsg it) = v % 2 ^ r.length := by
  apply Nat.eq_of_testBit_eq
  intro i
  rw [testBit_valQ, Nat.testBit_mod_two_pow]
  split
  · rename_i hi
    simp only [hi, decide_true, Bool.true_and]
    unfold initAsg
    rw [Bool.eq_iff_iff, decide_eq_true_eq]
    constructor
    · rintro ⟨p, hp, k, hk, hb⟩
      by_cases he : p = (r, v)
      · subst he
        have := (List.getElem?_eq_some_iff.mp hk)
        obtain ⟨hk1, hk2⟩ := this
        rw [(List.Nodup.getElem_inj_iff hn).mp hk2] at hb
        exact hb
      · exact absurd (List.mem_of_getElem? hk) (fun hm => hd p hp he (List.getElem_mem hi) hm)
    · intro hb
      exact ⟨(r, v), h, i, by simp [hi], hb⟩
  · rename_i hi
    simp [hi]

/-! ## unitarity of the gates -/

theorem mat2_unitary (a b c d : ℂ) (h1 : star a * a + star c * c = 1) (h2 : star b * b + star d * d = 1)
    (h3 : star a * b + star c * d = 0) : IsUnitary 1 (mat2 a b c d) := by
  have h4 : star b * a + star d * c = 0 := by
    have := congrArg star h3
    simpa [mul_comm] using this
  intro r s hr hs
  simp at hr hs
  rw [pow_one, sum_range_succ, sum_range_one]
  interval_cases r <;> interval_cases s <;> simp [mat2] at * <;> assumption

theorem uMat_unitary (ang : Rot → ℝ) (k : ℕ) (u : UObj) (hs : u.Shape k)
    (hm : ∀ data, u = .MAT data → IsUnitary k (uMat ang k u)) : IsUnitary k (uMat ang k u) := by
  have s2 := sqrt2_sq
  cases u with
  | X => obtain rfl := hs; exact mat2_unitary _ _ _ _ (by simp) (by simp) (by simp)
  | Y => obtain rfl := hs; exact mat2_unitary _ _ _ _ (by simp) (by simp) (by simp)
  | Z => obtain rfl := hs; exact mat2_unitary _ _ _ _ (by simp) (by simp) (by simp)
  | H =>
    obtain rfl := hs
    have e : star (1 / (Real.sqrt 2 : ℂ)) = 1 / (Real.sqrt 2 : ℂ) := by simp
    refine mat2_unitary _ _ _ _ ?_ ?_ ?_
    · rw [e]; linear_combination 2 * s2
    · rw [star_neg, e]; linear_combination 2 * s2
    · rw [e]; ring
  | S => obtain rfl := hs; exact mat2_unitary _ _ _ _ (by simp) (by simp) (by simp)
  | T =>
    obtain rfl := hs
    refine mat2_unitary _ _ _ _ (by simp) ?_ (by simp)
    have : star (exp (Real.pi / 4 * I)) * exp (Real.pi / 4 * I) = 1 := by
      show (starRingEnd ℂ) _ * _ = 1
      have h4 : (starRingEnd ℂ) (4 : ℂ) = 4 := by simpa using Complex.conj_ofReal 4
      rw [← exp_conj, ← Complex.exp_add]
      simp [h4]
    rw [this]; simp
  | CNOT =>
    obtain rfl := hs
    intro r s hr hs
    have hr' : r < 4 := hr
    have hs' : s < 4 := hs
    clear hr hs
    rw [show (2 : ℕ) ^ 2 = 4 from rfl]
    simp only [sum_range_succ, sum_range_zero]
    interval_cases r <;> interval_cases s <;> simp [uMat]
  | SWAP =>
    obtain ⟨h1, h2⟩ := hs
    obtain ⟨h, hh⟩ : ∃ h, k = h * 2 := ⟨k / 2, by omega⟩
    have := swap_unitary (K := ℂ) h (List.range k)
    rw [← hh] at this
    intro r s hr hs
    rw [← this r s hr hs]
    apply sum_congr rfl
    intro t ht
    have ht' := mem_range.mp ht
    have key : ∀ c, c < 2 ^ k → uMat ang k .SWAP t c = opMat (.swap h (List.range k) : MatrixOp ℂ) t c := by
      intro c hc
      obtain ⟨op, g1, g2⟩ := unitaryOp_ok (List.range k) .SWAP (by simp only [UObj.Shape, List.length_range]; exact ⟨h1, h2⟩) (by simp)
      have hd : k / 2 = h := by omega
      simp only [opMat, uMat, hd]
      have e := swapHalves_iff h c t (by rw [← hh]; exact hc) (by rw [← hh]; exact ht')
      unfold swapHalves at e
      congr 1
      rw [eq_iff_iff, eq_comm, e]
      constructor
      · intro g i hi; exact ⟨(g i hi).2.symm, (g i hi).1.symm⟩
      · intro g i hi; exact ⟨(g i hi).2.symm, (g i hi).1.symm⟩
    rw [key r hr, key s hs]
  | Rz ρ =>
    obtain rfl := hs
    have : ∀ z : ℝ, star (exp (z * I)) * exp (z * I) = 1 := by
      intro z
      show (starRingEnd ℂ) _ * _ = 1
      rw [← exp_conj, ← Complex.exp_add]
      simp
    refine mat2_unitary _ _ _ _ ?_ ?_ (by simp)
    · have := this (-(ang ρ / 2)); push_cast at this; rw [this]; simp
    · have := this (ang ρ / 2); push_cast at this; rw [this]; simp
  | GlobalPhase ρ =>
    intro r s hr hs
    simp only [uMat]
    rw [Finset.sum_eq_single r]
    · simp
    · intro b _ hb; simp [hb]
    · intro hn; exact absurd (mem_range.mpr hr) hn
  | MAT data => exact hm data rfl

theorem calcStep_prob (n : ℕ) (rnds : ℕ → ℝ) (st : CalcState) (hl : st.state.length = 2 ^ n)
    (ha : st.arena.length = 2 ^ n) (e : List ℕ × CObj) (he : SegOK n e)
    (hm : ∀ data, e.2.object = .unitary (.MAT data) →
      IsUnitary e.1.length fun i j => (data[i * 2 ^ e.1.length + j]?).getD 0) :
    ∃ st', calcStep n rnds st e = some st' ∧ st'.state.length = 2 ^ n ∧ st'.arena.length = 2 ^ n ∧
      probMagnitude st'.state = probMagnitude st.state := by
  obtain ⟨⟨h1, h2, h3⟩, -, u, hu, hg⟩ := he
  obtain ⟨op, g1, g2⟩ := unitaryOp_ok e.1 u (h3 u hu) hg
  have hun : IsUnitary op.indices.length (opMat op) := by
    rw [g2.ind]
    have := uMat_unitary rotAngle e.1.length u (h3 u hu) (by rintro data rfl; exact hm data hu)
    intro r c hr hc
    rw [← this r c hr hc]
    apply sum_congr rfl
    intro s hs
    rw [g2.mat _ _ (mem_range.mp hs) hr, g2.mat _ _ (mem_range.mp hs) hc]
  obtain ⟨w, w1, w2⟩ := Props.C17_prob_magnitude n op g2.wf (by rw [g2.ind]; exact h1) (by rw [g2.ind]; exact h2) hun
    st.state st.arena hl ha
  have hw : w.length = 2 ^ n := by
    rw [applyOpOverwrite_eq n op g2.wf (by rw [g2.ind]; exact h2)] at w1
    cases w1; simp [ha]
  refine ⟨{ state := w, arena := st.state, measurements := st.measurements }, ?_, hw, hl, w2⟩
  unfold calcStep
  rw [hu]
  cases u with
  | GlobalPhase ρ => exact absurd rfl (hg ρ)
  | _ => simp [g1, w1]

theorem calcFold_prob (n : ℕ) (rnds : ℕ → ℝ) (p : Pipeline) (hp : ∀ e ∈ p, SegOK n e) (hm : UnitaryMats p)
    (st : CalcState) (hl : st.state.length = 2 ^ n) (ha : st.arena.length = 2 ^ n) :
    ∃ st', calcFold n rnds p st = some st' ∧ st'.state.length = 2 ^ n ∧ st'.arena.length = 2 ^ n ∧
      probMagnitude st'.state = probMagnitude st.state := by
  induction p generalizing st with
  | nil => exact ⟨st, rfl, hl, ha, rfl⟩
  | cons e p ih =>
    obtain ⟨s1, a1, a2, a3, a4⟩ := calcStep_prob n rnds st hl ha e (hp e (by simp)) (hm e (by simp))
    obtain ⟨s2, b1, b2, b3, b4⟩ := ih (fun e' he' => hp e' (by simp [he'])) (fun e' he' => hm e' (by simp [he'])) s1 a2 a3
    refine ⟨s2, ?_, b2, b3, b4.trans a4⟩
    unfold calcFold at b1 ⊢
    rw [List.foldlM_cons, a1]
    exact b1

/-! ## basis states -/

/-- the vector of a basis state -/
noncomputable def bvec (n j : ℕ) : List ℂ := (List.replicate (2 ^ n) (0 : ℂ)).set j 1

theorem bvec_length (n j : ℕ) : (bvec n j).length = 2 ^ n := by simp [bvec]

theorem bvec_get (n j i : ℕ) (hi : i < 2 ^ n) : (bvec n j)[i]? = some (if j = i then 1 else 0) := by
  unfold bvec
  rw [List.getElem?_set]
  by_cases h : j = i
  · subst h; simp [hi]
  · simp [h, hi]

theorem bvec_amp (n j i : ℕ) (hj : j < 2 ^ n) : ampAt (bvec n j) 0 i = if j = i then 1 else 0 := by
  unfold ampAt
  rw [if_neg (by omega), Nat.sub_zero]
  by_cases hi : i < 2 ^ n
  · rw [bvec_get n j i hi]; rfl
  · rw [List.getElem?_eq_none (by rw [bvec_length]; omega), if_neg (by omega)]; rfl

theorem bvec_prob (n j : ℕ) (hj : j < 2 ^ n) : probMagnitude (bvec n j) = 1 := by
  rw [probMagnitude_eq, bvec_length, Finset.sum_eq_single j]
  · rw [bvec_amp n j j hj]; simp
  · intro b _ hb; rw [bvec_amp n j b hj, if_neg (fun e => hb e.symm)]; simp
  · intro hn; exact absurd (mem_range.mpr hj) hn

theorem bvec_prefix (n j : ℕ) : prefixProb (bvec n j) j = 0 := by
  unfold prefixProb bvec
  rw [List.take_set_of_le (le_refl _)]
  unfold probMagnitude
  simp

theorem bvec_softLoop (n j : ℕ) (hj : j < 2 ^ n) (r : ℝ) (h0 : 0 < r) (h1 : r ≤ 1) :
    softLoop (bvec n j) 0 r = some j := by
  rw [softLoop_pos _ _ h0, bvec_prefix, prefixProb_succ _ _ (by rw [bvec_length]; exact hj), bvec_prefix]
  refine ⟨by rw [bvec_length]; exact hj, h0, ?_⟩
  have := bvec_get n j j hj
  rw [List.getElem?_eq_getElem (by rw [bvec_length]; exact hj)] at this
  rw [Option.some.inj this]
  simpa using h1

theorem bvec_born (n j : ℕ) (hj : j < 2 ^ n) (r : List ℕ) (m : ℕ) :
    bornProb n r m (ampAt (bvec n j) 0) = if Spells n r m j then 1 else 0 := by
  unfold bornProb
  rw [sum_filter, Finset.sum_eq_single j]
  · rw [bvec_amp n j j hj]; simp
  · intro b _ hb; rw [bvec_amp n j b hj, if_neg (fun e : j = b => hb e.symm)]; simp
  · intro hn; exact absurd (mem_range.mpr hj) hn

/-- measuring a basis state returns the value of the register with probability 1 and leaves the state -/
theorem measure_bvec (n j : ℕ) (hj : j < 2 ^ n) (r : List ℕ) (hn : r.Nodup) (hi : ∀ q ∈ r, q < n) (buf : List ℂ)
    (hb : buf.length = 2 ^ n) (rnd : ℝ) (h0 : 0 < rnd) (h1 : rnd ≤ 1) :
    measure n r (bvec n j) buf none none rnd = some ((valQ r (asg n j), 1), bvec n j) := by
  have hv : outcomeOf n r j = valQ r (asg n j) := by
    apply Nat.eq_of_testBit_eq
    intro i
    rw [testBit_valQ]
    by_cases h : i < r.length
    · rw [dif_pos h, ← spells_outcomeOf n r j i h]
      unfold asg
      simp [hi _ (List.getElem_mem h)]
    · rw [dif_neg h, Nat.testBit_lt_two_pow (lt_of_lt_of_le (outcomeOf_lt n r j) (Nat.pow_le_pow_right (by omega) (by omega)))]
  have e1 : softMeasure n r (bvec n j) none rnd = some (outcomeOf n r j) := by
    rw [softMeasure_eq n r hi _ _ _ (Or.inr (bvec_prob n j hj)), bvec_prob n j hj, mul_one, bvec_softLoop n j hj rnd h0 h1]
    rfl
  have e2 : measureProb n (outcomeOf n r j) r (bvec n j) none = some 1 := by
    rw [measureProb_eq n _ r hn hi]
    simp only [Option.getD_none]
    rw [bvec_born n j hj, if_pos (spells_outcomeOf n r j)]
  obtain ⟨out, o1, o2, o3⟩ := measureState_eq n (outcomeOf n r j) r hn hi 1 one_ne_zero (bvec n j) buf 0 0
    (by rw [bvec_length, hb]; simp)
  have e3 : measureState n r (outcomeOf n r j, 1) (bvec n j) buf none = some (bvec n j) := by
    have : measureState n r (outcomeOf n r j, 1) (bvec n j) buf none =
      measureState n r (outcomeOf n r j, 1) (bvec n j) buf (some (0, 0)) := rfl
    rw [this, o1]
    congr 1
    apply List.ext_getElem?
    intro i
    by_cases hi' : i < 2 ^ n
    · rw [o3 i (by omega), bvec_length, if_pos ⟨by omega, by omega⟩, bvec_get n j i hi', Nat.zero_add, bvec_amp n j i hj]
      congr 1
      by_cases h : j = i
      · subst h; simp [spells_outcomeOf]
      · simp [h]
    · rw [List.getElem?_eq_none (by omega), List.getElem?_eq_none (by rw [bvec_length]; omega)]
  unfold measure
  rw [hv] at e1 e2 e3
  simp [e1, e2, e3]

theorem rep_unique {n : ℕ} {v w : List ℂ} {ψ : Wave} (hv : Rep n v ψ) (hw : Rep n w ψ) : v = w := by
  apply List.ext_getElem?
  intro i
  by_cases hi : i < 2 ^ n
  · rw [hv.2 i hi, hw.2 i hi]
  · rw [List.getElem?_eq_none (by rw [hv.1]; omega), List.getElem?_eq_none (by rw [hw.1]; omega)]

/-- the index of a basis state -/
theorem asg_surj (n : ℕ) (x : Asg) (hx : ∀ q, n ≤ q → x q = false) : ∃ j, j < 2 ^ n ∧ asg n j = x := by
  refine ⟨readQ (List.range n) x, by simpa using readQ_lt (List.range n) x, ?_⟩
  funext q
  unfold asg
  by_cases hq : q < n
  · rw [testBit_readQ, dif_pos (by simp; omega)]
    simp only [hq, decide_true, Bool.true_and, List.length_range, List.getElem_range]
    rw [show n - 1 - (n - 1 - q) = q by omega]
  · simp [hq, hx q (by omega)]

end Verif
