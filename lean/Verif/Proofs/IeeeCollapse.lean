import Verif.Proofs.IeeeProb

/-! # The collapsed state in rounded arithmetic -/

namespace Verif
open MatrixOp Finset

theorem mask_spells (n m : ℕ) (indices : List ℕ) (hn : indices.Nodup) (h : ∀ i ∈ indices, i < n) (row : ℕ) :
    ((row &&& foldSet (scatterPairs n (2 ^ indices.length - 1) indices) 0) ^^^ foldSet (scatterPairs n m indices) 0) ≠ 0 ↔
      ¬ Spells n indices m row := by
  classical
  have := measureRow_eq n m indices hn h 1 row 1
  unfold measureRow at this
  simp only at this
  constructor
  · intro h1 h2
    rw [if_pos h1, if_pos h2] at this
    simp at this
  · intro h2 h1
    rw [if_neg (not_not.mpr h1), if_neg h2] at this
    simp at this

open Classical in
/-- what `measure_state` writes, for any arithmetic -/
theorem measureStateP_any {P : Type} (R : Prec P) (n m : ℕ) (indices : List ℕ) (hn : indices.Nodup) (h : ∀ i ∈ indices, i < n) (p : P)
    (hp : R.beq p R.zero = false) (input output : List (P × P)) (hi : input.length = 2 ^ n) (ho : output.length = 2 ^ n) :
    ∃ out, measureStateP R n indices (m, p) input output none = some out ∧ out.length = 2 ^ n ∧
      ∀ r (hr : r < input.length), out[r]? = some (if Spells n indices m r then
        (R.mul input[r].1 (R.div R.one (R.sqrt p)), R.mul input[r].2 (R.div R.one (R.sqrt p))) else (R.zero, R.zero)) := by
  unfold measureStateP
  simp only [Option.getD_none, hp, Bool.not_false, if_true]
  rw [rowMask_eq n indices hn h, measuredMask_eq n m indices hn h]
  simp only [Option.bind_eq_bind, Option.bind_some, max_self, zero_add, Nat.sub_zero, hi, ho, min_self]
  rw [if_neg (by omega), slice, if_pos (by omega), slice, if_pos (by omega)]
  simp only [Option.bind_some]
  refine ⟨_, rfl, ?_, ?_⟩
  · rw [overlay_length _ _ _ (by simp; omega), ho]
  · intro r hr
    rw [overlay_getElem? _ _ _ _ (by simp; omega), if_pos (by simp; omega), List.getElem?_map, List.getElem?_eq_getElem (by simp; omega)]
    simp only [Option.map_some, List.getElem_zipIdx, List.getElem_drop, List.getElem_take, Nat.zero_add, Nat.sub_zero, Nat.add_zero]
    congr 1
    unfold measureRowP
    have := mask_spells n m indices hn h r
    by_cases hs : Spells n indices m r
    · rw [if_pos hs, if_neg (fun e => this.mp e hs)]
    · rw [if_neg hs, if_pos (this.mpr hs)]

variable {f : Format} {fl : ℝ → ℝ}

namespace Format.Arith

theorem sqrt_near (P D y : ℝ) (hP0 : 0 < P) (hy0 : 0 ≤ y) (hy : |y - P| ≤ 6 * D * P) : |Real.sqrt y - Real.sqrt P| ≤ 6 * D * Real.sqrt P := by
  have hs0 : 0 < Real.sqrt P := Real.sqrt_pos.mpr hP0
  have hss : Real.sqrt P ^ 2 = P := Real.sq_sqrt hP0.le
  have hσ0 : 0 ≤ Real.sqrt y := Real.sqrt_nonneg _
  have hσσ : Real.sqrt y ^ 2 = y := Real.sq_sqrt hy0
  have e : |Real.sqrt y - Real.sqrt P| * (Real.sqrt y + Real.sqrt P) = |y - P| := by
    rw [← abs_of_pos (by linarith : 0 < Real.sqrt y + Real.sqrt P), ← abs_mul]
    congr 1
    linear_combination hσσ - hss
  have h1 : |Real.sqrt y - Real.sqrt P| * Real.sqrt P ≤ 6 * D * Real.sqrt P * Real.sqrt P := by
    have : |Real.sqrt y - Real.sqrt P| * Real.sqrt P ≤ |Real.sqrt y - Real.sqrt P| * (Real.sqrt y + Real.sqrt P) :=
      mul_le_mul_of_nonneg_left (by linarith) (abs_nonneg _)
    rw [e] at this
    rw [mul_assoc, ← sq, hss]
    exact this.trans hy
  exact le_of_mul_le_mul_right h1 hs0

theorem inv_near (w s D : ℝ) (hs0 : 0 < s) (hD0 : 0 < D) (hD1 : D ≤ 1 / 64) (hws : |w - s| ≤ 36 / 5 * D * s) :
    0 < w ∧ |1 / w - 1 / s| ≤ 41 / 5 * D * (1 / s) ∧ 1 / w ≤ 5 / 4 * (1 / s) := by
  have hDs : D * s ≤ 1 / 64 * s := mul_le_mul_of_nonneg_right hD1 hs0.le
  have hwb := _root_.abs_le.mp hws
  have hw0 : 71 / 80 * s ≤ w := by linarith
  have hwp : 0 < w := by linarith
  have h1 : 1 / w ≤ 80 / 71 * (1 / s) := by
    rw [div_le_iff₀ hwp, mul_assoc, one_div, mul_comm s⁻¹, ← div_eq_mul_inv]
    have : 71 / 80 ≤ w / s := by rw [le_div_iff₀ hs0]; exact hw0
    linarith
  have his : 0 < 1 / s := by positivity
  refine ⟨hwp, ?_, by linarith⟩
  have e : 1 / w - 1 / s = (s - w) * (1 / w) * (1 / s) := by field_simp
  rw [e, abs_mul, abs_mul, abs_of_pos (by positivity : 0 < 1 / w), abs_of_pos his, abs_sub_comm]
  apply mul_le_mul_of_nonneg_right _ his.le
  refine (mul_le_mul hws h1 (by positivity) (by positivity)).trans ?_
  have : 36 / 5 * D * s * (80 / 71 * (1 / s)) = 576 / 71 * D := by field_simp; ring
  rw [this]
  linarith

theorem inv_big (A : f.Arith fl) (hf : 10 ≤ f.p) (s : ℝ) (hs0 : 0 < s) (h1 : f.eps ≤ s ^ 2) : 1 / s ≤ f.top / 8 := by
  obtain ⟨htop, htop1⟩ := top_big A hf
  rw [div_le_iff₀ hs0]
  by_contra hc
  push Not at hc
  have h0 : 0 ≤ f.top / 8 * s := mul_nonneg (by linarith) hs0.le
  have h2 : (f.top / 8 * s) ^ 2 < 1 := pow_lt_one₀ h0 hc (by norm_num)
  have h3 : f.eps * f.top ^ 2 ≤ 64 * (f.top / 8 * s) ^ 2 := by
    have : 64 * (f.top / 8 * s) ^ 2 = s ^ 2 * f.top ^ 2 := by ring
    rw [this]
    exact mul_le_mul_of_nonneg_right h1 (by positivity)
  have h4 : f.top ≤ f.eps * f.top ^ 2 := by
    have := mul_le_mul_of_nonneg_right htop1 (by linarith : 0 ≤ f.top)
    linarith
  linarith

/-- the factor of the collapsed state -/
theorem factor_err (A : f.Arith fl) (hf : 10 ≤ f.p) (P D : ℝ) (y : f.Fin) (hP4 : P ≤ 4) (hPe : f.eps ≤ P) (hD : f.eps ≤ D) (hD1 : D ≤ 1 / 64)
    (ht : 20 * f.tiny ≤ f.eps * P) (hy : |y.1 - P| ≤ 6 * D * P) :
    ∃ q : f.Fin, A.prec.div A.prec.one (A.prec.sqrt (some y)) = some q ∧ |q.1 - 1 / Real.sqrt P| ≤ 10 * D * (1 / Real.sqrt P) := by
  have hd := eps_pos f
  have htop := (top_big A hf).1
  have hP0 : 0 < P := by linarith
  have hD0 : 0 < D := by linarith
  have hs0 : 0 < Real.sqrt P := Real.sqrt_pos.mpr hP0
  have hss : Real.sqrt P ^ 2 = P := Real.sq_sqrt hP0.le
  have hs2 : Real.sqrt P ≤ 2 := by rw [Real.sqrt_le_left (by norm_num)]; linarith
  have hDP : D * P ≤ 1 / 64 * P := mul_le_mul_of_nonneg_right hD1 hP0.le
  have hyp : 0 < y.1 := by linarith [(_root_.abs_le.mp hy).1]
  have hσ0 : 0 < Real.sqrt y.1 := Real.sqrt_pos.mpr hyp
  have hσs := sqrt_near P D y.1 hP0 hyp.le hy
  have hbig := inv_big A hf (Real.sqrt P) hs0 (by rw [hss]; exact hPe)
  have hP2 : f.eps * P ≤ f.eps * (2 * Real.sqrt P) := by
    apply mul_le_mul_of_nonneg_left _ hd.le
    calc P = Real.sqrt P * Real.sqrt P := by rw [← sq, hss]
      _ ≤ 2 * Real.sqrt P := mul_le_mul_of_nonneg_right hs2 hs0.le
  have hP8 : f.eps * P ≤ f.eps * (8 * (1 / Real.sqrt P)) := by
    apply mul_le_mul_of_nonneg_left _ hd.le
    rw [mul_one_div, le_div_iff₀ hs0]
    calc P * Real.sqrt P ≤ 4 * 2 := mul_le_mul hP4 hs2 hs0.le (by norm_num)
      _ = 8 := by norm_num
  generalize Real.sqrt P = s at *
  have hDs : D * s ≤ 1 / 64 * s := mul_le_mul_of_nonneg_right hD1 hs0.le
  have hσb := (_root_.abs_le.mp hσs).2
  obtain ⟨w, w1, w2⟩ := round_some A (Real.sqrt y.1) (by rw [abs_of_pos hσ0]; linarith)
  have hw := fl_err A (Real.sqrt y.1)
  rw [← w2, abs_of_pos hσ0] at hw
  have hes : f.eps * s ≤ D * s := mul_le_mul_of_nonneg_right hD hs0.le
  have heσ : f.eps * Real.sqrt y.1 ≤ f.eps * (35 / 32 * s) := mul_le_mul_of_nonneg_left (by linarith) hd.le
  have hws : |w.1 - s| ≤ 36 / 5 * D * s := by
    refine (abs_sub_le _ (Real.sqrt y.1) _).trans ?_
    linarith [mul_pos hD0 hs0]
  obtain ⟨hwp, hinv, hi2⟩ := inv_near w.1 s D hs0 hD0 hD1 hws
  have hip : 0 < 1 / w.1 := by positivity
  have his0 : 0 < 1 / s := by positivity
  obtain ⟨q, q1, q2⟩ := round_some A (1 / w.1) (by rw [abs_of_pos hip]; linarith)
  refine ⟨q, ?_, ?_⟩
  · show (A.prec.one.bind fun x => (A.prec.sqrt (some y)).bind fun u => if u.1 = 0 then none else A.round (x.1 / u.1)) = some q
    have e1 : A.prec.one = some ⟨1, fits_one A, by rw [abs_one]; linarith [top_ge A]⟩ := round_one A
    have e2 : A.prec.sqrt (some y) = some w := by
      show (if y.1 < 0 then none else A.round (Real.sqrt y.1)) = some w
      rw [if_neg (by linarith)]; exact w1
    rw [e1, e2]
    show (if w.1 = 0 then none else A.round (1 / w.1)) = some q
    rw [if_neg hwp.ne']; exact q1
  · have hq := fl_err A (1 / w.1)
    rw [← q2, abs_of_pos hip] at hq
    have h1 : f.eps * (1 / w.1) ≤ f.eps * (5 / 4 * (1 / s)) := mul_le_mul_of_nonneg_left hi2 hd.le
    have h3 : f.eps * (1 / s) ≤ D * (1 / s) := mul_le_mul_of_nonneg_right hD his0.le
    refine (abs_sub_le _ (1 / w.1) _).trans ?_
    linarith [mul_pos hD0 his0]

/-- an entry of the collapsed state -/
theorem scaled_err (A : f.Arith fl) (hf : 10 ≤ f.p) (D s : ℝ) (c : A.Num) (q : f.Fin) (hc : A.fin c) (hs : 0 < s) (hcs : ‖A.val c‖ ≤ 2 * s)
    (hD : f.eps ≤ D) (hD1 : D ≤ 1 / 64) (hq : |q.1 - 1 / s| ≤ 10 * D * (1 / s)) :
    ∃ c' : A.Num, (A.prec.mul c.1 (some q), A.prec.mul c.2 (some q)) = c' ∧ A.fin c' ∧
      ‖A.val c' - A.val c * (1 / s : ℝ)‖ ≤ 12 * D * (‖A.val c‖ * (1 / s)) + 2 * f.tiny := by
  obtain ⟨a, b, rfl⟩ := fin_cases A c hc
  have hd := eps_pos f
  have hd1 := eps_le f hf
  have ht0 := tiny_pos f
  obtain ⟨htop, htop1⟩ := top_big A hf
  have his : 0 < 1 / s := by positivity
  have hDi : D * (1 / s) ≤ 1 / 64 * (1 / s) := mul_le_mul_of_nonneg_right hD1 his.le
  have hq' := _root_.abs_le.mp hq
  have hq0 : 0 < q.1 := by linarith
  have hq2 : q.1 ≤ 74 / 64 * (1 / s) := by linarith
  have key : ∀ x : f.Fin, |x.1| ≤ 2 * s → ∃ z : f.Fin, A.mul (some x) (some q) = some z ∧ |z.1 - x.1 * (1 / s)| ≤ 12 * D * (|x.1| * (1 / s)) + f.tiny := by
    intro x hx
    have hxq : |x.1 * q.1| ≤ 74 / 64 * (|x.1| * (1 / s)) := by
      rw [abs_mul, abs_of_pos hq0]
      have := mul_le_mul_of_nonneg_left hq2 (abs_nonneg x.1)
      linarith
    have hx2 : |x.1| * (1 / s) ≤ 2 := by
      rw [mul_one_div, div_le_iff₀ hs]; exact hx
    obtain ⟨z, z1, z2⟩ := mul_some A x q (by linarith)
    refine ⟨z, z1, ?_⟩
    rw [z2]
    have h1 := fl_err A (x.1 * q.1)
    have h2 : f.eps * |x.1 * q.1| ≤ f.eps * (74 / 64 * (|x.1| * (1 / s))) := mul_le_mul_of_nonneg_left hxq hd.le
    have h3 : |x.1 * q.1 - x.1 * (1 / s)| ≤ |x.1| * (10 * D * (1 / s)) := by
      rw [← mul_sub, abs_mul]
      exact mul_le_mul_of_nonneg_left hq (abs_nonneg _)
    have h4 : f.eps * (|x.1| * (1 / s)) ≤ D * (|x.1| * (1 / s)) := mul_le_mul_of_nonneg_right hD (by positivity)
    have : fl (x.1 * q.1) - x.1 * (1 / s) = (fl (x.1 * q.1) - x.1 * q.1) + (x.1 * q.1 - x.1 * (1 / s)) := by ring
    rw [this]
    refine (abs_add_le _ _).trans ?_
    have h5 : 0 ≤ D * (|x.1| * (1 / s)) := mul_nonneg (by linarith) (by positivity)
    linarith
  have hv := val_of A a b
  have ha : |a.1| ≤ ‖A.val (some a, some b)‖ := by rw [hv]; exact Complex.abs_re_le_norm ⟨a.1, b.1⟩
  have hb : |b.1| ≤ ‖A.val (some a, some b)‖ := by rw [hv]; exact Complex.abs_im_le_norm ⟨a.1, b.1⟩
  obtain ⟨x, x1, x2⟩ := key a (ha.trans hcs)
  obtain ⟨y, y1, y2⟩ := key b (hb.trans hcs)
  refine ⟨(some x, some y), ?_, ⟨rfl, rfl⟩, ?_⟩
  · show (A.mul (some a) (some q), A.mul (some b) (some q)) = (some x, some y)
    rw [x1, y1]
  · have hn := norm_sq_parts A a b
    set W := ‖A.val (some a, some b)‖ with hW
    have hW0 : 0 ≤ W := norm_nonneg _
    have e : ‖A.val (some x, some y) - A.val (some a, some b) * (1 / s : ℝ)‖ ^ 2 = (x.1 - a.1 * (1 / s)) ^ 2 + (y.1 - b.1 * (1 / s)) ^ 2 := by
      rw [hv, val_of, ← Complex.normSq_eq_norm_sq, Complex.normSq_apply]
      simp
      ring
    have hE : 0 ≤ 12 * D := by linarith
    have hw : W * (1 / s) ≥ 0 := by positivity
    refine le_of_sq_le_sq ?_ (by positivity)
    rw [e]
    have q1 : (x.1 - a.1 * (1 / s)) ^ 2 ≤ (12 * D * (|a.1| * (1 / s)) + f.tiny) ^ 2 := sq_le_sq' (by linarith [(_root_.abs_le.mp x2).1]) (_root_.abs_le.mp x2).2
    have q2 : (y.1 - b.1 * (1 / s)) ^ 2 ≤ (12 * D * (|b.1| * (1 / s)) + f.tiny) ^ 2 := sq_le_sq' (by linarith [(_root_.abs_le.mp y2).1]) (_root_.abs_le.mp y2).2
    have q3 : |a.1| ^ 2 + |b.1| ^ 2 = W ^ 2 := by rw [sq_abs, sq_abs, hn]; ring
    have q4 : 12 * D * (|a.1| * (1 / s)) * f.tiny ≤ 12 * D * (W * (1 / s)) * f.tiny := by
      apply mul_le_mul_of_nonneg_right _ ht0.le
      apply mul_le_mul_of_nonneg_left _ hE
      exact mul_le_mul_of_nonneg_right ha his.le
    have q5 : 12 * D * (|b.1| * (1 / s)) * f.tiny ≤ 12 * D * (W * (1 / s)) * f.tiny := by
      apply mul_le_mul_of_nonneg_right _ ht0.le
      apply mul_le_mul_of_nonneg_left _ hE
      exact mul_le_mul_of_nonneg_right hb his.le
    have q6 : (12 * D * (|a.1| * (1 / s)) + f.tiny) ^ 2 + (12 * D * (|b.1| * (1 / s)) + f.tiny) ^ 2 =
        (12 * D * (1 / s)) ^ 2 * (|a.1| ^ 2 + |b.1| ^ 2) + 2 * (12 * D * (|a.1| * (1 / s)) * f.tiny) + 2 * (12 * D * (|b.1| * (1 / s)) * f.tiny) + 2 * f.tiny ^ 2 := by ring
    rw [q3] at q6
    have q7 : (12 * D * (W * (1 / s)) + 2 * f.tiny) ^ 2 = (12 * D * (1 / s)) ^ 2 * W ^ 2 + 4 * (12 * D * (W * (1 / s)) * f.tiny) + 4 * f.tiny ^ 2 := by ring
    rw [q7]
    nlinarith [sq_nonneg f.tiny]

end Format.Arith
end Verif
