import Verif.Proofs.IeeeMeasure
import Verif.Proofs.ExactMeasure
import Verif.Proofs.Measure2

/-! # Sampling in rounded arithmetic -/

namespace Verif
open MatrixOp

variable {f : Format} {fl : ℝ → ℝ}

namespace Format.Arith

theorem eps_pos (f : Format) : 0 < f.eps := by unfold Format.eps; positivity

theorem tiny_pos (f : Format) : 0 < f.tiny := by unfold Format.tiny; positivity

theorem eps_le (f : Format) (hf : 10 ≤ f.p) : f.eps ≤ 1 / 1024 := by
  have h1 : (2 : ℝ)⁻¹ ^ f.p ≤ (2 : ℝ)⁻¹ ^ 10 := pow_le_pow_of_le_one (by norm_num) (by norm_num) hf
  unfold Format.eps
  norm_num at h1 ⊢
  exact h1

theorem tiny_le (A : f.Arith fl) : f.tiny ≤ f.eps / 2 := by
  unfold Format.eps Format.tiny
  rw [inv_pow, ← zpow_natCast, ← zpow_neg]
  have : (2 : ℝ) ^ f.emin ≤ 2 ^ (-(f.p : ℤ)) := zpow_le_zpow_right₀ (by norm_num) A.lo
  linarith

theorem top_big (A : f.Arith fl) (hf : 10 ≤ f.p) : 2000 ≤ f.top ∧ 1 ≤ f.eps * f.top := by
  have h2 : (2 : ℝ) ^ (1 : ℤ) ≤ 2 ^ f.emax := zpow_le_zpow_right₀ (by norm_num) A.hi
  have h3 : (2 : ℝ) ^ 10 ≤ 2 ^ f.p := pow_le_pow_right₀ (by norm_num) hf
  norm_num at h2 h3
  have h4 : ((2 : ℝ) ^ f.p - 1) * 2 ≤ f.top := by
    unfold Format.top
    exact mul_le_mul_of_nonneg_left h2 (by linarith)
  refine ⟨by linarith, ?_⟩
  have e : f.eps * 2 ^ f.p = 1 := by
    unfold Format.eps
    rw [inv_pow, inv_mul_cancel₀ (by positivity)]
  have := mul_le_mul_of_nonneg_left h4 (eps_pos f).le
  have e2 := eps_le f hf
  nlinarith

theorem fl_err (A : f.Arith fl) (x : ℝ) : |fl x - x| ≤ f.eps * |x| + f.tiny := A.near.err (by have := A.hp; omega) x

theorem fl_nonneg (A : f.Arith fl) {x : ℝ} (h : 0 ≤ x) : 0 ≤ fl x := by
  have := A.near.nearest x 0 (fits_zero f)
  rw [_root_.abs_le, abs_of_nonpos (by linarith : 0 - x ≤ 0)] at this
  linarith [this.1]

theorem fl_le (A : f.Arith fl) {x y : ℝ} (hy : f.Fits y) (h : x ≤ y) : fl x ≤ y := by
  have := A.near.nearest x y hy
  rw [_root_.abs_le, abs_of_nonneg (by linarith : 0 ≤ y - x)] at this
  linarith [this.2]

theorem norm_sq_parts (A : f.Arith fl) (a b : f.Fin) : ‖A.val (some a, some b)‖ ^ 2 = a.1 * a.1 + b.1 * b.1 := by
  rw [val_of, ← Complex.normSq_eq_norm_sq, Complex.normSq_apply]

/-- the squared absolute value of a computed number -/
theorem normSqr_some (A : f.Arith fl) (hf : 10 ≤ f.p) (c : A.Num) (hc : A.fin c) (h2 : ‖A.val c‖ ≤ 2) :
    ∃ y : f.Fin, normSqrP A.prec c = some y ∧ 0 ≤ y.1 ∧ |y.1 - ‖A.val c‖ ^ 2| ≤ (2 * f.eps + f.eps ^ 2) * ‖A.val c‖ ^ 2 + 4 * f.tiny := by
  obtain ⟨a, b, rfl⟩ := fin_cases A c hc
  have hd := eps_pos f
  have hd1 := eps_le f hf
  have ht := tiny_pos f
  have ht1 := tiny_le A
  have htop := (top_big A hf).1
  have hs : ‖A.val (some a, some b)‖ ^ 2 ≤ 4 := by nlinarith [norm_nonneg (A.val (some a, some b))]
  rw [norm_sq_parts] at hs ⊢
  have ha := mul_self_nonneg a.1
  have hb := mul_self_nonneg b.1
  obtain ⟨r1, r2⟩ := two_roundsL (a := a.1 * a.1) (b := b.1 * b.1) (s := 1) hd.le (by linarith) ht.le (fl_err A) (.inl rfl)
  simp only [one_mul] at r1 r2
  rw [abs_of_nonneg ha, abs_of_nonneg hb] at r1 r2
  obtain ⟨x, x1, x2⟩ := mul_some A a a (by rw [abs_of_nonneg ha]; linarith)
  obtain ⟨y, y1, y2⟩ := mul_some A b b (by rw [abs_of_nonneg hb]; linarith)
  obtain ⟨z, z1, z2⟩ := add_some A x y (by rw [x2, y2]; linarith)
  refine ⟨z, ?_, ?_, ?_⟩
  · show A.add (A.mul (some a) (some a)) (A.mul (some b) (some b)) = some z
    rw [x1, y1, z1]
  · rw [z2, x2, y2]
    exact fl_nonneg A (add_nonneg (fl_nonneg A ha) (fl_nonneg A hb))
  · rw [z2, x2, y2]
    exact r1

/-- error of one step of the sampling loop on the number `c` -/
noncomputable def loopErr (A : f.Arith fl) (c : A.Num) : ℝ := f.eps * (1 + 4 * ‖A.val c‖ ^ 2) + 6 * f.tiny

/-- one step of the loop -/
theorem loop_step (A : f.Arith fl) (hf : 10 ≤ f.p) (c : A.Num) (hc : A.fin c) (h2 : ‖A.val c‖ ≤ 2) (r : f.Fin) (h0 : 0 ≤ r.1) (h1 : r.1 ≤ 1) :
    ∃ r' : f.Fin, A.prec.sub (some r) (normSqrP A.prec c) = some r' ∧ r'.1 ≤ r.1 ∧ |r'.1 - (r.1 - ‖A.val c‖ ^ 2)| ≤ A.loopErr c := by
  obtain ⟨y, y1, y2, y3⟩ := normSqr_some A hf c hc h2
  have hd := eps_pos f
  have hd1 := eps_le f hf
  have ht := tiny_pos f
  have ht1 := tiny_le A
  have htop := (top_big A hf).1
  have hs0 : 0 ≤ ‖A.val c‖ ^ 2 := by positivity
  have hs : ‖A.val c‖ ^ 2 ≤ 4 := by nlinarith [norm_nonneg (A.val c)]
  have hy : y.1 ≤ ‖A.val c‖ ^ 2 + ((2 * f.eps + f.eps ^ 2) * ‖A.val c‖ ^ 2 + 4 * f.tiny) := by linarith [(_root_.abs_le.mp y3).2]
  have hb : |r.1 - y.1| ≤ 1 + y.1 := by rw [_root_.abs_le]; constructor <;> linarith
  have hsmall : (2 * f.eps + f.eps ^ 2) ≤ 1 / 100 := by nlinarith
  have hy9 : y.1 ≤ 9 := by nlinarith
  obtain ⟨z, z1, z2⟩ := sub_some A r y (by linarith)
  refine ⟨z, ?_, ?_, ?_⟩
  · show A.sub (some r) (normSqrP A.prec c) = some z
    rw [y1, z1]
  · rw [z2]; exact fl_le A r.2.1 (by linarith)
  · rw [z2]
    have e := fl_err A (r.1 - y.1)
    have e1 : f.eps * |r.1 - y.1| ≤ f.eps * (1 + y.1) := mul_le_mul_of_nonneg_left hb hd.le
    have e2 : f.eps * y.1 ≤ f.eps * (‖A.val c‖ ^ 2 + ((2 * f.eps + f.eps ^ 2) * ‖A.val c‖ ^ 2 + 4 * f.tiny)) := mul_le_mul_of_nonneg_left hy hd.le
    have tri : |fl (r.1 - y.1) - (r.1 - ‖A.val c‖ ^ 2)| ≤ |fl (r.1 - y.1) - (r.1 - y.1)| + |y.1 - ‖A.val c‖ ^ 2| := by
      have : fl (r.1 - y.1) - (r.1 - ‖A.val c‖ ^ 2) = (fl (r.1 - y.1) - (r.1 - y.1)) - (y.1 - ‖A.val c‖ ^ 2) := by ring
      rw [this]
      exact abs_sub _ _
    unfold loopErr
    generalize ‖A.val c‖ ^ 2 = s at *
    generalize f.eps = d at *
    generalize f.tiny = t at *
    have q1 : d * d * s ≤ 1 / 1024 * (d * s) := by nlinarith [mul_nonneg hd.le hs0]
    have q2 : d * d * d * s ≤ 1 / 1024 * (d * s) := by
      have : 0 ≤ d * s := mul_nonneg hd.le hs0
      have : d * d ≤ 1 / 1024 := by nlinarith
      nlinarith
    have q3 : d * t ≤ 1 / 1024 * t := by nlinarith
    have q4 : 0 ≤ d * s := mul_nonneg hd.le hs0
    nlinarith

/-- the sampling loop: where it stops, the draw lies between the exact partial sums up to the accumulated error -/
theorem loop_spec (A : f.Arith fl) (hf : 10 ≤ f.p) (cs : List A.Num) (hc : ∀ c ∈ cs, A.fin c ∧ ‖A.val c‖ ≤ 2) (r : f.Fin) (h0 : 0 ≤ r.1)
    (h1 : r.1 ≤ 1) (i : ℕ) :
    (∀ k, softLoopP A.prec cs i (some r) = some k → ∃ j, k = i + j ∧ j < cs.length ∧
      r.1 ≤ prefixProb (cs.map A.val) (j + 1) + ((cs.take (j + 1)).map A.loopErr).sum ∧
      prefixProb (cs.map A.val) j - ((cs.take j).map A.loopErr).sum ≤ r.1) ∧
    (softLoopP A.prec cs i (some r) = none → prefixProb (cs.map A.val) cs.length - (cs.map A.loopErr).sum ≤ r.1) := by
  induction cs generalizing r i with
  | nil =>
    refine ⟨fun k h => by simp [softLoopP] at h, fun _ => ?_⟩
    simpa [prefixProb, probMagnitude] using h0
  | cons c cs ih =>
    obtain ⟨h2, h3⟩ := hc c (by simp)
    obtain ⟨r', e1, e2, e3⟩ := loop_step A hf c h2 h3 r h0 h1
    have hpre : ∀ k, prefixProb ((c :: cs).map A.val) (k + 1) = ‖A.val c‖ ^ 2 + prefixProb (cs.map A.val) k := by
      intro k; simp [prefixProb, probMagnitude, Complex.normSq_eq_norm_sq]
    have hz : A.prec.zero = some ⟨0, fits_zero f, by rw [abs_zero]; linarith [top_ge A]⟩ := round_zero A
    have hle : A.prec.le (some r') A.prec.zero = decide (r'.1 ≤ 0) := by rw [hz]; rfl
    have es : softLoopP A.prec (c :: cs) i (some r) = if r'.1 ≤ 0 then some i else softLoopP A.prec cs (i + 1) (some r') := by
      show (if A.prec.le (A.prec.sub (some r) (normSqrP A.prec c)) A.prec.zero = true then some i
        else softLoopP A.prec cs (i + 1) (A.prec.sub (some r) (normSqrP A.prec c))) = _
      rw [e1, hle]
      simp only [decide_eq_true_eq]
    have b := _root_.abs_le.mp e3
    by_cases hr : r'.1 ≤ 0
    · rw [if_pos hr] at es
      refine ⟨fun k hk => ?_, fun hk => by have := es.symm.trans hk; cases this⟩
      obtain rfl := Option.some.inj (es.symm.trans hk)
      refine ⟨0, rfl, by simp, ?_, ?_⟩
      · rw [hpre, show prefixProb (cs.map A.val) 0 = 0 by simp [prefixProb, probMagnitude]]
        simp only [List.take_succ_cons, List.take_zero, List.map_cons, List.map_nil, List.sum_cons, List.sum_nil]
        linarith [b.1]
      · simp [prefixProb, probMagnitude, h0]
    · rw [if_neg hr] at es
      push Not at hr
      obtain ⟨i1, i2⟩ := ih (fun c' h' => hc c' (by simp [h'])) r' hr.le (by linarith) (i + 1)
      constructor
      · intro k hk
        obtain ⟨j, rfl, j1, j2, j3⟩ := i1 k (es.symm.trans hk)
        refine ⟨j + 1, by omega, by simpa using j1, ?_, ?_⟩
        · rw [hpre]
          simp only [List.take_succ_cons, List.map_cons, List.sum_cons] at j2 ⊢
          linarith [b.1]
        · rw [hpre]
          simp only [List.take_succ_cons, List.map_cons, List.sum_cons]
          linarith [b.2]
      · intro hk
        have := i2 (es.symm.trans hk)
        rw [List.length_cons, hpre]
        simp only [List.map_cons, List.sum_cons]
        linarith [b.2]

end Format.Arith

end Verif
