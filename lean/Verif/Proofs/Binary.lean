import Verif.Spec.Float
import Mathlib.Data.Int.Log
import Mathlib.Algebra.Order.Round

/-! # Binary floating point arithmetic without exponent limits satisfies `Rounds` -/

namespace Verif

/-- every number has a nearest one with `p` digits, and it is within the factor `2^-p`; the exponent is not smaller than needed -/
theorem exists_binary_exp (p : ℕ) (hp : 1 ≤ p) (x : ℝ) :
    ∃ y, (∃ m e : ℤ, |m| < 2 ^ p ∧ (∀ E : ℤ, (2 : ℝ) ^ (E + p - 1) ≤ |x| → E ≤ e) ∧ y = m * (2 : ℝ) ^ e) ∧
      |y - x| ≤ (2 : ℝ)⁻¹ ^ p * |x| ∧ ∀ z, IsBinary p z → |y - x| ≤ |z - x| := by
  by_cases hx : x = 0
  · refine ⟨0, ⟨0, 0, by simp, fun E hE => ?_, by simp⟩, by simp [hx], fun z _ => by simp [hx]⟩
    rw [hx, abs_zero] at hE
    exact absurd hE (not_le.mpr (by positivity))
  have hx' : 0 < |x| := abs_pos.mpr hx
  obtain ⟨k, hk⟩ : ∃ k, k = Int.log 2 |x| := ⟨_, rfl⟩
  have h1 : (2 : ℝ) ^ k ≤ |x| := by
    have := Int.zpow_log_le_self (b := 2) (by norm_num) hx'
    rw [hk]; simpa using this
  have h2 : |x| < (2 : ℝ) ^ (k + 1) := by
    have := Int.lt_zpow_succ_log_self (b := 2) (by norm_num) |x|
    rw [hk]; simpa using this
  obtain ⟨e, he⟩ : ∃ e : ℤ, e = k - p + 1 := ⟨_, rfl⟩
  have hpos : (0 : ℝ) < 2 ^ e := by positivity
  have hE : ∀ E : ℤ, (2 : ℝ) ^ (E + p - 1) ≤ |x| → E ≤ e := by
    intro E hE
    have := (zpow_lt_zpow_iff_right₀ (by norm_num : (1 : ℝ) < 2)).mp (hE.trans_lt h2)
    omega
  obtain ⟨m, hm⟩ : ∃ m, m = round (x / 2 ^ e) := ⟨_, rfl⟩
  have h3 : |(m : ℝ) - x / 2 ^ e| ≤ 1 / 2 := by
    rw [abs_sub_comm, hm]; exact abs_sub_round _
  have e1 : ∀ j : ℤ, |(j : ℝ) * 2 ^ e - x| = |(j : ℝ) - x / 2 ^ e| * 2 ^ e := by
    intro j
    have : (j : ℝ) * 2 ^ e - x = ((j : ℝ) - x / 2 ^ e) * 2 ^ e := by field_simp
    rw [this, abs_mul, abs_of_pos hpos]
  have e2 : (2 : ℝ) ^ e = 2 * ((2 : ℝ)⁻¹ ^ p * 2 ^ k) := by
    rw [he, zpow_add₀ (by norm_num), zpow_sub₀ (by norm_num)]
    simp [inv_pow]
    ring
  have e3 : (2 : ℝ) ^ p * 2 ^ e = 2 ^ (k + 1) := by
    rw [he, ← zpow_natCast, ← zpow_add₀ (by norm_num)]
    congr 1; ring
  have hmx : |(m : ℝ) * 2 ^ e - x| ≤ (2 : ℝ)⁻¹ ^ p * |x| := by
    rw [e1]
    have h0 : |(m : ℝ) - x / 2 ^ e| * 2 ^ e ≤ 1 / 2 * 2 ^ e := mul_le_mul_of_nonneg_right h3 hpos.le
    have : (2 : ℝ)⁻¹ ^ p * 2 ^ k ≤ (2 : ℝ)⁻¹ ^ p * |x| := mul_le_mul_of_nonneg_left h1 (by positivity)
    linarith
  have hbest : ∀ j : ℤ, |(m : ℝ) * 2 ^ e - x| ≤ |(j : ℝ) * 2 ^ e - x| := by
    intro j
    rw [e1, e1]
    refine mul_le_mul_of_nonneg_right ?_ hpos.le
    have := round_le (x / 2 ^ e) j
    rw [abs_sub_comm, abs_sub_comm (j : ℝ), hm]
    exact this
  refine ⟨(m : ℝ) * 2 ^ e, ?_, hmx, ?_⟩
  · have h4 : |x / 2 ^ e| < 2 ^ p := by
      rw [abs_div, abs_of_pos hpos, div_lt_iff₀ hpos, e3]
      exact h2
    have h5 : |m| ≤ 2 ^ p := by
      have : |(m : ℝ)| < 2 ^ p + 1 := by
        have e1 : (m : ℝ) = ((m : ℝ) - x / 2 ^ e) + x / 2 ^ e := by ring
        have := abs_add_le ((m : ℝ) - x / 2 ^ e) (x / 2 ^ e)
        rw [← e1] at this
        linarith
      have h6 : ((|m| : ℤ) : ℝ) < ((2 ^ p + 1 : ℤ) : ℝ) := by push_cast; exact this
      have : |m| < 2 ^ p + 1 := by exact_mod_cast h6
      omega
    rcases lt_or_eq_of_le h5 with h6 | h6
    · exact ⟨m, e, h6, hE, rfl⟩
    · have h1p : (1 : ℤ) < 2 ^ p := by exact_mod_cast Nat.one_lt_two_pow (by omega)
      have e4 : (2 : ℝ) ^ ((p : ℤ) + e) = 2 ^ p * 2 ^ e := by rw [zpow_add₀ (by norm_num), zpow_natCast]
      rcases abs_eq (by positivity : (0 : ℤ) ≤ 2 ^ p) |>.mp h6 with h7 | h7
      · refine ⟨1, p + e, by simpa using h1p, fun E h => by have := hE E h; omega, ?_⟩
        rw [h7, e4]; push_cast; ring
      · refine ⟨-1, p + e, by simpa using h1p, fun E h => by have := hE E h; omega, ?_⟩
        rw [h7, e4]; push_cast; ring
  · rintro z ⟨m', e', hm', rfl⟩
    by_cases hee : e ≤ e'
    · have : (m' : ℝ) * 2 ^ e' = ((m' * 2 ^ (e' - e).toNat : ℤ) : ℝ) * 2 ^ e := by
        push_cast
        rw [mul_assoc, ← zpow_natCast, ← zpow_add₀ (by norm_num), Int.toNat_of_nonneg (by omega)]
        congr 2; ring
      rw [this]
      exact hbest _
    · have hz : |(m' : ℝ) * 2 ^ e'| ≤ 2 ^ k := by
        rw [abs_mul, abs_of_pos (by positivity : (0 : ℝ) < 2 ^ e')]
        have h6 : |(m' : ℝ)| ≤ 2 ^ p := by
          have : ((|m'| : ℤ) : ℝ) < ((2 ^ p : ℤ) : ℝ) := by exact_mod_cast hm'
          push_cast at this
          exact this.le
        have h7 : (2 : ℝ) ^ e' ≤ 2 ^ (e - 1) := zpow_le_zpow_right₀ (by norm_num) (by omega)
        have h8 : (2 : ℝ) ^ p * 2 ^ (e - 1) = 2 ^ k := by
          rw [he, ← zpow_natCast, ← zpow_add₀ (by norm_num)]
          congr 1; ring
        rw [← h8]
        exact mul_le_mul h6 h7 (by positivity) (by positivity)
      have hk2 : (2 : ℝ) ^ k = ((2 ^ (p - 1) : ℤ) : ℝ) * 2 ^ e := by
        push_cast
        rw [he, ← zpow_natCast, ← zpow_add₀ (by norm_num)]
        congr 1
        push_cast [Nat.cast_sub hp]
        ring
      have hd : |x| - 2 ^ k ≤ |(m' : ℝ) * 2 ^ e' - x| := by
        have := abs_sub_abs_le_abs_sub x ((m' : ℝ) * 2 ^ e')
        rw [abs_sub_comm]
        linarith
      refine le_trans ?_ hd
      rcases le_or_gt 0 x with hx0 | hx0
      · have := hbest (2 ^ (p - 1))
        rw [← hk2] at this
        rw [abs_of_nonneg hx0] at h1 ⊢
        rw [abs_sub_comm (2 ^ k), abs_of_nonneg (by linarith : (0 : ℝ) ≤ x - 2 ^ k)] at this
        exact this
      · have := hbest (-2 ^ (p - 1))
        have e5 : ((-2 ^ (p - 1) : ℤ) : ℝ) * 2 ^ e = - 2 ^ k := by rw [hk2]; push_cast; ring
        rw [e5] at this
        rw [abs_of_neg hx0] at h1 ⊢
        rw [abs_of_nonneg (by linarith : (0 : ℝ) ≤ - 2 ^ k - x)] at this
        linarith

theorem exists_binary (p : ℕ) (hp : 1 ≤ p) (x : ℝ) :
    ∃ y, IsBinary p y ∧ |y - x| ≤ (2 : ℝ)⁻¹ ^ p * |x| ∧ ∀ z, IsBinary p z → |y - x| ≤ |z - x| := by
  obtain ⟨y, ⟨m, e, h1, -, h2⟩, h3⟩ := exists_binary_exp p hp x
  exact ⟨y, ⟨m, e, h1, h2⟩, h3⟩

variable {p : ℕ} {fl : ℝ → ℝ}

theorem Nearest.err (h : Nearest p fl) (hp : 1 ≤ p) (x : ℝ) : |fl x - x| ≤ (2 : ℝ)⁻¹ ^ p * |x| := by
  obtain ⟨y, hy, hyx, _⟩ := exists_binary p hp x
  exact (h.nearest x y hy).trans hyx

theorem Nearest.fix (h : Nearest p fl) {x : ℝ} (hx : IsBinary p x) : fl x = x := by
  have := h.nearest x x hx
  simp at this
  linarith

theorem exists_nearest (p : ℕ) (hp : 1 ≤ p) : ∃ fl, Nearest p fl := by
  choose fl h1 _ h2 using exists_binary p hp
  exact ⟨fl, h1, h2⟩

/-! ### Complex arithmetic -/

theorem norm_le_of_parts (z : ℂ) (c : ℝ) (hc : 0 ≤ c) (h1 : |z.re| ≤ c) (h2 : |z.im| ≤ c) : ‖z‖ ≤ Real.sqrt 2 * c := by
  rw [Complex.norm_eq_sqrt_sq_add_sq, ← Real.sqrt_sq hc, ← Real.sqrt_mul (by norm_num)]
  apply Real.sqrt_le_sqrt
  have := sq_le_sq' (by linarith [abs_nonneg z.re] : -c ≤ |z.re|) h1
  have := sq_le_sq' (by linarith [abs_nonneg z.im] : -c ≤ |z.im|) h2
  rw [sq_abs] at *
  linarith

theorem two_rounds {d a b s : ℝ} (hd : 0 ≤ d) (h : ∀ x, |fl x - x| ≤ d * |x|) (hs : s = 1 ∨ s = -1) :
    |fl (fl a + s * fl b) - (a + s * b)| ≤ (2 * d + d ^ 2) * (|a| + |b|) := by
  have ha := h a
  have hb := h b
  have hab := h (fl a + s * fl b)
  have hs' : |s| = 1 := by rcases hs with rfl | rfl <;> simp
  have e1 : |fl a + s * fl b - (a + s * b)| ≤ d * (|a| + |b|) := by
    have : fl a + s * fl b - (a + s * b) = (fl a - a) + s * (fl b - b) := by ring
    rw [this]
    refine (abs_add_le _ _).trans ?_
    rw [abs_mul, hs', one_mul]
    linarith
  have e2 : |fl a + s * fl b| ≤ (1 + d) * (|a| + |b|) := by
    have : fl a + s * fl b = (fl a + s * fl b - (a + s * b)) + (a + s * b) := by ring
    rw [this]
    refine (abs_add_le _ _).trans ?_
    have := abs_add_le a (s * b)
    rw [abs_mul, hs', one_mul] at this
    linarith
  have e3 : fl (fl a + s * fl b) - (a + s * b) =
      (fl (fl a + s * fl b) - (fl a + s * fl b)) + (fl a + s * fl b - (a + s * b)) := by ring
  rw [e3]
  refine (abs_add_le _ _).trans ?_
  have := mul_le_mul_of_nonneg_left e2 hd
  nlinarith

theorem parts_le (z w : ℂ) : |z.re * w.re| + |z.im * w.im| ≤ ‖z‖ * ‖w‖ ∧ |z.re * w.im| + |z.im * w.re| ≤ ‖z‖ * ‖w‖ := by
  have key : ∀ a b c d : ℝ, |a * c| + |b * d| ≤ Real.sqrt (a ^ 2 + b ^ 2) * Real.sqrt (c ^ 2 + d ^ 2) := by
    intro a b c d
    rw [← Real.sqrt_mul (by positivity)]
    apply Real.le_sqrt_of_sq_le
    rw [abs_mul, abs_mul]
    have := sq_abs a; have := sq_abs b; have := sq_abs c; have := sq_abs d
    nlinarith [sq_nonneg (|a| * |d| - |b| * |c|)]
  rw [Complex.norm_eq_sqrt_sq_add_sq, Complex.norm_eq_sqrt_sq_add_sq]
  refine ⟨key _ _ _ _, ?_⟩
  rw [add_comm (w.re ^ 2)]
  exact key _ _ _ _

theorem BinOps.mul_err (B : BinOps p fl) (a b : Bin p) : ‖(B.mul a b).1 - a.1 * b.1‖ ≤ binErr p * ‖a.1 * b.1‖ := by
  have hd : (0 : ℝ) ≤ (2 : ℝ)⁻¹ ^ p := by positivity
  have h := fun x => B.near.err (by have := B.hp; omega) x
  obtain ⟨p1, p2⟩ := parts_le a.1 b.1
  rw [norm_mul, binErr, mul_assoc]
  have hq : 0 ≤ 2 * (2 : ℝ)⁻¹ ^ p + ((2 : ℝ)⁻¹ ^ p) ^ 2 := by positivity
  apply norm_le_of_parts _ _ (by positivity)
  · have := two_rounds (a := a.1.re * b.1.re) (b := a.1.im * b.1.im) (s := -1) hd h (Or.inr rfl)
    rw [Complex.sub_re, Complex.mul_re]
    have e : (B.mul a b).1.re = fl (fl (a.1.re * b.1.re) + -1 * fl (a.1.im * b.1.im)) := by
      simp only [BinOps.mul]; congr 1; ring
    rw [e, show a.1.re * b.1.re - a.1.im * b.1.im = a.1.re * b.1.re + -1 * (a.1.im * b.1.im) by ring]
    exact this.trans (mul_le_mul_of_nonneg_left p1 hq)
  · have := two_rounds (a := a.1.re * b.1.im) (b := a.1.im * b.1.re) (s := 1) hd h (Or.inl rfl)
    rw [Complex.sub_im, Complex.mul_im]
    have e : (B.mul a b).1.im = fl (fl (a.1.re * b.1.im) + 1 * fl (a.1.im * b.1.re)) := by
      simp only [BinOps.mul, one_mul]
    rw [e, show a.1.re * b.1.im + a.1.im * b.1.re = a.1.re * b.1.im + 1 * (a.1.im * b.1.re) by ring]
    exact this.trans (mul_le_mul_of_nonneg_left p2 hq)

theorem le_binErr (p : ℕ) : (2 : ℝ)⁻¹ ^ p ≤ binErr p := by
  have hd : (0 : ℝ) ≤ (2 : ℝ)⁻¹ ^ p := by positivity
  have h2 : (1 : ℝ) ≤ Real.sqrt 2 := by rw [Real.one_le_sqrt]; norm_num
  unfold binErr
  nlinarith [sq_nonneg ((2 : ℝ)⁻¹ ^ p)]

theorem BinOps.add_err (B : BinOps p fl) (a b : Bin p) : ‖(B.add a b).1 - (a.1 + b.1)‖ ≤ binErr p * ‖a.1 + b.1‖ := by
  have hd : (0 : ℝ) ≤ (2 : ℝ)⁻¹ ^ p := by positivity
  have h := fun x => B.near.err (by have := B.hp; omega) x
  have : ‖(B.add a b).1 - (a.1 + b.1)‖ ≤ (2 : ℝ)⁻¹ ^ p * ‖a.1 + b.1‖ := by
    rw [Complex.norm_eq_sqrt_sq_add_sq, Complex.norm_eq_sqrt_sq_add_sq, ← Real.sqrt_sq hd, ← Real.sqrt_mul (by positivity)]
    apply Real.sqrt_le_sqrt
    have h1 := h (a.1.re + b.1.re)
    have h2 := h (a.1.im + b.1.im)
    have g1 := sq_le_sq' (by linarith [abs_nonneg (fl (a.1.re + b.1.re) - (a.1.re + b.1.re)), mul_nonneg hd (abs_nonneg (a.1.re + b.1.re))]) h1
    have g2 := sq_le_sq' (by linarith [abs_nonneg (fl (a.1.im + b.1.im) - (a.1.im + b.1.im)), mul_nonneg hd (abs_nonneg (a.1.im + b.1.im))]) h2
    rw [mul_pow, sq_abs, sq_abs] at g1 g2
    simp only [Complex.sub_re, Complex.sub_im, Complex.add_re, Complex.add_im, BinOps.add]
    linarith
  exact this.trans (mul_le_mul_of_nonneg_right (le_binErr p) (norm_nonneg _))

theorem binErr_lt (p : ℕ) (hp : 2 ≤ p) : binErr p < 1 := by
  have h1 : (2 : ℝ)⁻¹ ^ p ≤ (2 : ℝ)⁻¹ ^ 2 := pow_le_pow_of_le_one (by norm_num) (by norm_num) hp
  have h0 : (0 : ℝ) ≤ (2 : ℝ)⁻¹ ^ p := by positivity
  have h2 : Real.sqrt 2 < 3 / 2 := by
    rw [Real.sqrt_lt' (by norm_num)]; norm_num
  have h3 : 0 ≤ Real.sqrt 2 := Real.sqrt_nonneg _
  unfold binErr
  have h4 : 2 * (2 : ℝ)⁻¹ ^ p + ((2 : ℝ)⁻¹ ^ p) ^ 2 ≤ 9 / 16 := by
    norm_num at h1 ⊢
    nlinarith
  nlinarith

/-- rounded binary arithmetic satisfies the error model -/
theorem BinOps.rounds (B : BinOps p fl) : Rounds (B.val) (binErr p) where
  nonneg := (by positivity : (0 : ℝ) ≤ (2 : ℝ)⁻¹ ^ p).trans (le_binErr p)
  lt_one := binErr_lt p B.hp
  val_zero := rfl
  val_one := rfl
  val_inj_zero := fun _ ha => Subtype.ext ha
  add := B.add_err
  mul := B.mul_err
  zero_add := by
    intro a
    apply Subtype.ext
    apply Complex.ext
    · show fl ((0 : ℂ).re + a.1.re) = a.1.re
      rw [Complex.zero_re, zero_add, B.near.fix a.2.1]
    · show fl ((0 : ℂ).im + a.1.im) = a.1.im
      rw [Complex.zero_im, zero_add, B.near.fix a.2.2]

/-- multiplying by one is exact -/
theorem BinOps.one_mul (B : BinOps p fl) (a : B.Num) : 1 * a = a := by
  have h0 : fl 0 = 0 := B.near.fix (isBinary_zero p)
  apply Subtype.ext
  apply Complex.ext
  · show fl (fl ((1 : ℂ).re * a.1.re) - fl ((1 : ℂ).im * a.1.im)) = a.1.re
    rw [Complex.one_re, Complex.one_im, _root_.one_mul, zero_mul, h0, sub_zero, B.near.fix a.2.1, B.near.fix a.2.1]
  · show fl (fl ((1 : ℂ).re * a.1.im) + fl ((1 : ℂ).im * a.1.re)) = a.1.im
    rw [Complex.one_re, Complex.one_im, _root_.one_mul, zero_mul, h0, add_zero, B.near.fix a.2.2, B.near.fix a.2.2]

end Verif
