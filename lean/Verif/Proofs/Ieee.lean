import Verif.Spec.Ieee
import Verif.Proofs.Binary

/-! # Binary formats with limited exponents satisfy `Limits` -/

namespace Verif

theorem Format.Fits.binary {f : Format} {x : ℝ} (h : f.Fits x) : IsBinary f.p x := by
  obtain ⟨m, e, h1, -, h2⟩ := h
  exact ⟨m, e, h1, h2⟩

/-- every number has a nearest one in the format, and it is within the factor `2^-p` or within half of the least positive number -/
theorem exists_fits (f : Format) (hp : 1 ≤ f.p) (x : ℝ) :
    ∃ y, f.Fits y ∧ |y - x| ≤ (2 : ℝ)⁻¹ ^ f.p * |x| + (2 : ℝ) ^ f.emin / 2 ∧ ∀ z, f.Fits z → |y - x| ≤ |z - x| := by
  have hpos : (0 : ℝ) < 2 ^ f.emin := by positivity
  by_cases hx : (2 : ℝ) ^ (f.emin + f.p - 1) ≤ |x|
  · obtain ⟨y, ⟨m, e, h1, h2, h3⟩, h4, h5⟩ := exists_binary_exp f.p hp x
    exact ⟨y, ⟨m, e, h1, h2 _ hx, h3⟩, by linarith, fun z hz => h5 z hz.binary⟩
  · obtain ⟨m, hm⟩ : ∃ m, m = round (x / 2 ^ f.emin) := ⟨_, rfl⟩
    have h3 : |(m : ℝ) - x / 2 ^ f.emin| ≤ 1 / 2 := by
      rw [abs_sub_comm, hm]; exact abs_sub_round _
    have e1 : ∀ j : ℤ, |(j : ℝ) * 2 ^ f.emin - x| = |(j : ℝ) - x / 2 ^ f.emin| * 2 ^ f.emin := by
      intro j
      have : (j : ℝ) * 2 ^ f.emin - x = ((j : ℝ) - x / 2 ^ f.emin) * 2 ^ f.emin := by field_simp
      rw [this, abs_mul, abs_of_pos hpos]
    refine ⟨m * 2 ^ f.emin, ⟨m, f.emin, ?_, le_rfl, rfl⟩, ?_, ?_⟩
    · have h4 : |x / 2 ^ f.emin| < 2 ^ (f.p - 1) := by
        rw [abs_div, abs_of_pos hpos, div_lt_iff₀ hpos, ← zpow_natCast, ← zpow_add₀ (by norm_num)]
        refine lt_of_lt_of_eq (not_le.mp hx) ?_
        congr 1
        push_cast [Nat.cast_sub hp]
        ring
      have h5 : |(m : ℝ)| < 2 ^ (f.p - 1) + 1 := by
        have e1 : (m : ℝ) = ((m : ℝ) - x / 2 ^ f.emin) + x / 2 ^ f.emin := by ring
        have := abs_add_le ((m : ℝ) - x / 2 ^ f.emin) (x / 2 ^ f.emin)
        rw [← e1] at this
        linarith
      have h6 : ((|m| : ℤ) : ℝ) < ((2 ^ (f.p - 1) + 1 : ℤ) : ℝ) := by push_cast; exact h5
      have h7 : |m| < 2 ^ (f.p - 1) + 1 := by exact_mod_cast h6
      have h8 : (2 : ℤ) ^ f.p = 2 * 2 ^ (f.p - 1) := by
        rw [← pow_succ']; congr 1; omega
      have h9 : (1 : ℤ) ≤ 2 ^ (f.p - 1) := one_le_pow₀ (by norm_num)
      omega
    · rw [e1]
      have := mul_le_mul_of_nonneg_right h3 hpos.le
      have : 0 ≤ (2 : ℝ)⁻¹ ^ f.p * |x| := by positivity
      linarith
    · rintro z ⟨m', e', -, he, rfl⟩
      have : (m' : ℝ) * 2 ^ e' = ((m' * 2 ^ (e' - f.emin).toNat : ℤ) : ℝ) * 2 ^ f.emin := by
        push_cast
        rw [mul_assoc, ← zpow_natCast, ← zpow_add₀ (by norm_num), Int.toNat_of_nonneg (by omega)]
        congr 2; ring
      rw [this, e1, e1]
      refine mul_le_mul_of_nonneg_right ?_ hpos.le
      have := round_le (x / 2 ^ f.emin) (m' * 2 ^ (e' - f.emin).toNat)
      rw [abs_sub_comm, abs_sub_comm ((_ : ℤ) : ℝ), hm]
      exact this

theorem exists_rounding (f : Format) (hp : 1 ≤ f.p) : ∃ fl, f.Rounding fl := by
  choose fl h1 _ h2 using exists_fits f hp
  exact ⟨fl, h1, h2⟩

variable {f : Format} {fl : ℝ → ℝ}

theorem Format.Rounding.err (h : f.Rounding fl) (hp : 1 ≤ f.p) (x : ℝ) :
    |fl x - x| ≤ (2 : ℝ)⁻¹ ^ f.p * |x| + (2 : ℝ) ^ f.emin / 2 := by
  obtain ⟨y, hy, hyx, _⟩ := exists_fits f hp x
  exact (h.nearest x y hy).trans hyx

theorem Format.Rounding.fix (h : f.Rounding fl) {x : ℝ} (hx : f.Fits x) : fl x = x := by
  have := h.nearest x x hx
  simp at this
  linarith

namespace Format.Arith

theorem fits_zero (f : Format) : f.Fits 0 := ⟨0, f.emin, by simp, le_rfl, by simp⟩

theorem fits_one (A : f.Arith fl) : f.Fits 1 := ⟨1, 0, by
  rw [abs_one]; exact_mod_cast Nat.one_lt_two_pow (by have := A.hp; omega), by have := A.lo; omega, by simp⟩

theorem top_ge (A : f.Arith fl) : 6 ≤ f.top := by
  have h1 : (2 : ℝ) ^ 2 ≤ 2 ^ f.p := pow_le_pow_right₀ (by norm_num) A.hp
  have h2 : (2 : ℝ) ^ (1 : ℤ) ≤ 2 ^ f.emax := zpow_le_zpow_right₀ (by norm_num) A.hi
  unfold Format.top
  norm_num at h1 h2
  nlinarith

theorem rel_le (A : f.Arith fl) : (2 : ℝ)⁻¹ ^ f.p ≤ 1 / 4 := by
  have h1 : (2 : ℝ)⁻¹ ^ f.p ≤ (2 : ℝ)⁻¹ ^ 2 := pow_le_pow_of_le_one (by norm_num) (by norm_num) A.hp
  norm_num at h1 ⊢
  exact h1

theorem abs_le (A : f.Arith fl) : (2 : ℝ) ^ f.emin ≤ 1 / 4 := by
  have h1 : (2 : ℝ) ^ f.emin ≤ 2 ^ (-2 : ℤ) := zpow_le_zpow_right₀ (by norm_num) (by have := A.lo; have := A.hp; omega)
  norm_num at h1 ⊢
  exact h1

/-- a number of moderate size is rounded to a finite one -/
theorem round_some (A : f.Arith fl) (x : ℝ) (hx : |x| ≤ f.top / 2) :
    ∃ y : f.Fin, A.round x = some y ∧ y.1 = fl x := by
  have h : |fl x| ≤ f.top := by
    have h1 := A.near.err (by have := A.hp; omega) x
    have h2 : |fl x| ≤ |fl x - x| + |x| := by
      have := abs_add_le (fl x - x) x
      simpa using this
    have h3 := mul_le_mul_of_nonneg_right (rel_le A) (abs_nonneg x)
    have := abs_le A
    have := top_ge A
    linarith
  exact ⟨⟨fl x, A.near.fits x, h⟩, by rw [round, dif_pos h], rfl⟩

theorem round_fix (A : f.Arith fl) (x : ℝ) (hx : f.Fits x) (h : |x| ≤ f.top) : A.round x = some ⟨x, hx, h⟩ := by
  have e := A.near.fix hx
  unfold round
  rw [dif_pos (by rw [e]; exact h)]
  congr 1
  exact Subtype.ext e

theorem round_zero (A : f.Arith fl) : A.round 0 = some ⟨0, fits_zero f, by rw [abs_zero]; linarith [top_ge A]⟩ :=
  round_fix A 0 (fits_zero f) (by rw [abs_zero]; linarith [top_ge A])

theorem round_one (A : f.Arith fl) : A.round 1 = some ⟨1, fits_one A, by rw [abs_one]; linarith [top_ge A]⟩ :=
  round_fix A 1 (fits_one A) (by rw [abs_one]; linarith [top_ge A])

theorem add_some (A : f.Arith fl) (a b : f.Fin) (h : |a.1 + b.1| ≤ f.top / 2) :
    ∃ y : f.Fin, A.add (some a) (some b) = some y ∧ y.1 = fl (a.1 + b.1) := round_some A _ h

theorem sub_some (A : f.Arith fl) (a b : f.Fin) (h : |a.1 - b.1| ≤ f.top / 2) :
    ∃ y : f.Fin, A.sub (some a) (some b) = some y ∧ y.1 = fl (a.1 - b.1) := round_some A _ h

theorem mul_some (A : f.Arith fl) (a b : f.Fin) (h : |a.1 * b.1| ≤ f.top / 2) :
    ∃ y : f.Fin, A.mul (some a) (some b) = some y ∧ y.1 = fl (a.1 * b.1) := round_some A _ h

/-- two products and their sum or difference -/
theorem two_roundsL {d η a b s : ℝ} (hd : 0 ≤ d) (hd1 : d ≤ 1 / 4) (hη : 0 ≤ η) (h : ∀ x, |fl x - x| ≤ d * |x| + η) (hs : s = 1 ∨ s = -1) :
    |fl (fl a + s * fl b) - (a + s * b)| ≤ (2 * d + d ^ 2) * (|a| + |b|) + 4 * η ∧ |fl a + s * fl b| ≤ (5 / 4) * (|a| + |b|) + 2 * η := by
  have ha := h a
  have hb := h b
  have hab := h (fl a + s * fl b)
  have hs' : |s| = 1 := by rcases hs with rfl | rfl <;> simp
  have n1 := abs_nonneg a
  have n2 := abs_nonneg b
  have e1 : |fl a + s * fl b - (a + s * b)| ≤ d * (|a| + |b|) + 2 * η := by
    have : fl a + s * fl b - (a + s * b) = (fl a - a) + s * (fl b - b) := by ring
    rw [this]
    refine (abs_add_le _ _).trans ?_
    rw [abs_mul, hs', one_mul]
    linarith
  have e2 : |fl a + s * fl b| ≤ (1 + d) * (|a| + |b|) + 2 * η := by
    have : fl a + s * fl b = (fl a + s * fl b - (a + s * b)) + (a + s * b) := by ring
    rw [this]
    refine (abs_add_le _ _).trans ?_
    have := abs_add_le a (s * b)
    rw [abs_mul, hs', one_mul] at this
    linarith
  have e3 : fl (fl a + s * fl b) - (a + s * b) =
      (fl (fl a + s * fl b) - (fl a + s * fl b)) + (fl a + s * fl b - (a + s * b)) := by ring
  refine ⟨?_, by nlinarith⟩
  rw [e3]
  refine (abs_add_le _ _).trans ?_
  have := mul_le_mul_of_nonneg_left e2 hd
  nlinarith

theorem val_of (A : f.Arith fl) (a b : f.Fin) : A.val (some a, some b) = ⟨a.1, b.1⟩ := rfl

theorem fin_cases (A : f.Arith fl) (a : A.Num) (h : A.fin a) : ∃ x y : f.Fin, a = (some x, some y) := by
  obtain ⟨a1, a2⟩ := a
  obtain ⟨h1, h2⟩ := h
  obtain ⟨x, hx⟩ := Option.isSome_iff_exists.mp h1
  obtain ⟨y, hy⟩ := Option.isSome_iff_exists.mp h2
  exact ⟨x, y, by rw [show a1 = some x from hx, show a2 = some y from hy]⟩

theorem absErr_le (A : f.Arith fl) (h : 4 ≤ f.p) : f.absErr ≤ 1 := by
  have h1 : (2 : ℝ) ^ f.emin ≤ 2 ^ (-4 : ℤ) := zpow_le_zpow_right₀ (by norm_num) (by have := A.lo; omega)
  unfold Format.absErr
  norm_num at h1
  linarith

theorem sqrt_two_lt : Real.sqrt 2 < 3 / 2 := by
  rw [Real.sqrt_lt' (by norm_num)]; norm_num

theorem norm_le_parts (z : ℂ) (a b : ℝ) (hb : 0 ≤ b) (h1 : |z.re| ≤ a + b) (h2 : |z.im| ≤ a + b) (ha : 0 ≤ a) :
    ‖z‖ ≤ Real.sqrt 2 * a + 3 / 2 * b := by
  have := norm_le_of_parts z (a + b) (by linarith) h1 h2
  have := sqrt_two_lt
  nlinarith

/-- the arithmetic satisfies the error model -/
theorem limits (A : f.Arith fl) (h4 : 4 ≤ f.p) : Limits A.fin A.val f.relErr f.absErr (f.top / 4) where
  u_nonneg := (by positivity : (0 : ℝ) ≤ (2 : ℝ)⁻¹ ^ f.p).trans (le_binErr f.p)
  u_le_one := (binErr_lt f.p A.hp).le
  η_nonneg := by unfold Format.absErr; positivity
  η_le_one := absErr_le A h4
  fin_zero := by
    have e := round_zero A
    show (A.round 0).isSome = true ∧ (A.round 0).isSome = true
    rw [e]; exact ⟨rfl, rfl⟩
  fin_one := by
    have e := round_zero A
    have e1 := round_one A
    show (A.round 1).isSome = true ∧ (A.round 0).isSome = true
    rw [e, e1]; exact ⟨rfl, rfl⟩
  val_zero := by
    have e := round_zero A
    show A.val (A.round 0, A.round 0) = 0
    rw [e]; rfl
  val_one := by
    have e := round_zero A
    have e1 := round_one A
    show A.val (A.round 1, A.round 0) = 1
    rw [e, e1]; rfl
  add := by
    intro a b ha hb hM
    obtain ⟨x, y, rfl⟩ := fin_cases A a ha
    obtain ⟨x', y', rfl⟩ := fin_cases A b hb
    rw [val_of, val_of] at hM ⊢
    have ht := top_ge A
    have p1 : |x.1 + x'.1| ≤ ‖(⟨x.1, y.1⟩ + ⟨x'.1, y'.1⟩ : ℂ)‖ := Complex.abs_re_le_norm (⟨x.1, y.1⟩ + ⟨x'.1, y'.1⟩ : ℂ)
    have p2 : |y.1 + y'.1| ≤ ‖(⟨x.1, y.1⟩ + ⟨x'.1, y'.1⟩ : ℂ)‖ := Complex.abs_im_le_norm (⟨x.1, y.1⟩ + ⟨x'.1, y'.1⟩ : ℂ)
    obtain ⟨r, r1, r2⟩ := add_some A x x' (by linarith)
    obtain ⟨i, i1, i2⟩ := add_some A y y' (by linarith)
    have e : ∀ a b : A.Num, a = (some x, some y) → b = (some x', some y') → a + b = (some r, some i) := by
      rintro _ _ rfl rfl
      show (A.add (some x) (some x'), A.add (some y) (some y')) = _
      rw [r1, i1]
    rw [e _ _ rfl rfl]
    refine ⟨⟨rfl, rfl⟩, ?_⟩
    rw [val_of]
    have g1 := A.near.err (by have := A.hp; omega) (x.1 + x'.1)
    have g2 := A.near.err (by have := A.hp; omega) (y.1 + y'.1)
    have hd : (0 : ℝ) ≤ (2 : ℝ)⁻¹ ^ f.p := by positivity
    have hm : (0 : ℝ) < (2 : ℝ) ^ f.emin := by positivity
    have hN := norm_nonneg (⟨x.1, y.1⟩ + ⟨x'.1, y'.1⟩ : ℂ)
    refine (norm_le_parts _ ((2 : ℝ)⁻¹ ^ f.p * ‖(⟨x.1, y.1⟩ + ⟨x'.1, y'.1⟩ : ℂ)‖) ((2 : ℝ) ^ f.emin / 2) (by positivity) ?_ ?_
      (by positivity)).trans ?_
    · show |r.1 - (x.1 + x'.1)| ≤ _
      rw [r2]
      exact g1.trans (add_le_add (mul_le_mul_of_nonneg_left p1 hd) le_rfl)
    · show |i.1 - (y.1 + y'.1)| ≤ _
      rw [i2]
      exact g2.trans (add_le_add (mul_le_mul_of_nonneg_left p2 hd) le_rfl)
    · unfold Format.relErr Format.absErr binErr
      refine add_le_add ?_ (by linarith)
      rw [← mul_assoc]
      refine mul_le_mul_of_nonneg_right (mul_le_mul_of_nonneg_left ?_ (Real.sqrt_nonneg _)) hN
      nlinarith [sq_nonneg ((2 : ℝ)⁻¹ ^ f.p)]
  mul := by
    intro a b ha hb hM
    obtain ⟨x, y, rfl⟩ := fin_cases A a ha
    obtain ⟨x', y', rfl⟩ := fin_cases A b hb
    rw [val_of, val_of] at hM ⊢
    have ht := top_ge A
    have hd : (0 : ℝ) ≤ (2 : ℝ)⁻¹ ^ f.p := by positivity
    have hm : (0 : ℝ) < (2 : ℝ) ^ f.emin := by positivity
    have hm4 := abs_le A
    have hd4 := rel_le A
    have herr := fun x => A.near.err (by have := A.hp; omega) x
    obtain ⟨q1, q2⟩ := parts_le ⟨x.1, y.1⟩ ⟨x'.1, y'.1⟩
    simp only at q1 q2
    set N := ‖(⟨x.1, y.1⟩ : ℂ)‖ * ‖(⟨x'.1, y'.1⟩ : ℂ)‖ with hN
    have hN0 : 0 ≤ N := by positivity
    have n1 := abs_nonneg (x.1 * x'.1)
    have n2 := abs_nonneg (y.1 * y'.1)
    have n3 := abs_nonneg (x.1 * y'.1)
    have n4 := abs_nonneg (y.1 * x'.1)
    obtain ⟨m1, a1, b1⟩ := mul_some A x x' (by linarith)
    obtain ⟨m2, a2, b2⟩ := mul_some A y y' (by linarith)
    obtain ⟨m3, a3, b3⟩ := mul_some A x y' (by linarith)
    obtain ⟨m4, a4, b4⟩ := mul_some A y x' (by linarith)
    obtain ⟨t1, t2⟩ := two_roundsL (a := x.1 * x'.1) (b := y.1 * y'.1) (s := -1) hd hd4 (by positivity) herr (Or.inr rfl)
    obtain ⟨t3, t4⟩ := two_roundsL (a := x.1 * y'.1) (b := y.1 * x'.1) (s := 1) hd hd4 (by positivity) herr (Or.inl rfl)
    rw [neg_one_mul, ← sub_eq_add_neg] at t1 t2
    rw [one_mul] at t3 t4
    rw [neg_one_mul, ← sub_eq_add_neg] at t1
    rw [one_mul] at t3
    obtain ⟨r, r1, r2⟩ := sub_some A m1 m2 (by rw [b1, b2]; linarith)
    obtain ⟨i, i1, i2⟩ := add_some A m3 m4 (by rw [b3, b4]; linarith)
    have e : ∀ a b : A.Num, a = (some x, some y) → b = (some x', some y') → a * b = (some r, some i) := by
      rintro _ _ rfl rfl
      show (A.sub (A.mul (some x) (some x')) (A.mul (some y) (some y')), A.add (A.mul (some x) (some y')) (A.mul (some y) (some x'))) = _
      rw [a1, a2, a3, a4, r1, i1]
    rw [e _ _ rfl rfl]
    refine ⟨⟨rfl, rfl⟩, ?_⟩
    rw [val_of]
    have hq : 0 ≤ 2 * (2 : ℝ)⁻¹ ^ f.p + ((2 : ℝ)⁻¹ ^ f.p) ^ 2 := by positivity
    refine (norm_le_parts _ ((2 * (2 : ℝ)⁻¹ ^ f.p + ((2 : ℝ)⁻¹ ^ f.p) ^ 2) * N) (4 * ((2 : ℝ) ^ f.emin / 2)) (by positivity) ?_ ?_
      (by positivity)).trans ?_
    · rw [Complex.sub_re, Complex.mul_re]
      show |r.1 - (x.1 * x'.1 - y.1 * y'.1)| ≤ _
      rw [r2, b1, b2]
      exact t1.trans (add_le_add (mul_le_mul_of_nonneg_left q1 hq) le_rfl)
    · rw [Complex.sub_im, Complex.mul_im]
      show |i.1 - (x.1 * y'.1 + y.1 * x'.1)| ≤ _
      rw [i2, b3, b4]
      exact t3.trans (add_le_add (mul_le_mul_of_nonneg_left q2 hq) le_rfl)
    · unfold Format.relErr Format.absErr binErr
      rw [← mul_assoc]
      linarith

end Format.Arith

end Verif
