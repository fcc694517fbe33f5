import Verif.Proofs.Ieee
import Verif.Proofs.Rows

/-! # Rounded arithmetic: exact values of roundings, gates on one qubit -/

namespace Verif
open MatrixOp

variable {f : Format} {fl : ℝ → ℝ}

/-- the nearest number is unique within half of the distance of neighbours -/
theorem Format.Rounding.eq_of_near (h : f.Rounding fl) {x : ℝ} {m e : ℤ} (hp : 1 ≤ f.p) (hm : 2 ^ (f.p - 1) ≤ m) (hm' : m < 2 ^ f.p)
    (he : f.emin ≤ e) (hx : (2 : ℝ) ^ (f.p - 1) * 2 ^ e ≤ x) (hn : |x - m * (2 : ℝ) ^ e| < 2 ^ e / 2) : fl x = m * (2 : ℝ) ^ e := by
  have hpos : (0 : ℝ) < 2 ^ e := by positivity
  have hf : f.Fits (m * (2 : ℝ) ^ e) := by
    refine ⟨m, e, ?_, he, rfl⟩
    rw [abs_of_nonneg (le_trans (by positivity) hm)]
    exact hm'
  have h1 : |fl x - x| ≤ |m * (2 : ℝ) ^ e - x| := h.nearest x _ hf
  rw [abs_sub_comm (m * (2 : ℝ) ^ e) x] at h1
  obtain ⟨m', e', a1, -, a3⟩ := h.fits x
  rcases le_or_gt e e' with hee | hee
  · obtain ⟨j, hj⟩ : ∃ j : ℤ, fl x = j * (2 : ℝ) ^ e := by
      refine ⟨m' * 2 ^ (e' - e).toNat, ?_⟩
      rw [a3]
      push_cast
      rw [mul_assoc, ← zpow_natCast, ← zpow_add₀ (by norm_num), Int.toNat_of_nonneg (by omega)]
      congr 2
      ring
    have h2 : |(j : ℝ) - m| * 2 ^ e < 2 ^ e := by
      have e1 : |(j : ℝ) - m| * 2 ^ e = |(fl x - x) + (x - m * (2 : ℝ) ^ e)| := by
        rw [hj, ← abs_of_pos hpos, ← abs_mul, abs_of_pos hpos]
        congr 1
        ring
      rw [e1]
      refine (abs_add_le _ _).trans_lt ?_
      linarith
    have h3 : |(j : ℝ) - m| < 1 := by
      by_contra hc
      have := mul_le_mul_of_nonneg_right (not_lt.mp hc) hpos.le
      linarith
    have h4 : |j - m| < 1 := by exact_mod_cast h3
    have : j = m := by
      have := Int.abs_lt_one_iff.mp h4
      omega
    rw [hj, this]
  · exfalso
    have b1 : fl x < (2 : ℝ) ^ (f.p - 1) * 2 ^ e := by
      have c1 : (|m'| : ℝ) < 2 ^ f.p := by exact_mod_cast a1
      have c2 : fl x ≤ |(m' : ℝ)| * 2 ^ e' := by
        rw [a3]
        exact mul_le_mul_of_nonneg_right (le_abs_self _) (by positivity)
      have c3 : |(m' : ℝ)| * 2 ^ e' < 2 ^ f.p * 2 ^ e' := mul_lt_mul_of_pos_right c1 (by positivity)
      have c4 : (2 : ℝ) ^ f.p * 2 ^ e' ≤ 2 ^ (f.p - 1) * 2 ^ e := by
        rw [← zpow_natCast, ← zpow_natCast, ← zpow_add₀ (by norm_num), ← zpow_add₀ (by norm_num)]
        apply zpow_le_zpow_right₀ (by norm_num)
        push_cast [Nat.cast_sub hp]
        omega
      linarith
    have hmr : (2 : ℝ) ^ (f.p - 1) ≤ m := by exact_mod_cast hm
    have b2 : (2 : ℝ) ^ (f.p - 1) * 2 ^ e ≤ m * 2 ^ e := mul_le_mul_of_nonneg_right hmr hpos.le
    rcases le_or_gt (m * (2 : ℝ) ^ e) x with hyx | hyx
    · rw [abs_of_nonneg (by linarith : 0 ≤ x - m * (2 : ℝ) ^ e), abs_of_nonpos (by linarith)] at h1
      linarith
    · rw [abs_of_neg (by linarith : x - m * (2 : ℝ) ^ e < 0)] at h1 hn
      rw [abs_of_nonpos (by linarith)] at h1
      have hlt : (2 : ℝ) ^ (f.p - 1) < m := by
        by_contra hc
        have : (m : ℝ) * 2 ^ e ≤ 2 ^ (f.p - 1) * 2 ^ e := mul_le_mul_of_nonneg_right (not_lt.mp hc) hpos.le
        linarith
      have hlt' : (2 : ℤ) ^ (f.p - 1) + 1 ≤ m := by
        have : (2 : ℤ) ^ (f.p - 1) < m := by exact_mod_cast hlt
        omega
      have hlt2 : (2 : ℝ) ^ (f.p - 1) + 1 ≤ m := by exact_mod_cast hlt'
      have := mul_le_mul_of_nonneg_right hlt2 hpos.le
      nlinarith

theorem Format.Fits.neg {x : ℝ} (h : f.Fits x) : f.Fits (-x) := by
  obtain ⟨m, e, a, b, c⟩ := h
  exact ⟨-m, e, by rwa [abs_neg], b, by push_cast; linarith⟩

theorem Format.Rounding.neg (h : f.Rounding fl) : f.Rounding (fun x => -fl (-x)) := ⟨fun x => (h.fits _).neg, fun x y hy => by
  have := h.nearest (-x) (-y) hy.neg
  rw [← abs_neg, show -(-fl (-x) - x) = fl (-x) - -x by ring, ← abs_neg (y - x), show -(y - x) = -y - -x by ring]
  exact this⟩

/-- the same for negative numbers -/
theorem Format.Rounding.eq_of_near_neg (h : f.Rounding fl) {x : ℝ} {m e : ℤ} (hp : 1 ≤ f.p) (hm : 2 ^ (f.p - 1) ≤ m) (hm' : m < 2 ^ f.p)
    (he : f.emin ≤ e) (hx : (2 : ℝ) ^ (f.p - 1) * 2 ^ e ≤ x) (hn : |x - m * (2 : ℝ) ^ e| < 2 ^ e / 2) : fl (-x) = -(m * (2 : ℝ) ^ e) := by
  have := h.neg.eq_of_near hp hm hm' he hx hn
  linarith

namespace Format.Arith

theorem round_fl (A : f.Arith fl) (x : ℝ) : A.round (fl x) = A.round x := by
  unfold round
  have : fl (fl x) = fl x := A.near.fix (A.near.fits x)
  simp only [this]

/-- the complex number stored for a real one -/
noncomputable def ofReal (A : f.Arith fl) (x : ℝ) : A.Num := (A.round x, A.round 0)

theorem ofReal_eq (A : f.Arith fl) {x y : ℝ} (h : fl x = y) : A.ofReal x = A.ofReal y := by
  unfold ofReal
  rw [← h, round_fl]

theorem le_top (A : f.Arith fl) {x : ℝ} (h : |x| ≤ 1) : |x| ≤ f.top := by linarith [A.top_ge]

theorem ofReal_add (A : f.Arith fl) (x y : ℝ) (hx : f.Fits x) (hy : f.Fits y) (hx1 : |x| ≤ 1) (hy1 : |y| ≤ 1) :
    A.ofReal x + A.ofReal y = A.ofReal (x + y) := by
  show (A.add (A.round x) (A.round y), A.add (A.round 0) (A.round 0)) = (A.round (x + y), A.round 0)
  rw [round_fix A x hx (A.le_top hx1), round_fix A y hy (A.le_top hy1), round_zero]
  have e : A.add (some ⟨0, fits_zero f, by rw [abs_zero]; linarith [top_ge A]⟩) (some ⟨0, fits_zero f, by rw [abs_zero]; linarith [top_ge A]⟩) =
      A.round (0 + 0) := rfl
  rw [e, add_zero, ← round_zero]
  rfl

theorem mul_part (A : f.Arith fl) (x y : ℝ) (hx : f.Fits x) (hy : f.Fits y) (hx1 : |x| ≤ 1) (hy1 : |y| ≤ 1) :
    A.mul (A.round x) (A.round y) = A.round (x * y) := by
  rw [round_fix A x hx (A.le_top hx1), round_fix A y hy (A.le_top hy1)]
  rfl

theorem add_part (A : f.Arith fl) (x y : ℝ) (hx : f.Fits x) (hy : f.Fits y) (hx1 : |x| ≤ 1) (hy1 : |y| ≤ 1) :
    A.add (A.round x) (A.round y) = A.round (x + y) := by
  rw [round_fix A x hx (A.le_top hx1), round_fix A y hy (A.le_top hy1)]
  rfl

theorem sub_part (A : f.Arith fl) (x y : ℝ) (hx : f.Fits x) (hy : f.Fits y) (hx1 : |x| ≤ 1) (hy1 : |y| ≤ 1) :
    A.sub (A.round x) (A.round y) = A.round (x - y) := by
  rw [round_fix A x hx (A.le_top hx1), round_fix A y hy (A.le_top hy1)]
  rfl

theorem abs_fl_le (A : f.Arith fl) (x : ℝ) (h : |x| ≤ 1) : |fl x| ≤ 1 := by
  have h1 : f.Fits 1 := A.fits_one
  have h2 : f.Fits (-1) := by
    obtain ⟨m, e, a, b, c⟩ := h1
    exact ⟨-m, e, by rwa [abs_neg], b, by push_cast; linarith⟩
  have a1 := A.near.nearest x 1 h1
  have a2 := A.near.nearest x (-1) h2
  rw [_root_.abs_le] at h ⊢
  rw [abs_of_nonneg (by linarith : 0 ≤ 1 - x), _root_.abs_le] at a1
  rw [abs_of_nonpos (by linarith : -1 - x ≤ 0), _root_.abs_le] at a2
  constructor <;> linarith

theorem ofReal_mul (A : f.Arith fl) (x y : ℝ) (hx : f.Fits x) (hy : f.Fits y) (hx1 : |x| ≤ 1) (hy1 : |y| ≤ 1) :
    A.ofReal x * A.ofReal y = A.ofReal (x * y) := by
  have z := fits_zero f
  have z1 : |(0 : ℝ)| ≤ 1 := by simp
  have xy1 : |x * y| ≤ 1 := by rw [abs_mul]; exact mul_le_one₀ hx1 (abs_nonneg _) hy1
  show (A.sub (A.mul (A.round x) (A.round y)) (A.mul (A.round 0) (A.round 0)),
    A.add (A.mul (A.round x) (A.round 0)) (A.mul (A.round 0) (A.round y))) = (A.round (x * y), A.round 0)
  rw [mul_part A x y hx hy hx1 hy1, mul_part A 0 0 z z z1 z1, mul_part A x 0 hx z hx1 z1, mul_part A 0 y z hy z1 hy1, mul_zero, mul_zero, zero_mul,
    add_part A 0 0 z z z1 z1, ← round_fl A (x * y), sub_part A _ 0 (A.near.fits _) z (abs_fl_le A _ xy1) z1, sub_zero, add_zero]

theorem zero_eq (A : f.Arith fl) : (0 : A.Num) = A.ofReal 0 := rfl

theorem one_eq (A : f.Arith fl) : (1 : A.Num) = A.ofReal 1 := rfl

theorem ofReal_ne (A : f.Arith fl) (x : ℝ) (hx : f.Fits x) (hx1 : |x| ≤ 1) (h0 : x ≠ 0) : A.ofReal x ≠ 0 := by
  intro h
  have h1 : A.round x = A.round 0 := congrArg Prod.fst h
  rw [round_fix A x hx (A.le_top hx1), round_zero] at h1
  injection h1 with h2
  exact h0 (congrArg Subtype.val h2)

end Format.Arith

/-- a matrix on the only qubit -/
theorem apply_one {F : Type} [Zero F] [One F] [Add F] [Mul F] [DecidableEq F] (a b c d x y o p : F) :
    applyOpOverwrite 1 (.matrix [0] [a, b, c, d]) [x, y] [o, p] 0 0 =
      some [total ((nzItems [a, b] 0).map fun e => e.2 * ([x, y][e.1]?).getD 0), total ((nzItems [c, d] 0).map fun e => e.2 * ([x, y][e.1]?).getD 0)] := by
  rw [applyOpOverwrite_any 1 _ (by simp [MatrixOp.WF]) (by simp [MatrixOp.indices]) _ _ (by simp) (by simp)]
  congr 1
  have e1 : ∀ r < 2, f2s 1 [0] r = r := by decide
  have e2 : ∀ r < 2, ∀ c < 2, s2f 1 [0] c r = c := by decide
  have e3 : ∀ (q : List F) (r : ℕ), r < 2 → q.length = 2 → (nzItems q 0).map (fun e => e.2 * ([x, y][s2f 1 [0] e.1 r]?).getD 0) =
      (nzItems q 0).map fun e => e.2 * ([x, y][e.1]?).getD 0 := by
    intro q r hr hq
    obtain ⟨u, v, rfl⟩ := List.length_eq_two.mp hq
    by_cases hu : u = 0 <;> by_cases hv : v = 0 <;> simp [nzItems, hu, hv, e2 r hr]
  show [rowTotal 1 _ [x, y] 0, rowTotal 1 _ [x, y] 1] = _
  unfold rowTotal
  rw [show (MatrixOp.matrix [0] [a, b, c, d]).indices = [0] from rfl, e1 0 (by omega), e1 1 (by omega)]
  rw [show rowItems (MatrixOp.matrix [0] [a, b, c, d]) 0 = nzItems [a, b] 0 by simp [rowItems, denseRow],
    show rowItems (MatrixOp.matrix [0] [a, b, c, d]) 1 = nzItems [c, d] 0 by simp [rowItems, denseRow], e3 _ 0 (by omega) rfl, e3 _ 1 (by omega) rfl]

end Verif
