import Verif.Props.IeeeMeasure

/-!
# Property C88 in `f64`
-/

namespace Verif.Props
open Verif MatrixOp Format.Arith

/-- `(15387 + 22484 i) / 27245`, a number of absolute value one -/
noncomputable def c64 : ℂ := ⟨15387 / 27245, 22484 / 27245⟩

/-- the matrix `0 1; c 0` of a user -/
noncomputable def mat64 : List ℂ := [0, 1, c64, 0]

/-- the number stored for the real part -/
noncomputable def x64 : ℝ := 5086943473396940 * (2 : ℝ) ^ (-53 : ℤ)

/-- the number stored for the imaginary part -/
noncomputable def y64 : ℝ := 7433212260730279 * (2 : ℝ) ^ (-53 : ℤ)

/-- the number `1 - 2^-53` -/
noncomputable def d64 : ℝ := 9007199254740991 * (2 : ℝ) ^ (-53 : ℤ)

variable {fl : ℝ → ℝ}

theorem fits64 (m : ℤ) (e : ℤ) (hm : |m| < 2 ^ 53) (he : -1074 ≤ e) : binary64.Fits (m * (2 : ℝ) ^ e) := ⟨m, e, hm, he, rfl⟩

theorem fits_x64 : binary64.Fits x64 := by
  have := fits64 5086943473396940 (-53) (by norm_num) (by norm_num)
  exact_mod_cast this

theorem fits_y64 : binary64.Fits y64 := by
  have := fits64 7433212260730279 (-53) (by norm_num) (by norm_num)
  exact_mod_cast this

theorem fits_d64 : binary64.Fits d64 := by
  have := fits64 9007199254740991 (-53) (by norm_num) (by norm_num)
  exact_mod_cast this

theorem x64_le : |x64| ≤ 1 := by unfold x64; norm_num [zpow_neg, _root_.abs_le]

theorem y64_le : |y64| ≤ 1 := by unfold y64; norm_num [zpow_neg, _root_.abs_le]

theorem d64_le : |d64| ≤ 1 := by unfold d64; norm_num [zpow_neg, _root_.abs_le]

theorem fl_x (A : binary64.Arith fl) : fl (15387 / 27245) = x64 := by
  have := A.near.eq_of_near (x := 15387 / 27245) (m := 5086943473396940) (e := -53) (by decide) (by decide) (by decide) (by decide)
    (by norm_num [binary64, zpow_neg]) (by norm_num [zpow_neg, abs_lt])
  rw [this]; unfold x64; norm_num

theorem fl_y (A : binary64.Arith fl) : fl (22484 / 27245) = y64 := by
  have := A.near.eq_of_near (x := 22484 / 27245) (m := 7433212260730279) (e := -53) (by decide) (by decide) (by decide) (by decide)
    (by norm_num [binary64, zpow_neg]) (by norm_num [zpow_neg, abs_lt])
  rw [this]; unfold y64; norm_num

theorem fl_xx (A : binary64.Arith fl) : fl (x64 * x64) = ((5745846887513944 : ℤ) : ℝ) * (2 : ℝ) ^ (-54 : ℤ) := by
  exact A.near.eq_of_near (x := x64 * x64) (m := 5745846887513944) (e := -54) (by decide) (by decide) (by decide) (by decide)
    (by unfold x64; norm_num [binary64, zpow_neg]) (by unfold x64; norm_num [zpow_neg, abs_lt])

theorem fl_yy (A : binary64.Arith fl) : fl (y64 * y64) = ((6134275810984018 : ℤ) : ℝ) * (2 : ℝ) ^ (-53 : ℤ) := by
  exact A.near.eq_of_near (x := y64 * y64) (m := 6134275810984018) (e := -53) (by decide) (by decide) (by decide) (by decide)
    (by unfold y64; norm_num [binary64, zpow_neg]) (by unfold y64; norm_num [zpow_neg, abs_lt])

/-- the op of the matrix in `f64` -/
noncomputable def op64 (A : binary64.Arith fl) : MatrixOp A.Num := .matrix [0] [store A 0, store A 1, store A c64, store A 0]

/-- the number stored for `c` -/
theorem store_c64 (A : binary64.Arith fl) : store A c64 = (A.round x64, A.round y64) := by
  unfold store c64
  simp only
  rw [← round_fl A (15387 / 27245), ← round_fl A (22484 / 27245), fl_x A, fl_y A]

theorem mul_one_part {f : Format} (A : f.Arith fl) (x y : ℝ) (hx : f.Fits x) (hy : f.Fits y) (hx1 : |x| ≤ 1) (hy1 : |y| ≤ 1) :
    (show A.Num from (A.round x, A.round y)) * A.ofReal 1 = (A.round x, A.round y) := by
  have z := fits_zero f
  have z1 : |(0 : ℝ)| ≤ 1 := by simp
  have o := A.fits_one
  have o1 : |(1 : ℝ)| ≤ 1 := by simp
  show (A.sub (A.mul (A.round x) (A.round 1)) (A.mul (A.round y) (A.round 0)),
    A.add (A.mul (A.round x) (A.round 0)) (A.mul (A.round y) (A.round 1))) = _
  rw [mul_part A x 1 hx o hx1 o1, mul_part A y 0 hy z hy1 z1, mul_part A x 0 hx z hx1 z1, mul_part A y 1 hy o hy1 o1, mul_one, mul_one, mul_zero, mul_zero,
    sub_part A x 0 hx z hx1 z1, add_part A 0 y z hy z1 hy1, sub_zero, zero_add]

theorem zero_add_part {f : Format} (A : f.Arith fl) (x y : ℝ) (hx : f.Fits x) (hy : f.Fits y) (hx1 : |x| ≤ 1) (hy1 : |y| ≤ 1) :
    A.ofReal 0 + (show A.Num from (A.round x, A.round y)) = (A.round x, A.round y) := by
  have z := fits_zero f
  have z1 : |(0 : ℝ)| ≤ 1 := by simp
  show (A.add (A.round 0) (A.round x), A.add (A.round 0) (A.round y)) = _
  rw [add_part A 0 x z hx z1 hx1, add_part A 0 y z hy z1 hy1, zero_add, zero_add]

/-- the matrix on the initial state in `f64` -/
theorem step64 (A : binary64.Arith fl) : applyOpOverwrite 1 (op64 A) [1, 0] [0, 0] 0 0 = some [A.ofReal 0, store A c64] := by
  have z := fits_zero binary64
  have z1 : |(0 : ℝ)| ≤ 1 := by simp
  have o := A.fits_one
  have o1 : |(1 : ℝ)| ≤ 1 := by simp
  have e0 : store A 0 = A.ofReal 0 := by unfold store ofReal; simp; rfl
  have e1 : store A 1 = A.ofReal 1 := by unfold store ofReal; simp; rfl
  have n0 : A.ofReal 0 = 0 := rfl
  have n3 : A.ofReal 1 ≠ 0 := A.ofReal_ne _ o o1 one_ne_zero
  have nc : store A c64 ≠ 0 := by
    rw [store_c64]
    intro h
    have h1 : A.round x64 = A.round 0 := congrArg Prod.fst h
    rw [round_fix A _ fits_x64 (A.le_top x64_le), Format.Arith.round_zero] at h1
    injection h1 with h2
    have h3 : x64 = 0 := congrArg Subtype.val h2
    unfold x64 at h3
    norm_num at h3
  have m1 : store A c64 * A.ofReal 1 = store A c64 := by
    rw [store_c64]; exact mul_one_part A _ _ fits_x64 fits_y64 x64_le y64_le
  have m2 : A.ofReal 0 + store A c64 = store A c64 := by
    rw [store_c64]; exact zero_add_part A _ _ fits_x64 fits_y64 x64_le y64_le
  unfold op64
  generalize store A c64 = c at nc m1 m2
  rw [apply_one, e0, e1]
  simp only [nzItems_cons, nzItems_nil, n0, n3, nc, ne_eq, not_true, not_false_eq_true, if_true, if_false, List.map_cons, List.map_nil, total, List.foldl_cons,
    List.foldl_nil, List.getElem?_cons_zero, List.getElem?_cons_succ, Option.getD_some]
  simp only [zero_eq, one_eq, ofReal_mul A _ _ o z o1 z1, mul_zero, ofReal_add A _ _ z z z1 z1, add_zero, m1, m2]

theorem run64 (A : binary64.Arith fl) :
    runOps 1 [op64 A] ((List.replicate (2 ^ 1) 0).set 0 1, List.replicate (2 ^ 1) 0) = some ([A.ofReal 0, store A c64], [A.ofReal 1, A.ofReal 0]) := by
  unfold runOps
  show ([op64 A].foldlM (fun s op => do
    let arena ← applyOpOverwrite 1 op s.1 s.2 0 0
    some (arena, s.1)) (([1, 0], [0, 0]) : List A.Num × List A.Num)) = _
  simp only [List.foldlM_cons, List.foldlM_nil, step64 A, Option.bind_eq_bind, Option.bind_some]
  rfl

/-- the draw `1 - 2^-53` -/
noncomputable def draw64 : binary64.Fin := ⟨d64, fits_d64, by
  have h : binary64.top = (2 ^ 53 - 1) * (2 : ℝ) ^ (971 : ℤ) := rfl
  have h1 : (2 : ℝ) ^ (0 : ℤ) ≤ 2 ^ (971 : ℤ) := zpow_le_zpow_right₀ (by norm_num) (by norm_num)
  have h2 : (1 : ℝ) * 2 ^ (0 : ℤ) ≤ (2 ^ 53 - 1) * (2 : ℝ) ^ (971 : ℤ) := mul_le_mul (by norm_num) h1 (by norm_num) (by norm_num)
  rw [h]
  refine d64_le.trans ?_
  rw [zpow_zero, one_mul] at h2
  exact h2⟩

/-- the measurement of the state computed, with the draw `1 - 2^-53` -/
theorem measure64 (A : binary64.Arith fl) (m : ℕ) (p : binary64.Part) (out : List A.Num) :
    MeasureP A.prec 1 [0] [A.ofReal 0, store A c64] [A.ofReal 1, A.ofReal 0] (some draw64) m p out ↔ m = 0 ∧ p = A.round 0 ∧ out = [A.ofReal 1, A.ofReal 0] := by
  have z := fits_zero binary64
  have z1 : |(0 : ℝ)| ≤ 1 := by simp
  have o := A.fits_one
  have o1 : |(1 : ℝ)| ≤ 1 := by simp
  have a := fits_d64
  have a1 := d64_le
  have hle : ∀ x : ℝ, binary64.Fits x → |x| ≤ 1 → 0 < x → A.prec.le (A.round x) (A.round 0) = false := by
    intro x hx hx1 h0
    rw [round_fix A x hx (A.le_top hx1), Format.Arith.round_zero]
    exact decide_eq_false (not_le.mpr h0)
  have hbeq : A.prec.beq (A.round 0) (A.round 0) = true := by
    rw [Format.Arith.round_zero]
    exact decide_eq_true rfl
  have ns0 : normSqrP A.prec (A.ofReal 0) = A.round 0 := by
    show A.add (A.mul (A.round 0) (A.round 0)) (A.mul (A.round 0) (A.round 0)) = _
    rw [mul_part A 0 0 z z z1 z1, mul_zero, add_part A 0 0 z z z1 z1, add_zero]
  have q := fits64 9007199254740990 (-53) (by norm_num) (by norm_num)
  have q1 : |((9007199254740990 : ℤ) : ℝ) * (2 : ℝ) ^ (-53 : ℤ)| ≤ 1 := by norm_num [zpow_neg, _root_.abs_le]
  have u := fits64 5745846887513944 (-54) (by norm_num) (by norm_num)
  have u1 : |((5745846887513944 : ℤ) : ℝ) * (2 : ℝ) ^ (-54 : ℤ)| ≤ 1 := by norm_num [zpow_neg, _root_.abs_le]
  have v := fits64 6134275810984018 (-53) (by norm_num) (by norm_num)
  have v1 : |((6134275810984018 : ℤ) : ℝ) * (2 : ℝ) ^ (-53 : ℤ)| ≤ 1 := by norm_num [zpow_neg, _root_.abs_le]
  have es : ((5745846887513944 : ℤ) : ℝ) * (2 : ℝ) ^ (-54 : ℤ) + ((6134275810984018 : ℤ) : ℝ) * (2 : ℝ) ^ (-53 : ℤ) =
      ((9007199254740990 : ℤ) : ℝ) * (2 : ℝ) ^ (-53 : ℤ) := by norm_num [zpow_neg]
  have ns1 : normSqrP A.prec (store A c64) = A.round (((9007199254740990 : ℤ) : ℝ) * (2 : ℝ) ^ (-53 : ℤ)) := by
    rw [store_c64]
    show A.add (A.mul (A.round x64) (A.round x64)) (A.mul (A.round y64) (A.round y64)) = _
    rw [mul_part A _ _ fits_x64 fits_x64 x64_le x64_le, mul_part A _ _ fits_y64 fits_y64 y64_le y64_le, ← round_fl A (x64 * x64), ← round_fl A (y64 * y64),
      fl_xx A, fl_yy A, add_part A _ _ u v u1 v1, es]
  have d := fits64 1 (-53) (by norm_num) (by norm_num)
  have ed : d64 - ((9007199254740990 : ℤ) : ℝ) * (2 : ℝ) ^ (-53 : ℤ) = ((1 : ℤ) : ℝ) * (2 : ℝ) ^ (-53 : ℤ) := by unfold d64; norm_num [zpow_neg]
  have r0 : A.prec.mul (some draw64) A.prec.one = A.round d64 := by
    have : (some draw64 : binary64.Part) = A.round d64 := (round_fix A d64 a (A.le_top a1)).symm
    show A.mul (some draw64) (A.round 1) = _
    rw [this, mul_part A _ _ a o a1 o1, mul_one]
  have t1 : A.prec.sub (A.round d64) (A.round 0) = A.round d64 := by
    show A.sub _ _ = _
    rw [sub_part A _ 0 a z a1 z1, sub_zero]
  have t2 : A.prec.sub (A.round d64) (A.round (((9007199254740990 : ℤ) : ℝ) * (2 : ℝ) ^ (-53 : ℤ))) = A.round (((1 : ℤ) : ℝ) * (2 : ℝ) ^ (-53 : ℤ)) := by
    show A.sub _ _ = _
    rw [sub_part A _ _ a q a1 q1, ed]
  have hz : isZeroP A.prec (A.ofReal 0) = true := by
    show (A.prec.beq (A.round 0) (A.round 0) && A.prec.beq (A.round 0) (A.round 0)) = true
    rw [hbeq]; rfl
  exact measure_fall A.prec (A.ofReal 0) (store A c64) _ (some draw64) (A.round d64) (A.round (((1 : ℤ) : ℝ) * (2 : ℝ) ^ (-53 : ℤ))) hz
    (by rw [r0, ns0, t1]) (hle d64 a a1 (by unfold d64; positivity)) (by rw [ns1, t2])
    (hle _ d (by norm_num [zpow_neg, _root_.abs_le]) (by positivity)) (sums_nil A) hbeq m p out

/-- C88 in `f64`: the matrix `0 1; c 0` of a user, with `c = (15387 + 22484 i) / 27245`, and a measurement of the qubit. The exact state before
the measurement is the basis state 1 up to the phase `c`. If the draw is `1 - 2^-53`, the largest `f64` below one, every run of the code gives the
outcome 0, with probability zero, and goes on from the state before the matrix. -/
theorem C88_f64 (A : binary64.Arith fl) (rnds : ℕ → binary64.Part) (hr : rnds 0 = some draw64) (t : StateP A.Num binary64.Part) :
    RunsP A.prec (fun c : A.Num => c) (fun c => c) 1 rnds [.op (op64 A), .measurement [0]] ⟨[1, 0], [0, 0], []⟩ t ↔
      t = ⟨[A.ofReal 1, A.ofReal 0], [A.ofReal 0, store A c64], [(0, A.prec.zero)]⟩ := by
  constructor
  · intro h
    cases h with | op _ _ _ _ a1 e1 h =>
    simp only at e1 h
    rw [step64 A] at e1
    obtain rfl := Option.some.inj e1
    cases h with | measurement _ _ _ _ m p out hm h =>
    simp only [List.length_nil, hr] at hm h
    obtain ⟨rfl, rfl, rfl⟩ := (measure64 A m p out).mp hm
    cases h
    rfl
  · rintro rfl
    refine .op _ _ _ _ _ (step64 A) ?_
    refine .measurement [0] [] _ _ 0 (A.round 0) [A.ofReal 1, A.ofReal 0] ?_ (.nil _)
    simp only [List.length_nil, hr]
    exact (measure64 A 0 _ _).mpr ⟨rfl, rfl, rfl⟩

theorem norm_c64 : ‖c64‖ = 1 := by
  have h : Complex.normSq c64 = 1 := by unfold c64; rw [Complex.normSq_mk]; norm_num
  rw [Complex.norm_def, h, Real.sqrt_one]

/-- the matrix is unitary -/
theorem unitary64 : IsUnitary 1 fun i j => (mat64[i * 2 ^ 1 + j]?).getD 0 := by
  have h : star c64 * c64 = 1 := by
    rw [Complex.star_def, ← Complex.normSq_eq_conj_mul_self, Complex.normSq_eq_norm_sq, norm_c64]
    norm_num
  intro r c hr hc
  rw [pow_one] at hr hc ⊢
  interval_cases r <;> interval_cases c <;> simp [Finset.sum_range_succ, mat64, h]
  simpa using h

/-- C88 as stated is false in `f64`. -/
theorem C88_refuted_f64 : ¬ C88_claim binary64 := by
  intro h
  obtain ⟨fl, ⟨A⟩⟩ := exists_binary64
  have h3 : ‖c64‖ ≤ 3 := by rw [norm_c64]; norm_num
  have := h fl A 1 [([0], ⟨1, .unitary (.MAT mat64)⟩)] [op64 A] (by
      intro e he
      simp at he
      subst he
      exact ⟨⟨by simp, by simp, fun u hu => by cases hu; exact ⟨rfl, by simp⟩⟩, rfl, _, rfl, by simp⟩) (by
      intro e he data hd
      simp at he
      subst he
      simp at hd
      subst hd
      exact unitary64) (.cons ⟨_, _, rfl, rfl, .matrix _ _ _ (.cons (store_storedAs A 0 (by simp)) (.cons (store_storedAs A 1 (by simp))
        (.cons (store_storedAs A c64 h3) (.cons (store_storedAs A 0 (by simp)) .nil))))⟩ .nil) [0] (by simp) (by simp) draw64 (by
      show 0 < d64
      unfold d64; positivity) (by
      show d64 < 1
      unfold d64; norm_num [zpow_neg]) _ 0 (A.round 0) _ (run64 A) ((measure64 A 0 _ _).mpr ⟨rfl, rfl, rfl⟩)
  rw [show A.prec.zero = A.round 0 from rfl, Format.Arith.round_zero] at this
  exact absurd (decide_eq_true rfl) (Bool.eq_false_iff.mp this)

end Verif.Props
