import Verif.Spec.FloatGates
import Verif.Props.FloatLoop

/-! # The entries of the gates in floating point arithmetic -/

namespace Verif
open Format.Arith

variable {f : Format} {fl : ℝ → ℝ}

theorem one_mulP (A : f.Arith fl) (y : f.Fin) : A.mul (A.round 1) (some y) = some y := by
  rw [round_one]
  show A.round (1 * y.1) = some y
  rw [one_mul]
  exact round_fix A y.1 y.2.1 y.2.2

theorem zero_mulP (A : f.Arith fl) (y : f.Fin) : A.mul (A.round 0) (some y) = A.round 0 := by
  rw [round_zero]
  show A.round (0 * y.1) = _
  rw [zero_mul, round_zero]

theorem fits_half (A : f.Arith fl) : f.Fits (1 / 2) := ⟨1, -1, by
  rw [abs_one]; exact one_lt_pow₀ (by norm_num) (by have := A.hp; omega), by have := A.lo; have := A.hp; omega, by norm_num⟩

/-- half of a number is exact up to underflow -/
theorem half_mulP (A : f.Arith fl) (x : f.Fin) : ∃ h : f.Fin, A.mul (some x) (A.round (1 / 2)) = some h ∧ |h.1 - x.1 / 2| ≤ (2 : ℝ) ^ f.emin / 2 := by
  rw [round_fix A (1 / 2) (fits_half A) (by rw [abs_of_pos (by norm_num)]; linarith [top_ge A])]
  have hx : |x.1 * (1 / 2)| ≤ f.top / 2 := by
    rw [abs_mul, abs_of_pos (by norm_num : (0 : ℝ) < 1 / 2)]
    linarith [x.2.2]
  obtain ⟨h, h1, h2⟩ := round_some A (x.1 * (1 / 2)) hx
  refine ⟨h, h1, ?_⟩
  rw [h2, show x.1 / 2 = x.1 * (1 / 2) by ring]
  obtain ⟨m, e, m1, m2, m3⟩ := x.2.1
  have hm : (0 : ℝ) < (2 : ℝ) ^ f.emin := by positivity
  rcases m2.lt_or_eq with he | he
  · have hf : f.Fits (x.1 * (1 / 2)) := ⟨m, e - 1, m1, by omega, by rw [m3, zpow_sub₀ (by norm_num)]; norm_num; ring⟩
    rw [A.near.fix hf, sub_self, abs_zero]
    positivity
  · subst he
    have hf : f.Fits ((m / 2 : ℤ) * (2 : ℝ) ^ f.emin) := ⟨m / 2, f.emin, by rw [abs_lt] at m1 ⊢; omega, le_rfl, rfl⟩
    refine (A.near.nearest (x.1 * (1 / 2)) _ hf).trans ?_
    rw [m3]
    have e1 : ((m / 2 : ℤ) : ℝ) * (2 : ℝ) ^ f.emin - m * (2 : ℝ) ^ f.emin * (1 / 2) = (((m / 2 : ℤ) : ℝ) - m / 2) * (2 : ℝ) ^ f.emin := by ring
    rw [e1, abs_mul, abs_of_pos hm]
    have e2 : |((m / 2 : ℤ) : ℝ) - m / 2| ≤ 1 / 2 := by
      have a1 : m / 2 * 2 ≤ m := Int.ediv_mul_le m (by norm_num)
      have a2 : m ≤ m / 2 * 2 + 1 := by omega
      have b1 : ((m / 2 : ℤ) : ℝ) * 2 ≤ m := by exact_mod_cast a1
      have b2 : (m : ℝ) ≤ ((m / 2 : ℤ) : ℝ) * 2 + 1 := by exact_mod_cast a2
      rw [_root_.abs_le]
      constructor <;> linarith
    nlinarith

/-- parts with a small error -/
theorem stored_parts (A : f.Arith fl) (x y : f.Fin) (z : ℂ) (hz : z ≠ 0) (α β u η : ℝ) (hα : 0 ≤ α) (hβ : 0 ≤ β) (hx : |x.1 - z.re| ≤ α + β)
    (hy : |y.1 - z.im| ≤ α + β) (h : Real.sqrt 2 * α ≤ u * ‖z‖) (h' : 3 / 2 * β ≤ η) : StoredAs A.fin A.val u η ((some x, some y) : A.Num) z := by
  refine ⟨⟨rfl, rfl⟩, ?_, fun h0 => absurd h0 hz⟩
  refine (norm_le_parts _ α β hβ hx hy hα).trans ?_
  linarith

theorem zero_stored (A : f.Arith fl) (u η : ℝ) (hη : 0 ≤ η) (h4 : 4 ≤ f.p) : StoredAs A.fin A.val u η (0 : A.Num) 0 := by
  have R := A.limits h4
  exact ⟨R.fin_zero, by rw [R.val_zero]; simpa using hη, fun _ => rfl⟩

/-- exact entries -/
theorem exact_stored (A : f.Arith fl) (x y : f.Fin) (z : ℂ) (hz : z ≠ 0) (hx : x.1 = z.re) (hy : y.1 = z.im) (u η : ℝ) (hu : 0 ≤ u) (hη : 0 ≤ η) :
    StoredAs A.fin A.val u η ((some x, some y) : A.Num) z := by
  refine stored_parts A x y z hz 0 0 u η le_rfl le_rfl (by rw [hx]; simp) (by rw [hy]; simp) ?_ (by simpa using hη)
  rw [mul_zero]
  exact mul_nonneg hu (norm_nonneg _)

theorem one_stored (A : f.Arith fl) (u η : ℝ) (hu : 0 ≤ u) (hη : 0 ≤ η) : StoredAs A.fin A.val u η (1 : A.Num) 1 := by
  have e : (1 : A.Num) = ((A.round 1, A.round 0) : A.Num) := rfl
  rw [e, round_one, round_zero]
  exact exact_stored A _ _ 1 one_ne_zero rfl rfl u η hu hη

theorem i_stored (A : f.Arith fl) (u η : ℝ) (hu : 0 ≤ u) (hη : 0 ≤ η) : StoredAs A.fin A.val u η A.iC Complex.I := by
  unfold Format.Arith.iC
  rw [round_one, round_zero]
  exact exact_stored A _ _ _ Complex.I_ne_zero rfl rfl u η hu hη

/-- the negation of what is stored is stored for the negation -/
theorem neg_stored (A : f.Arith fl) (u η : ℝ) (a : A.Num) (z : ℂ) (hz : z ≠ 0) (h : StoredAs A.fin A.val u η a z) : StoredAs A.fin A.val u η (A.negC a) (-z) := by
  obtain ⟨h1, h2, -⟩ := h
  obtain ⟨x, y, rfl⟩ := fin_cases A a h1
  refine ⟨⟨rfl, rfl⟩, ?_, fun h0 => absurd (neg_eq_zero.mp h0) hz⟩
  have e : A.val (A.negC (some x, some y)) = -A.val (some x, some y) := Complex.ext rfl rfl
  rw [e, norm_neg, show -A.val (some x, some y) - -z = -(A.val (some x, some y) - z) by ring, norm_neg]
  exact h2

/-- the entry `exp(iφ)` computed from an angle `x` near `φ` -/
theorem polar_stored (A : f.Arith fl) (L : StdLib f) (u : ℝ) (hL : L.Accurate u) (x : f.Fin) (φ α : ℝ) (hα : 0 ≤ α) (hx : |x.1 - φ| ≤ α + (2 : ℝ) ^ f.emin)
    (v : ℝ) (hv : Real.sqrt 2 * (u + α) ≤ v) :
    StoredAs A.fin A.val v f.absErr (A.fromPolar L (A.round 1) (some x)) (Complex.exp ((φ : ℝ) * Complex.I)) := by
  obtain ⟨c, c1, c2⟩ := hL.cos x
  obtain ⟨s, s1, s2⟩ := hL.sin x
  have hu : 0 ≤ u := (abs_nonneg _).trans c2
  have hm : (0 : ℝ) < (2 : ℝ) ^ f.emin := by positivity
  unfold Format.Arith.fromPolar
  rw [c1, s1, one_mulP, one_mulP]
  have hcos : |Real.cos x.1 - Real.cos φ| ≤ |x.1 - φ| := Real.abs_cos_sub_cos_le x.1 φ
  have hsin : |Real.sin x.1 - Real.sin φ| ≤ |x.1 - φ| := Real.abs_sin_sub_sin_le x.1 φ
  refine stored_parts A c s _ (Complex.exp_ne_zero _) (u + α) ((2 : ℝ) ^ f.emin) v f.absErr (by linarith) hm.le ?_ ?_ ?_ ?_
  · rw [Complex.exp_ofReal_mul_I_re]
    have := abs_sub_le c.1 (Real.cos x.1) (Real.cos φ)
    linarith
  · rw [Complex.exp_ofReal_mul_I_im]
    have := abs_sub_le s.1 (Real.sin x.1) (Real.sin φ)
    linarith
  · rw [Complex.norm_exp_ofReal_mul_I, mul_one]
    exact hv
  · unfold Format.absErr
    linarith

/-- ops with a matrix -/
theorem matrix_same (A : f.Arith fl) (u η : ℝ) (idx : List ℕ) (d : List A.Num) (d' : List ℂ) (h : List.Forall₂ (StoredAs A.fin A.val u η) d d') :
    SameOp A u η (makeMatrixOp idx d) (makeMatrixOp idx d') := by
  unfold makeMatrixOp
  simp only [h.length_eq]
  split
  · rfl
  · split
    · rfl
    · exact .matrix idx d d' h

theorem control_same (A : f.Arith fl) (u η : ℝ) (c : ℕ) (idx : List ℕ) (d : List A.Num) (d' : List ℂ) (h : List.Forall₂ (StoredAs A.fin A.val u η) d d') :
    SameOp A u η (makeMatrixOp idx d >>= makeControlOp [c]) (makeMatrixOp idx d' >>= makeControlOp [c]) := by
  unfold makeMatrixOp
  simp only [h.length_eq]
  split
  · rfl
  · split
    · rfl
    · exact .control 1 _ _ _ (.matrix idx d d' h)

/-- rotations: the angle computed is near that of the exact rotation -/
theorem rz_same (A : f.Arith fl) (h4 : 4 ≤ f.p) (L : StdLib f) (u : ℝ) (hL : L.Accurate u) (v : ℝ) (hv : 0 ≤ v) (idx : List ℕ) (r : RotP f) (r' : Rot) (x : f.Fin)
    (x1 : angleP L r = some x) (δ : ℝ) (d0 : 0 ≤ δ) (x2 : |x.1 - rotAngle r'| ≤ 2 * δ + (2 : ℝ) ^ f.emin) (x3 : Real.sqrt 2 * (u + δ) ≤ v) :
    SameOp A v f.absErr (unitaryOpP A L idx (.Rz r)) (unitaryOp idx (.Rz r')) := by
  have hη : 0 ≤ f.absErr := (A.limits h4).η_nonneg
  have hm : (0 : ℝ) < (2 : ℝ) ^ f.emin := by positivity
  have o := zero_stored A v f.absErr hη h4
  obtain ⟨h, k1, k2⟩ := half_mulP A x
  have hd : |h.1 - rotAngle r' * (1 / 2)| ≤ δ + (2 : ℝ) ^ f.emin := by
    have a := abs_sub_le h.1 (x.1 / 2) (rotAngle r' * (1 / 2))
    have b : |x.1 / 2 - rotAngle r' * (1 / 2)| = |x.1 - rotAngle r'| / 2 := by
      rw [show x.1 / 2 - rotAngle r' * (1 / 2) = (x.1 - rotAngle r') / 2 by ring, abs_div, abs_of_pos (by norm_num : (0 : ℝ) < 2)]
    linarith
  have e1 := polar_stored A L u hL h _ δ d0 hd v x3
  have e2 : StoredAs A.fin A.val v f.absErr (A.fromPolar L (A.round 1) (negP (some h))) (Complex.exp ((-(rotAngle r' * (1 / 2)) : ℝ) * Complex.I)) := by
    refine polar_stored A L u hL _ _ δ d0 ?_ v x3
    show |-h.1 - -(rotAngle r' * (1 / 2))| ≤ _
    rw [show -h.1 - -(rotAngle r' * (1 / 2)) = -(h.1 - rotAngle r' * (1 / 2)) by ring, abs_neg]
    exact hd
  show SameOp A v f.absErr (makeMatrixOp idx [A.fromPolar L (A.round 1) (negP (A.mul (angleP L r) (A.round (1 / 2)))), 0, 0,
    A.fromPolar L (A.round 1) (A.mul (angleP L r) (A.round (1 / 2)))]) _
  rw [x1, k1]
  exact matrix_same A _ _ _ _ _ (.cons e2 (.cons o (.cons o (.cons e1 .nil))))

/-- all gates -/
theorem unitaryOpP_same (A : f.Arith fl) (h4 : 4 ≤ f.p) (L : StdLib f) (u : ℝ) (hL : L.Accurate u) (Θ : ℝ) (hΘ : Θ ≤ f.top / 4) (v : ℝ)
    (h1 : Real.sqrt 2 * (2 * u) ≤ v) (h2 : Real.sqrt 2 * (u + u * Θ) ≤ v) (idx : List ℕ) (g : UObjP f) (hg : g.Within Θ) :
    SameOp A v f.absErr (unitaryOpP A L idx g) (unitaryOp idx g.exact) := by
  have hη : 0 ≤ f.absErr := (A.limits h4).η_nonneg
  have hm : (0 : ℝ) < (2 : ℝ) ^ f.emin := by positivity
  have hu : 0 ≤ u := by
    obtain ⟨y, -, hy⟩ := hL.invSqrt2
    exact (abs_nonneg _).trans hy
  have hs : 0 < Real.sqrt 2 := Real.sqrt_pos.mpr (by norm_num)
  have hv : 0 ≤ v := le_trans (by positivity) h1
  have o := zero_stored A v f.absErr hη h4
  have l := one_stored A v f.absErr hv hη
  have i := i_stored A v f.absErr hv hη
  have hu2 : Real.sqrt 2 * u ≤ v := by nlinarith
  cases g with
  | X => exact matrix_same A _ _ _ _ _ (.cons o (.cons l (.cons l (.cons o .nil))))
  | Y => exact matrix_same A _ _ _ _ _ (.cons o (.cons (neg_stored A _ _ _ _ Complex.I_ne_zero i) (.cons i (.cons o .nil))))
  | Z => exact matrix_same A _ _ _ _ _ (.cons l (.cons o (.cons o (.cons (neg_stored A _ _ _ _ one_ne_zero l) .nil))))
  | S => exact matrix_same A _ _ _ _ _ (.cons l (.cons o (.cons o (.cons i .nil))))
  | H =>
    obtain ⟨c, c1, c2⟩ := hL.invSqrt2
    have hz : ((1 / Real.sqrt 2 : ℝ) : ℂ) ≠ 0 := by exact_mod_cast (by positivity : (1 / Real.sqrt 2 : ℝ) ≠ 0)
    have e : A.scaleC 1 L.invSqrt2 = ((some c, A.round 0) : A.Num) := by
      rw [c1]
      show (A.mul (A.round 1) (some c), A.mul (A.round 0) (some c)) = _
      rw [one_mulP, zero_mulP]
    have hh : StoredAs A.fin A.val v f.absErr (A.scaleC 1 L.invSqrt2) ((1 / Real.sqrt 2 : ℝ) : ℂ) := by
      rw [e, round_zero]
      refine ⟨⟨rfl, rfl⟩, ?_, fun h0 => absurd h0 hz⟩
      show ‖(⟨c.1, 0⟩ : ℂ) - ((1 / Real.sqrt 2 : ℝ) : ℂ)‖ ≤ _
      have e2 : (⟨c.1, 0⟩ : ℂ) - ((1 / Real.sqrt 2 : ℝ) : ℂ) = ((c.1 - 1 / Real.sqrt 2 : ℝ) : ℂ) := by
        apply Complex.ext <;> simp
      rw [e2, Complex.norm_real, Complex.norm_real, Real.norm_eq_abs, Real.norm_of_nonneg (by positivity)]
      have h3 : u ≤ v * (1 / Real.sqrt 2) := by
        rw [mul_one_div, le_div_iff₀ hs]
        linarith
      linarith
    exact matrix_same A _ _ _ _ _ (.cons hh (.cons hh (.cons hh (.cons (neg_stored A _ _ _ _ hz hh) .nil))))
  | T =>
    obtain ⟨c, c1, c2⟩ := hL.piQuarter
    have ht : StoredAs A.fin A.val v f.absErr (A.fromPolar L (A.round 1) L.piQuarter) (Complex.exp ((Real.pi / 4 : ℝ) * Complex.I)) := by
      rw [c1]
      exact polar_stored A L u hL c _ u hu (by linarith) v (by rw [← two_mul]; exact h1)
    exact matrix_same A _ _ _ _ _ (.cons l (.cons o (.cons o (.cons ht .nil))))
  | CNOT =>
    match idx with
    | [] => rfl
    | c :: rest =>
      exact control_same A v f.absErr c rest [0, 1, 1, 0] [0, 1, 1, 0] (.cons o (.cons l (.cons l (.cons o .nil))))
  | SWAP =>
    show SameOp A v f.absErr (if idx.length % 2 ≠ 0 then .error .panic else makeSwapOp (idx.take (idx.length / 2)) (idx.drop (idx.length / 2)))
      (if idx.length % 2 ≠ 0 then .error .panic else makeSwapOp (idx.take (idx.length / 2)) (idx.drop (idx.length / 2)))
    unfold makeSwapOp
    split
    · rfl
    · split
      · rfl
      · split
        · rfl
        · exact .swap _ _
  | MAT data =>
    refine matrix_same A _ _ _ _ _ ?_
    have hd : ∀ a ∈ data, a.1.isSome = true ∧ a.2.isSome = true := hg
    clear hg
    induction data with
    | nil => exact .nil
    | cons a data ih =>
      refine .cons ?_ (ih fun a ha => hd a (by simp [ha]))
      obtain ⟨a1, a2⟩ := hd a (by simp)
      obtain ⟨x, y, rfl⟩ := fin_cases A a ⟨a1, a2⟩
      refine ⟨⟨rfl, rfl⟩, ?_, ?_⟩
      · show ‖A.val (some x, some y) - (⟨x.1, y.1⟩ : ℂ)‖ ≤ _
        rw [val_of, sub_self, norm_zero]
        exact add_nonneg (mul_nonneg hv (norm_nonneg _)) hη
      · intro h0
        have h0 : (⟨x.1, y.1⟩ : ℂ) = 0 := h0
        have hx : x.1 = 0 := congrArg Complex.re h0
        have hy : y.1 = 0 := congrArg Complex.im h0
        show ((some x, some y) : A.Num) = ((A.round 0, A.round 0) : A.Num)
        rw [Format.Arith.round_zero]
        have ex : x = ⟨0, fits_zero f, by rw [abs_zero]; linarith [top_ge A]⟩ := Subtype.ext hx
        have ey : y = ⟨0, fits_zero f, by rw [abs_zero]; linarith [top_ge A]⟩ := Subtype.ext hy
        rw [ex, ey]
  | GlobalPhase r => rfl
  | Rz r =>
    obtain ⟨x, x1, δ, d0, x2, x3⟩ : ∃ x : f.Fin, angleP L r = some x ∧ ∃ δ, 0 ≤ δ ∧ |x.1 - rotAngle r.exact| ≤ 2 * δ + (2 : ℝ) ^ f.emin ∧ Real.sqrt 2 * (u + δ) ≤ v := by
      cases r with
      | floating θ =>
        obtain ⟨x, rfl⟩ := Option.isSome_iff_exists.mp (show θ.isSome = true from hg)
        refine ⟨x, rfl, 0, le_rfl, ?_, by simpa using hu2⟩
        show |x.1 - x.1| ≤ _
        rw [sub_self, abs_zero]
        linarith
      | piRational q =>
        have hq : |(q : ℝ)| ≤ Θ := hg
        obtain ⟨x, y1, y2⟩ := hL.ofRatio q (hq.trans hΘ)
        refine ⟨x, y1, u * |(q : ℝ)|, by positivity, by linarith [show |x.1 - rotAngle (RotP.exact (.piRational q : RotP f))| = |x.1 - q| from rfl], ?_⟩
        refine le_trans ?_ h2
        have := mul_le_mul_of_nonneg_left hq hu
        nlinarith
    exact rz_same A h4 L u hL v hv idx r r.exact x x1 δ d0 x2 x3

end Verif
