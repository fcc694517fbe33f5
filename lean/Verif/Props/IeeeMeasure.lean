import Verif.Proofs.IeeeMeasure
import Verif.Props.Ieee

/-!
# Property C88: measurements in floating point arithmetic
-/

namespace Verif.Props
open Verif MatrixOp Format.Arith

/-- `std::f64::consts::FRAC_1_SQRT_2`, from which the entries of H are made in any precision (builder.rs L437) -/
noncomputable def fracSqrt2 : ℝ := 6369051672525773 / 2 ^ 53

section
variable {f : Format} {fl : ℝ → ℝ}

/-- X on the first qubit, as the code stores it (builder.rs L428) -/
noncomputable def xOp (A : f.Arith fl) : MatrixOp A.Num := .matrix [0] [A.ofReal 0, A.ofReal 1, A.ofReal 1, A.ofReal 0]

/-- H on the first qubit, as the code stores it (builder.rs L435-439) -/
noncomputable def hOp (A : f.Arith fl) : MatrixOp A.Num :=
  .matrix [0] [A.ofReal fracSqrt2, A.ofReal fracSqrt2, A.ofReal fracSqrt2, A.ofReal (-fracSqrt2)]

end

/-- the ops hold the gates of the circuit, with every entry rounded -/
def StoredOps {f : Format} {fl : ℝ → ℝ} (A : f.Arith fl) (ops : List (MatrixOp A.Num)) (p : Pipeline) : Prop :=
  List.Forall₂ (fun op (e : List ℕ × CObj) => ∃ g U, e.2.object = .unitary g ∧ unitaryOp e.1 g = .ok U ∧
    StoresIn A.fin A.val f.relErr f.absErr op U) ops p

open Classical in
/-- C88 as stated: whatever gates have been applied to the initial state, a measurement never gives an outcome whose computed probability is
zero, for draws between 0 and 1. -/
def C88_claim (f : Format) : Prop := ∀ (fl : ℝ → ℝ) (A : f.Arith fl) (n : ℕ) (p : Pipeline) (ops : List (MatrixOp A.Num)),
  (∀ e ∈ p, SegOK n e) → UnitaryMats p → StoredOps A ops p →
  ∀ idx : List ℕ, idx.Nodup → (∀ i ∈ idx, i < n) → ∀ r : f.Fin, 0 < r.1 → r.1 < 1 → ∀ s m pr out,
    runOps n ops ((List.replicate (2 ^ n) 0).set 0 1, List.replicate (2 ^ n) 0) = some s →
    MeasureP A.prec n idx s.1 s.2 (some r) m pr out → A.prec.beq pr A.prec.zero = false

/-! ### `f32` -/

/-- the number stored for `1/√2` in `f32` -/
noncomputable def h32 : ℝ := 11863283 * (2 : ℝ) ^ (-24 : ℤ)

/-- twice the rounded square of it, `1 - 2^-24` -/
noncomputable def a32 : ℝ := 16777215 * (2 : ℝ) ^ (-24 : ℤ)

theorem fits32 (m : ℤ) (e : ℤ) (hm : |m| < 2 ^ 24) (he : -149 ≤ e) : binary32.Fits (m * (2 : ℝ) ^ e) := ⟨m, e, hm, he, rfl⟩

theorem fits_h32 : binary32.Fits h32 := by
  have := fits32 11863283 (-24) (by norm_num) (by norm_num)
  exact_mod_cast this

theorem fits_a32 : binary32.Fits a32 := by
  have := fits32 16777215 (-24) (by norm_num) (by norm_num)
  exact_mod_cast this

variable {fl : ℝ → ℝ}

theorem fl_neg_h (A : binary32.Arith fl) : fl (-fracSqrt2) = -h32 := by
  have := A.near.eq_of_near_neg (x := fracSqrt2) (m := 11863283) (e := -24) (by decide) (by decide) (by decide) (by decide)
    (by unfold fracSqrt2; norm_num [binary32, zpow_neg]) (by unfold fracSqrt2; norm_num [zpow_neg, abs_lt])
  rw [this]; unfold h32; norm_num

theorem fl_h (A : binary32.Arith fl) : fl fracSqrt2 = h32 := by
  have := A.near.eq_of_near (x := fracSqrt2) (m := 11863283) (e := -24) (by decide) (by decide) (by decide) (by decide)
    (by unfold fracSqrt2; norm_num [binary32, zpow_neg]) (by unfold fracSqrt2; norm_num [zpow_neg, abs_lt])
  rw [this]; unfold h32; norm_num

theorem fl_hh (A : binary32.Arith fl) : fl (h32 * h32) = 16777215 * (2 : ℝ) ^ (-25 : ℤ) := by
  have := A.near.eq_of_near (x := h32 * h32) (m := 16777215) (e := -25) (by decide) (by decide) (by decide) (by decide)
    (by unfold h32; norm_num [binary32, zpow_neg]) (by unfold h32; norm_num [zpow_neg, abs_lt])
  rw [this]; norm_num

theorem fl_neg_hh (A : binary32.Arith fl) : fl (-(h32 * h32)) = -(16777215 * (2 : ℝ) ^ (-25 : ℤ)) := by
  have := A.near.eq_of_near_neg (x := h32 * h32) (m := 16777215) (e := -25) (by decide) (by decide) (by decide) (by decide)
    (by unfold h32; norm_num [binary32, zpow_neg]) (by unfold h32; norm_num [zpow_neg, abs_lt])
  rw [this]; norm_num

theorem fl_aa (A : binary32.Arith fl) : fl (a32 * a32) = 16777214 * (2 : ℝ) ^ (-24 : ℤ) := by
  have := A.near.eq_of_near (x := a32 * a32) (m := 16777214) (e := -24) (by decide) (by decide) (by decide) (by decide)
    (by unfold a32; norm_num [binary32, zpow_neg]) (by unfold a32; norm_num [zpow_neg, abs_lt])
  rw [this]; norm_num

theorem h32_le : |h32| ≤ 1 := by unfold h32; norm_num [zpow_neg, abs_le]

theorem a32_le : |a32| ≤ 1 := by unfold a32; norm_num [zpow_neg, abs_le]

theorem h32_ne : h32 ≠ 0 := by unfold h32; norm_num

theorem nzItems_nil {K : Type} [Zero K] [DecidableEq K] (p : ℕ) : nzItems ([] : List K) p = [] := rfl

/-- X, H, H on the initial state in `f32`, step by step -/
theorem steps32 (A : binary32.Arith fl) :
    applyOpOverwrite 1 (xOp A) [1, 0] [0, 0] 0 0 = some [A.ofReal 0, A.ofReal 1] ∧
    applyOpOverwrite 1 (hOp A) [A.ofReal 0, A.ofReal 1] [1, 0] 0 0 = some [A.ofReal h32, A.ofReal (-h32)] ∧
    applyOpOverwrite 1 (hOp A) [A.ofReal h32, A.ofReal (-h32)] [A.ofReal 0, A.ofReal 1] 0 0 = some [A.ofReal 0, A.ofReal a32] := by
  have z := fits_zero binary32
  have z1 : |(0 : ℝ)| ≤ 1 := by simp
  have o := A.fits_one
  have o1 : |(1 : ℝ)| ≤ 1 := by simp
  have hh := fits_h32
  have hh1 := h32_le
  have hn := hh.neg
  have hn1 : |-h32| ≤ 1 := by rwa [abs_neg]
  have q := fits32 16777215 (-25) (by norm_num) (by norm_num)
  have q1 : |((16777215 : ℤ) : ℝ) * (2 : ℝ) ^ (-25 : ℤ)| ≤ 1 := by norm_num [zpow_neg, abs_le]
  have m1 := fl_hh A
  have m2 := fl_neg_hh A
  rw [show (16777215 : ℝ) * (2 : ℝ) ^ (-25 : ℤ) = ((16777215 : ℤ) : ℝ) * (2 : ℝ) ^ (-25 : ℤ) by norm_num] at m1 m2
  have hsum : ((16777215 : ℤ) : ℝ) * (2 : ℝ) ^ (-25 : ℤ) + ((16777215 : ℤ) : ℝ) * (2 : ℝ) ^ (-25 : ℤ) = a32 := by
    unfold a32
    norm_num [zpow_neg]
  generalize ((16777215 : ℤ) : ℝ) * (2 : ℝ) ^ (-25 : ℤ) = Q at q q1 m1 m2 hsum
  have qn := q.neg
  have qn1 : |-Q| ≤ 1 := by rwa [abs_neg]
  have e1 : A.ofReal fracSqrt2 = A.ofReal h32 := A.ofReal_eq (fl_h A)
  have e2 : A.ofReal (-fracSqrt2) = A.ofReal (-h32) := A.ofReal_eq (fl_neg_h A)
  have n1 : A.ofReal h32 ≠ 0 := A.ofReal_ne _ hh hh1 h32_ne
  have n2 : A.ofReal (-h32) ≠ 0 := A.ofReal_ne _ hn hn1 (neg_ne_zero.mpr h32_ne)
  have n3 : A.ofReal 1 ≠ 0 := A.ofReal_ne _ o o1 one_ne_zero
  have n0 : A.ofReal 0 = 0 := rfl
  have s1 : applyOpOverwrite 1 (xOp A) [1, 0] [0, 0] 0 0 = some [A.ofReal 0, A.ofReal 1] := by
    unfold xOp
    rw [apply_one]
    simp only [nzItems_cons, nzItems_nil, n0, n3, ne_eq, not_true, not_false_eq_true, if_true, if_false, List.map_cons, List.map_nil, total, List.foldl_cons,
      List.foldl_nil, List.getElem?_cons_zero, List.getElem?_cons_succ, Option.getD_some]
    simp only [zero_eq, one_eq, ofReal_mul A _ _ o z o1 z1, ofReal_mul A _ _ o o o1 o1, mul_zero, mul_one, ofReal_add A _ _ z z z1 z1, ofReal_add A _ _ z o z1 o1,
      add_zero, zero_add]
  have s2 : applyOpOverwrite 1 (hOp A) [A.ofReal 0, A.ofReal 1] [1, 0] 0 0 = some [A.ofReal h32, A.ofReal (-h32)] := by
    unfold hOp
    rw [apply_one, e1, e2]
    simp only [nzItems_cons, nzItems_nil, n1, n2, ne_eq, not_false_eq_true, if_true, List.map_cons, List.map_nil, total, List.foldl_cons,
      List.foldl_nil, List.getElem?_cons_zero, List.getElem?_cons_succ, Option.getD_some]
    simp only [zero_eq, ofReal_mul A _ _ hh z hh1 z1, ofReal_mul A _ _ hh o hh1 o1, ofReal_mul A _ _ hn o hn1 o1, mul_zero, mul_one,
      ofReal_add A _ _ z z z1 z1, ofReal_add A _ _ z hh z1 hh1, ofReal_add A _ _ z hn z1 hn1, add_zero, zero_add]
  have s3 : applyOpOverwrite 1 (hOp A) [A.ofReal h32, A.ofReal (-h32)] [A.ofReal 0, A.ofReal 1] 0 0 = some [A.ofReal 0, A.ofReal a32] := by
    unfold hOp
    rw [apply_one, e1, e2]
    simp only [nzItems_cons, nzItems_nil, n1, n2, ne_eq, not_false_eq_true, if_true, List.map_cons, List.map_nil, total, List.foldl_cons,
      List.foldl_nil, List.getElem?_cons_zero, List.getElem?_cons_succ, Option.getD_some]
    rw [ofReal_mul A _ _ hh hh hh1 hh1, ofReal_mul A _ _ hh hn hh1 hn1, ofReal_mul A _ _ hn hn hn1 hn1, neg_mul_neg, mul_neg, A.ofReal_eq m1, A.ofReal_eq m2,
      zero_eq, ofReal_add A _ _ z q z1 q1, zero_add, ofReal_add A _ _ q qn q1 qn1, ofReal_add A _ _ q q q1 q1, add_neg_cancel, hsum]
  exact ⟨s1, s2, s3⟩

/-- X, H, H on the initial state in `f32` -/
theorem run32 (A : binary32.Arith fl) :
    runOps 1 [xOp A, hOp A, hOp A] ((List.replicate (2 ^ 1) 0).set 0 1, List.replicate (2 ^ 1) 0) =
      some ([A.ofReal 0, A.ofReal a32], [A.ofReal h32, A.ofReal (-h32)]) := by
  obtain ⟨s1, s2, s3⟩ := steps32 A
  unfold runOps
  show ([xOp A, hOp A, hOp A].foldlM (fun s op => do
    let arena ← applyOpOverwrite 1 op s.1 s.2 0 0
    some (arena, s.1)) (([1, 0], [0, 0]) : List A.Num × List A.Num)) = _
  simp only [List.foldlM_cons, List.foldlM_nil, s1, s2, s3, Option.bind_eq_bind, Option.bind_some]
  rfl

/-- the draw `1 - 2^-24` -/
noncomputable def draw32 : binary32.Fin := ⟨a32, fits_a32, by
  have h : binary32.top = (2 ^ 24 - 1) * (2 : ℝ) ^ (104 : ℤ) := rfl
  have h1 : (2 : ℝ) ^ (0 : ℤ) ≤ 2 ^ (104 : ℤ) := zpow_le_zpow_right₀ (by norm_num) (by norm_num)
  have h2 : (1 : ℝ) * 2 ^ (0 : ℤ) ≤ (2 ^ 24 - 1) * (2 : ℝ) ^ (104 : ℤ) := mul_le_mul (by norm_num) h1 (by norm_num) (by norm_num)
  rw [h]
  refine a32_le.trans ?_
  rw [zpow_zero] at h2
  linarith⟩

theorem sums_nil {f : Format} {fl : ℝ → ℝ} (A : f.Arith fl) (l : List f.Part) (p : f.Part) (h : SumsP A.prec l p) (hl : l = []) : p = A.round 0 := by
  have z := fits_zero f
  have z1 : |(0 : ℝ)| ≤ 1 := by simp
  have zz : A.add (A.round 0) (A.round 0) = A.round 0 := by rw [add_part A 0 0 z z z1 z1, add_zero]
  induction h with
  | nil => rfl
  | snoc l s x _ _ => simp at hl
  | join a b s t _ _ iha ihb =>
    obtain ⟨rfl, rfl⟩ := List.append_eq_nil_iff.mp hl
    rw [iha rfl, ihb rfl]
    show A.add (A.add (A.round 0) (A.round 0)) (A.round 0) = A.round 0
    rw [zz, zz]

/-- a measurement of the only qubit that finds no outcome, in a state whose first entry is zero -/
theorem measure_fall {P : Type} (R : Prec P) (c0 c1 : P × P) (out0 : List (P × P)) (rnd r0 r1 : P) (h0 : isZeroP R c0 = true)
    (e0 : R.sub (R.mul rnd R.one) (normSqrP R c0) = r0) (l0 : R.le r0 R.zero = false)
    (e1 : R.sub r0 (normSqrP R c1) = r1) (l1 : R.le r1 R.zero = false)
    (hs : ∀ l p, SumsP R l p → l = [] → p = R.zero) (hz : R.beq R.zero R.zero = true) (m : ℕ) (p : P) (out : List (P × P)) :
    MeasureP R 1 [0] [c0, c1] out0 rnd m p out ↔ m = 0 ∧ p = R.zero ∧ out = out0 := by
  have loop : softLoopP R [c0, c1] 0 (R.mul rnd R.one) = none := by simp [softLoopP, e0, l0, e1, l1]
  have soft : softMeasureP R 1 [0] [c0, c1] none rnd = some 0 := by
    unfold softMeasureP
    simp only [loop]
    decide
  have terms : measureTermsP R 1 0 [0] [c0, c1] none = some [] := by
    have e1 : scatterBits 1 0 [0] = some 0 := by decide
    have e2 : scatterBits 1 0 [] = some 0 := by decide
    unfold measureTermsP
    simp [e1, e2, h0, List.range_succ]
  constructor
  · rintro ⟨h1, ⟨ts, h2, h3⟩, h4⟩
    obtain rfl : 0 = m := by rw [soft] at h1; injection h1
    obtain rfl : [] = ts := by rw [terms] at h2; injection h2
    have hp := hs [] p h3 rfl
    refine ⟨rfl, hp, ?_⟩
    unfold measureStateP at h4
    rw [hp] at h4
    simp only [hz, Bool.not_true, Bool.false_eq_true, if_false] at h4
    injection h4 with h5
    exact h5.symm
  · rintro ⟨rfl, rfl, rfl⟩
    refine ⟨soft, ⟨[], terms, .nil⟩, ?_⟩
    unfold measureStateP
    simp [hz]

/-- the measurement of the state computed for X, H, H, with the draw `1 - 2^-24` -/
theorem measure32 (A : binary32.Arith fl) (m : ℕ) (p : binary32.Part) (out : List A.Num) :
    MeasureP A.prec 1 [0] [A.ofReal 0, A.ofReal a32] [A.ofReal h32, A.ofReal (-h32)] (some draw32) m p out ↔
      m = 0 ∧ p = A.round 0 ∧ out = [A.ofReal h32, A.ofReal (-h32)] := by
  have z := fits_zero binary32
  have z1 : |(0 : ℝ)| ≤ 1 := by simp
  have o := A.fits_one
  have o1 : |(1 : ℝ)| ≤ 1 := by simp
  have a := fits_a32
  have a1 := a32_le
  have hle : ∀ x : ℝ, binary32.Fits x → |x| ≤ 1 → 0 < x → A.prec.le (A.round x) (A.round 0) = false := by
    intro x hx hx1 h0
    rw [round_fix A x hx (A.le_top hx1), round_zero]
    exact decide_eq_false (not_le.mpr h0)
  have hbeq : A.prec.beq (A.round 0) (A.round 0) = true := by
    rw [round_zero]
    exact decide_eq_true rfl
  have ns0 : normSqrP A.prec (A.ofReal 0) = A.round 0 := by
    show A.add (A.mul (A.round 0) (A.round 0)) (A.mul (A.round 0) (A.round 0)) = _
    rw [mul_part A 0 0 z z z1 z1, mul_zero, add_part A 0 0 z z z1 z1, add_zero]
  have q := fits32 16777214 (-24) (by norm_num) (by norm_num)
  rw [show ((16777214 : ℤ) : ℝ) * (2 : ℝ) ^ (-24 : ℤ) = 16777214 * (2 : ℝ) ^ (-24 : ℤ) by norm_num] at q
  have q1 : |(16777214 : ℝ) * (2 : ℝ) ^ (-24 : ℤ)| ≤ 1 := by norm_num [zpow_neg, abs_le]
  have ns1 : normSqrP A.prec (A.ofReal a32) = A.round (16777214 * (2 : ℝ) ^ (-24 : ℤ)) := by
    show A.add (A.mul (A.round a32) (A.round a32)) (A.mul (A.round 0) (A.round 0)) = _
    rw [mul_part A _ _ a a a1 a1, mul_part A 0 0 z z z1 z1, mul_zero, ← round_fl A (a32 * a32), fl_aa A, add_part A _ 0 q z q1 z1, add_zero]
  have d := fits32 1 (-24) (by norm_num) (by norm_num)
  have ed : a32 - 16777214 * (2 : ℝ) ^ (-24 : ℤ) = ((1 : ℤ) : ℝ) * (2 : ℝ) ^ (-24 : ℤ) := by unfold a32; norm_num [zpow_neg]
  have r0 : A.prec.mul (some draw32) A.prec.one = A.round a32 := by
    have : (some draw32 : binary32.Part) = A.round a32 := (round_fix A a32 a (A.le_top a1)).symm
    show A.mul (some draw32) (A.round 1) = _
    rw [this, mul_part A _ _ a o a1 o1, mul_one]
  have t1 : A.prec.sub (A.round a32) (A.round 0) = A.round a32 := by
    show A.sub _ _ = _
    rw [sub_part A _ 0 a z a1 z1, sub_zero]
  have t2 : A.prec.sub (A.round a32) (A.round (16777214 * (2 : ℝ) ^ (-24 : ℤ))) = A.round (((1 : ℤ) : ℝ) * (2 : ℝ) ^ (-24 : ℤ)) := by
    show A.sub _ _ = _
    rw [sub_part A _ _ a q a1 q1, ed]
  have hz : isZeroP A.prec (A.ofReal 0) = true := by
    show (A.prec.beq (A.round 0) (A.round 0) && A.prec.beq (A.round 0) (A.round 0)) = true
    rw [hbeq]; rfl
  exact measure_fall A.prec (A.ofReal 0) (A.ofReal a32) _ (some draw32) (A.round a32) (A.round (((1 : ℤ) : ℝ) * (2 : ℝ) ^ (-24 : ℤ))) hz
    (by rw [r0, ns0, t1]) (hle a32 a a1 (by unfold a32; positivity)) (by rw [ns1, t2])
    (hle _ d (by norm_num [zpow_neg, abs_le]) (by positivity)) (sums_nil A) hbeq m p out

/-- C88 in `f32`: X, H, H and a measurement of the qubit. The exact state before the measurement is the basis state 1. If the draw is
`1 - 2^-24`, every run of the code gives the outcome 0, with probability zero, and goes on from the state in the other buffer: the one
between the two Hadamard gates. -/
theorem C88_f32 (A : binary32.Arith fl) (rnds : ℕ → binary32.Part) (hr : rnds 0 = some draw32) (t : StateP A.Num binary32.Part) :
    RunsP A.prec (fun c : A.Num => c) (fun c => c) 1 rnds [.op (xOp A), .op (hOp A), .op (hOp A), .measurement [0]]
      ⟨[1, 0], [0, 0], []⟩ t ↔ t = ⟨[A.ofReal h32, A.ofReal (-h32)], [A.ofReal 0, A.ofReal a32], [(0, A.prec.zero)]⟩ := by
  obtain ⟨s1, s2, s3⟩ := steps32 A
  constructor
  · intro h
    cases h with | op _ _ _ _ a1 e1 h =>
    simp only at e1 h
    rw [s1] at e1
    obtain rfl := Option.some.inj e1
    cases h with | op _ _ _ _ a2 e2 h =>
    simp only at e2 h
    rw [s2] at e2
    obtain rfl := Option.some.inj e2
    cases h with | op _ _ _ _ a3 e3 h =>
    simp only at e3 h
    rw [s3] at e3
    obtain rfl := Option.some.inj e3
    cases h with | measurement _ _ _ _ m p out hm h =>
    simp only [List.length_nil, hr] at hm h
    obtain ⟨rfl, rfl, rfl⟩ := (measure32 A m p out).mp hm
    cases h
    rfl
  · rintro rfl
    refine .op _ _ _ _ _ s1 (.op _ _ _ _ _ s2 (.op _ _ _ _ _ s3 ?_))
    refine .measurement [0] [] _ _ 0 (A.round 0) [A.ofReal h32, A.ofReal (-h32)] ?_ (.nil _)
    simp only [List.length_nil, hr]
    exact (measure32 A 0 _ _).mpr ⟨rfl, rfl, rfl⟩

theorem near_h32 : |h32 - 1 / Real.sqrt 2| ≤ (2 : ℝ)⁻¹ ^ 24 := by
  have h2 : Real.sqrt 2 ^ 2 = 2 := Real.sq_sqrt (by norm_num)
  have h0 : 0 < Real.sqrt 2 := Real.sqrt_pos.mpr (by norm_num)
  have hs : (1 / Real.sqrt 2) ^ 2 = 1 / 2 := by rw [div_pow, h2]; norm_num
  have hp : 0 < 1 / Real.sqrt 2 := by positivity
  generalize 1 / Real.sqrt 2 = s at hs hp
  have e : h32 = 11863283 / 16777216 := by unfold h32; norm_num [zpow_neg]
  rw [e, _root_.abs_le]
  constructor <;> norm_num <;> nlinarith

theorem storedOps32 (A : binary32.Arith fl) :
    StoredOps A [xOp A, hOp A, hOp A] [([0], ⟨1, .unitary .X⟩), ([0], ⟨1, .unitary .H⟩), ([0], ⟨1, .unitary .H⟩)] := by
  have x0 := store_storedAs A 0 (by simp)
  have x1 := store_storedAs A 1 (by simp)
  have hS : 0 < Real.sqrt 2 := Real.sqrt_pos.mpr (by norm_num)
  have hn : ‖((1 / Real.sqrt 2 : ℝ) : ℂ)‖ = 1 / Real.sqrt 2 := by rw [Complex.norm_real, Real.norm_of_nonneg (by positivity)]
  have hb : (2 : ℝ)⁻¹ ^ 24 ≤ binary32.relErr * (1 / Real.sqrt 2) + binary32.absErr := by
    have e : binary32.relErr * (1 / Real.sqrt 2) = 2 * (2 : ℝ)⁻¹ ^ 24 + ((2 : ℝ)⁻¹ ^ 24) ^ 2 := by
      show Real.sqrt 2 * (2 * (2 : ℝ)⁻¹ ^ 24 + ((2 : ℝ)⁻¹ ^ 24) ^ 2) * (1 / Real.sqrt 2) = _
      field_simp
    rw [e]
    have : 0 ≤ binary32.absErr := by unfold Format.absErr; positivity
    have h1 : (0 : ℝ) ≤ (2 : ℝ)⁻¹ ^ 24 := by positivity
    have h2 : (0 : ℝ) ≤ ((2 : ℝ)⁻¹ ^ 24) ^ 2 := by positivity
    linarith
  have key : ∀ σ : ℝ, σ = 1 ∨ σ = -1 → StoredAs A.fin A.val binary32.relErr binary32.absErr (A.ofReal (σ * fracSqrt2))
      (σ * ((1 / Real.sqrt 2 : ℝ) : ℂ)) := by
    intro σ hσ
    have e : A.ofReal (σ * fracSqrt2) = A.ofReal (σ * h32) := by
      rcases hσ with rfl | rfl
      · rw [one_mul, one_mul]; exact A.ofReal_eq (fl_h A)
      · rw [neg_one_mul, neg_one_mul]; exact A.ofReal_eq (fl_neg_h A)
    have hf : binary32.Fits (σ * h32) := by
      rcases hσ with rfl | rfl
      · rw [one_mul]; exact fits_h32
      · rw [neg_one_mul]; exact fits_h32.neg
    have hab : |σ| = 1 := by rcases hσ with rfl | rfl <;> simp
    have h1 : |σ * h32| ≤ 1 := by rw [abs_mul, hab, one_mul]; exact h32_le
    have e2 : A.ofReal (σ * h32) = (some ⟨σ * h32, hf, A.le_top h1⟩, some ⟨0, fits_zero _, A.le_top (by simp)⟩) := by
      unfold ofReal
      rw [round_fix A _ hf (A.le_top h1), round_zero]
    rw [e, e2]
    refine ⟨⟨rfl, rfl⟩, ?_, ?_⟩
    · show ‖(⟨σ * h32, 0⟩ : ℂ) - σ * ((1 / Real.sqrt 2 : ℝ) : ℂ)‖ ≤ _
      have e3 : (⟨σ * h32, 0⟩ : ℂ) - σ * ((1 / Real.sqrt 2 : ℝ) : ℂ) = ((σ * (h32 - 1 / Real.sqrt 2) : ℝ) : ℂ) := by
        apply Complex.ext <;> simp
        ring
      rw [e3, norm_mul, hn, Complex.norm_real, Real.norm_eq_abs, abs_mul, hab, one_mul]
      have : ‖(σ : ℂ)‖ = 1 := by rw [Complex.norm_real, Real.norm_eq_abs, hab]
      rw [this, one_mul]
      exact near_h32.trans hb
    · intro h0
      have : σ ≠ 0 := by rintro rfl; simp at hab
      rw [mul_eq_zero] at h0
      rcases h0 with h0 | h0
      · exact absurd (by exact_mod_cast h0) this
      · exact absurd (by exact_mod_cast h0) (by positivity : (1 / Real.sqrt 2) ≠ 0)
  have kp := key 1 (.inl rfl)
  have kn := key (-1) (.inr rfl)
  simp only [one_mul, neg_one_mul, Complex.ofReal_neg, Complex.ofReal_one] at kp kn
  have hX : StoresIn A.fin A.val binary32.relErr binary32.absErr (xOp A) (.matrix [0] [0, 1, 1, 0]) :=
    .matrix _ _ _ (.cons x0 (.cons x1 (.cons x1 (.cons x0 .nil))))
  have hH : StoresIn A.fin A.val binary32.relErr binary32.absErr (hOp A) (.matrix [0] [((1 / Real.sqrt 2 : ℝ) : ℂ), ((1 / Real.sqrt 2 : ℝ) : ℂ),
      ((1 / Real.sqrt 2 : ℝ) : ℂ), -((1 / Real.sqrt 2 : ℝ) : ℂ)]) :=
    .matrix _ _ _ (.cons kp (.cons kp (.cons kp (.cons kn .nil))))
  exact .cons ⟨_, _, rfl, rfl, hX⟩ (.cons ⟨_, _, rfl, rfl, hH⟩ (.cons ⟨_, _, rfl, rfl, hH⟩ .nil))

/-- C88 as stated is false in `f32`. -/
theorem C88_refuted : ¬ C88_claim binary32 := by
  intro h
  obtain ⟨fl, ⟨A⟩⟩ := exists_binary32
  have := h fl A 1 [([0], ⟨1, .unitary .X⟩), ([0], ⟨1, .unitary .H⟩), ([0], ⟨1, .unitary .H⟩)] [xOp A, hOp A, hOp A] (by
      intro e he
      simp at he
      rcases he with rfl | rfl
      · exact ⟨⟨by simp, by simp, fun u hu => by cases hu; rfl⟩, rfl, _, rfl, by simp⟩
      · exact ⟨⟨by simp, by simp, fun u hu => by cases hu; rfl⟩, rfl, _, rfl, by simp⟩) (by
      intro e he data hd
      simp at he
      rcases he with rfl | rfl <;> simp at hd) (storedOps32 A) [0] (by simp) (by simp) draw32 (by
      show 0 < a32
      unfold a32; positivity) (by
      show a32 < 1
      unfold a32; norm_num [zpow_neg]) _ 0 (A.round 0) _ (run32 A) ((measure32 A 0 _ _).mpr ⟨rfl, rfl, rfl⟩)
  rw [show A.prec.zero = A.round 0 from rfl, round_zero] at this
  exact absurd (decide_eq_true rfl) (Bool.eq_false_iff.mp this)

end Verif.Props
