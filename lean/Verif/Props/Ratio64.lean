import Verif.Proofs.Ratio64
import Verif.Proofs.CondGP

/-!
# C120: rational angles on machine words
-/

namespace Verif.Props
open Verif RegOps CircuitBuilder TempBuilder

/-! ## The operations on ratios -/

/-- `Ratio::new` of words, in both kinds of build: panics for the denominator 0, gives the ratio in lowest terms with positive denominator unless it overflows, and
if it does, panics in a checked build and gives the negated ratio in an unchecked one. -/
theorem C120_new (n d : ℤ) (hn : Word n) (hd : Word d) :
    (∀ checked, d = 0 → Ratio64.new checked n d = none) ∧
    (∀ checked, d ≠ 0 → ¬NewOverflows n d → ∃ r, Ratio64.new checked n d = some r ∧ IsRatio r ((n : ℚ) / d)) ∧
    (NewOverflows n d → Ratio64.new true n d = none ∧ ∃ r, Ratio64.new false n d = some r ∧ r.val = -((n : ℚ) / d)) :=
  ⟨fun checked h => h ▸ new_zero checked n, fun checked h0 h => new_ok checked hn hd h0 h, new_overflows hn hd⟩

/-- -6/4 becomes -3/2, and 3 / -2^63 overflows -/
example : Ratio64.new true 6 (-4) = some ⟨-3, 2⟩ ∧ ¬NewOverflows 6 (-4) ∧ NewOverflows 3 (-2 ^ 63) ∧ Ratio64.new false 3 (-2 ^ 63) = some ⟨-3, -2 ^ 63⟩ := by
  refine ⟨by decide, ?_, Or.inl ⟨rfl, by decide⟩, by decide⟩
  rintro (⟨h, -⟩ | ⟨h, -⟩) <;> norm_num at h

/-- `-r`: the negated ratio, unless the numerator is `-2^63`; then a checked build panics and an unchecked one leaves the ratio as it is. -/
theorem C120_neg (r : Ratio64) (x : ℚ) (h : IsRatio r x) :
    (∀ checked, x.num ≠ -2 ^ 63 → ∃ r', r.neg checked = some r' ∧ IsRatio r' (-x)) ∧
    (x.num = -2 ^ 63 → r.neg true = none ∧ r.neg false = some r) :=
  ⟨fun checked => neg_ok checked h, neg_min h⟩

/-- `r / 2`: half of the ratio, unless the numerator is odd and the denominator at least `2^62`. Then a checked build panics; an unchecked one gives the right number (with a
negative denominator) if the denominator is `2^62`, and a number of the other sign if it is greater. -/
theorem C120_half (r : Ratio64) (x : ℚ) (h : IsRatio r x) :
    (∀ checked, x.num % 2 = 0 ∨ x.den < 2 ^ 62 → ∃ r', r.half checked = some r' ∧ IsRatio r' (x / 2)) ∧
    (x.num % 2 = 1 → 2 ^ 62 ≤ x.den → r.half true = none ∧ ∃ r', r.half false = some r' ∧
      r'.val = if x.den = 2 ^ 62 then x / 2 else (x.num : ℚ) / (2 * x.den - 2 ^ 64)) :=
  ⟨fun checked => half_ok checked h, half_overflows h⟩

/-- the ratio of which `r / 2` is negative: `(2^62 + 3) / (2^62 + 1)` -/
def wide : Ratio64 := ⟨2 ^ 62 + 3, 2 ^ 62 + 1⟩

theorem wide_is : IsRatio wide ((2 ^ 62 + 3 : ℤ) / (2 ^ 62 + 1 : ℤ)) :=
  isRatio_of_coprime (by norm_num) (by decide +kernel) (by norm_num [Word]) (by norm_num [Word])

theorem wide_num : ((2 ^ 62 + 3 : ℤ) / (2 ^ 62 + 1 : ℤ) : ℚ).num = 2 ^ 62 + 3 := wide_is.1.symm

theorem wide_den : ((2 ^ 62 + 3 : ℤ) / (2 ^ 62 + 1 : ℤ) : ℚ).den = 2 ^ 62 + 1 :=
  Nat.cast_injective (R := ℤ) wide_is.2.1.symm

theorem three_is : IsRatio ⟨3, 4⟩ ((3 : ℤ) / (4 : ℤ)) :=
  isRatio_of_coprime (by norm_num) (by decide) (by norm_num [Word]) (by norm_num [Word])

/-- the smallest number -/
def lowest : Ratio64 := ⟨-2 ^ 63, 1⟩

theorem lowest_is : IsRatio lowest (-2 ^ 63) := ⟨rfl, rfl, by norm_num [Word, lowest], by norm_num [Word, lowest]⟩

example : wide.half true = none ∧ ∃ r', wide.half false = some r' ∧ r'.val < 0 := by
  obtain ⟨h1, r', h2, h3⟩ := (C120_half _ _ wide_is).2 (by rw [wide_num]; norm_num) (by rw [wide_den]; norm_num)
  refine ⟨h1, r', h2, ?_⟩
  rw [h3, wide_den, wide_num]
  norm_num

/-- halves of 3/4 and 6/5 -/
example : Ratio64.half true ⟨3, 4⟩ = some ⟨3, 8⟩ ∧ Ratio64.half true ⟨6, 5⟩ = some ⟨3, 5⟩ ∧ Ratio64.neg true ⟨3, 4⟩ = some ⟨-3, 4⟩ := by decide

/-! ## The methods -/

/-- what is claimed of `ry_ratio`, with the ratio as a number in `Model/Gates` -/
def C120_ry (checked : Bool) : Prop :=
  ∀ (r : Reg) (q : Ratio64) (x : ℚ), IsRatio q x → ryRatio64 checked r q = Rotations.ryRatio r x

/-- what is claimed of the inverse of an `Rz` object with a ratio -/
def C120_inverse (checked : Bool) : Prop :=
  ∀ (n : ℕ) (q : Ratio64) (x : ℚ), IsRatio q x → invertRz64 checked n q = invertObject ⟨n, .unitary (.Rz (.piRational x))⟩

/-- what is claimed of the global phase under a condition -/
def C120_cond (checked : Bool) : Prop :=
  ∀ (cr r : Reg) (n : ℕ) (q : Ratio64) (x : ℚ), IsRatio q x →
    condGlobalPhase64 checked cr r q = LocalBuilder.tryCond cr r ⟨n, .unitary (.GlobalPhase (.piRational x))⟩

/-- what is claimed of `rx_pi_by`, `ry_pi_by` and `apply_global_phase_pi_by` for a number -/
def PiByOK (checked : Bool) (m : ℤ) : Prop :=
  ∀ r : Reg, rxPiBy64 checked r m = Rotations.rxPiBy r m ∧ ryPiBy64 checked r m = Rotations.ryPiBy r m ∧
    globalPhasePiBy64 checked r m = LocalBuilder.applyGlobalPhasePiBy r m

/-- C120 as stated. -/
def C120_claim (checked : Bool) : Prop :=
  C120_ry checked ∧ C120_inverse checked ∧ C120_cond checked ∧ ∀ m, Word m → PiByOK checked m

/-- `rx_ratio` has no arithmetic: always as with numbers. -/
theorem C120_rx (r : Reg) (q : Ratio64) (x : ℚ) (h : IsRatio q x) : rxRatio64 r q = Rotations.rxRatio r x := by
  unfold rxRatio64
  rw [h.val]
  rfl

theorem ryRatio64_some {checked : Bool} {q q' : Ratio64} (h : q.neg checked = some q') (r : Reg) :
    ryRatio64 checked r q = Rotations.ryRatio r (-q'.val) := by
  show _ = ryRatioDefault LocalBuilder.rzRatio r (-q'.val)
  unfold ryRatio64 ryRatioDefault
  simp only [h, unwrapO_some, pure_bind, neg_neg]

/-- `ry_ratio`: as with numbers if the numerator is not `-2^63`. -/
theorem C120_ry_partial (checked : Bool) (r : Reg) (q : Ratio64) (x : ℚ) (h : IsRatio q x) (hm : x.num ≠ -2 ^ 63) :
    ryRatio64 checked r q = Rotations.ryRatio r x := by
  obtain ⟨q', h1, h2⟩ := neg_ok checked h hm
  rw [ryRatio64_some h1, h2.val, neg_neg]

example : ryRatio64 true [0] ⟨3, 4⟩ = Rotations.ryRatio [0] (((3 : ℤ) : ℚ) / (4 : ℤ)) :=
  C120_ry_partial true [0] _ _ three_is (by rw [← three_is.1]; decide)

/-- `ry_ratio` with the numerator `-2^63`: a checked build panics, an unchecked one rotates the other way. -/
theorem C120_ry_min (r : Reg) (q : Ratio64) (x : ℚ) (h : IsRatio q x) (hm : x.num = -2 ^ 63) :
    (r ≠ [] → r.Nodup → ∀ s, ∃ s', ryRatio64 true r q s = .error .panic s') ∧ ryRatio64 false r q = Rotations.ryRatio r (-x) := by
  obtain ⟨h1, h2⟩ := neg_min h hm
  refine ⟨fun hr hn s => ?_, by rw [ryRatio64_some h2, h.val]⟩
  unfold ryRatio64
  rw [bind_ok (s_emits r hr hn s), bind_ok (h_emits r hr hn _), h1, unwrapO_none]
  exact ⟨_, rfl⟩

example : ryRatio64 false [0] lowest = Rotations.ryRatio [0] (- -2 ^ 63) := (C120_ry_min [0] lowest _ lowest_is rfl).2

/-- the inverse: as with numbers if the numerator is not `-2^63`. -/
theorem C120_inverse_partial (checked : Bool) (n : ℕ) (q : Ratio64) (x : ℚ) (h : IsRatio q x) (hm : x.num ≠ -2 ^ 63) :
    invertRz64 checked n q = invertObject ⟨n, .unitary (.Rz (.piRational x))⟩ := by
  obtain ⟨q', h1, h2⟩ := neg_ok checked h hm
  unfold invertRz64
  rw [h1]
  simp only
  rw [h2.val]
  rfl

/-- the inverse with the numerator `-2^63`: a checked build panics, in an unchecked one the inverse is the rotation itself. -/
theorem C120_inverse_min (n : ℕ) (q : Ratio64) (x : ℚ) (h : IsRatio q x) (hm : x.num = -2 ^ 63) :
    invertRz64 true n q = .error .panic ∧ invertRz64 false n q = .ok [⟨n, .unitary (.Rz (.piRational x))⟩] := by
  obtain ⟨h1, h2⟩ := neg_min h hm
  unfold invertRz64
  rw [h1, h2]
  exact ⟨rfl, by rw [← h.val]⟩

example : invertRz64 true 1 ⟨3, 4⟩ = invertObject ⟨1, .unitary (.Rz (.piRational (((3 : ℤ) : ℚ) / (4 : ℤ))))⟩ ∧ invertRz64 true 1 lowest = .error .panic :=
  ⟨C120_inverse_partial true 1 _ _ three_is (by rw [← three_is.1]; decide),
    (C120_inverse_min 1 lowest _ lowest_is rfl).1⟩

theorem condGlobalPhase64_some {checked : Bool} {q q' : Ratio64} (h : q.half checked = some q') (cr r : Reg) (n : ℕ) :
    condGlobalPhase64 checked cr r q = LocalBuilder.tryCond cr r ⟨n, .unitary (.GlobalPhase (.piRational (2 * q'.val)))⟩ := by
  have e : 2 * q'.val / 2 = q'.val := by ring
  unfold condGlobalPhase64 LocalBuilder.tryCond
  simp only [h, unwrapO_some, pure_bind, e, bind_assoc]

/-- the conditioned global phase: as with numbers if the numerator is even or the denominator less than `2^62`. -/
theorem C120_cond_partial (checked : Bool) (cr r : Reg) (n : ℕ) (q : Ratio64) (x : ℚ) (h : IsRatio q x) (hm : x.num % 2 = 0 ∨ x.den < 2 ^ 62) :
    condGlobalPhase64 checked cr r q = LocalBuilder.tryCond cr r ⟨n, .unitary (.GlobalPhase (.piRational x))⟩ := by
  obtain ⟨q', h1, h2⟩ := half_ok checked h hm
  have e : 2 * (x / 2) = x := by ring
  rw [condGlobalPhase64_some h1 cr r n, h2.val, e]

/-- the conditioned global phase with an odd numerator and a denominator of at least `2^62`: a checked build panics; an unchecked one does what it should for
`2^62`, and the phase of another angle, with the other sign, if the denominator is greater. -/
theorem C120_cond_overflow (cr r : Reg) (n : ℕ) (q : Ratio64) (x : ℚ) (h : IsRatio q x) (ho : x.num % 2 = 1) (hd : 2 ^ 62 ≤ x.den) :
    (∀ (L : List ℕ) (s : LocalBuilder), cr ≠ [] → Own s (cr ++ L) → ∃ s', condGlobalPhase64 true cr r q s = .error .panic s') ∧
    condGlobalPhase64 false cr r q = LocalBuilder.tryCond cr r ⟨n, .unitary (.GlobalPhase (.piRational
      (if x.den = 2 ^ 62 then x else (x.num : ℚ) / (x.den - 2 ^ 63))))⟩ := by
  obtain ⟨h1, q', h2, h3⟩ := half_overflows h ho hd
  constructor
  · intro L s hc ho
    obtain ⟨t, s1, e1, o1, -⟩ := makeTemp_local ho
    have perm : (t :: (cr ++ L)).Perm (cr ++ [t] ++ L) := by rw [List.append_assoc]; exact List.perm_middle.symm
    obtain ⟨s2, e2, -⟩ := toffoli_does (fun _ => 0) cr [t] L s1 hc (by simp) (o1.perm perm)
    have e1' : (makeTempQubit : M LocalBuilder Reg) s = .ok [t] s1 := e1
    unfold condGlobalPhase64
    rw [bind_ok e1', bind_ok e2]
    simp only
    rw [h1, unwrapO_none]
    exact ⟨_, rfl⟩
  · have e : 2 * q'.val = if x.den = 2 ^ 62 then x else (x.num : ℚ) / (x.den - 2 ^ 63) := by
      rw [h3]
      by_cases hc : x.den = 2 ^ 62
      · rw [if_pos hc, if_pos hc]; ring
      · rw [if_neg hc, if_neg hc]
        have : (2 * (x.den : ℚ) - 2 ^ 64) = 2 * (x.den - 2 ^ 63) := by ring
        rw [this, ← mul_div_assoc, mul_div_mul_left _ _ two_ne_zero]
    rw [condGlobalPhase64_some h2 cr r n, e]

/-- `1 / m` of a word -/
theorem new_one (checked : Bool) {m : ℤ} (hm : Word m) (h0 : m ≠ 0) (h1 : m ≠ -2 ^ 63) : ∃ q, Ratio64.new checked 1 m = some q ∧ IsRatio q (1 / (m : ℚ)) := by
  have := new_ok checked (n := 1) (d := m) (by norm_num [Word]) hm h0 (by rintro (⟨h, -⟩ | ⟨h, -⟩); exacts [h1 h, by norm_num at h])
  rwa [Int.cast_one] at this

/-- the methods with a number `m`: as in `Model/Gates` if `m` is not `-2^63`, also for `m = 0` (a panic). -/
theorem C120_pi_by_partial (checked : Bool) (m : ℤ) (hm : Word m) (h1 : m ≠ -2 ^ 63) : PiByOK checked m := by
  intro r
  show rxPiBy64 checked r m = piByDefault (rxRatioDefault LocalBuilder.rzRatio) r m ∧ ryPiBy64 checked r m = piByDefault (ryRatioDefault LocalBuilder.rzRatio) r m ∧ _
  unfold rxPiBy64 ryPiBy64 globalPhasePiBy64 LocalBuilder.applyGlobalPhasePiBy piByDefault ratio1
  by_cases h0 : m = 0
  · subst h0
    rw [new_zero, if_pos rfl]
    exact ⟨rfl, rfl, rfl⟩
  · obtain ⟨q, a1, a2⟩ := new_one checked hm h0 h1
    rw [a1, if_neg h0]
    simp only [unwrapO_some, pure_bind]
    refine ⟨C120_rx r q _ a2, C120_ry_partial checked r q _ a2 ?_, by rw [a2.val]⟩
    rw [one_div, Rat.inv_intCast_num]
    rcases lt_or_gt_of_ne h0 with h | h
    · rw [Int.sign_eq_neg_one_of_neg h]; norm_num
    · rw [Int.sign_eq_one_of_pos h]; norm_num

/-- the methods with `m = -2^63`: a checked build panics, an unchecked one rotates the other way. -/
theorem C120_pi_by_min (r : Reg) :
    rxPiBy64 true r (-2 ^ 63) = throw .panic ∧ ryPiBy64 true r (-2 ^ 63) = throw .panic ∧ globalPhasePiBy64 true r (-2 ^ 63) = throw .panic ∧
    rxPiBy64 false r (-2 ^ 63) = Rotations.rxRatio r (1 / 2 ^ 63) ∧ ryPiBy64 false r (-2 ^ 63) = Rotations.ryRatio r (1 / 2 ^ 63) ∧
    globalPhasePiBy64 false r (-2 ^ 63) = LocalBuilder.applyGlobalPhaseRatio r (1 / 2 ^ 63) := by
  have h1 : Ratio64.new true 1 (-2 ^ 63) = none := by decide
  have h2 : Ratio64.new false 1 (-2 ^ 63) = some ⟨-1, -2 ^ 63⟩ := by decide
  have h3 : (⟨-1, -2 ^ 63⟩ : Ratio64).val = 1 / 2 ^ 63 := by norm_num [Ratio64.val]
  have h4 : (⟨-1, -2 ^ 63⟩ : Ratio64).neg false = some ⟨1, -2 ^ 63⟩ := by decide
  have h5 : (⟨1, -2 ^ 63⟩ : Ratio64).val = -(1 / 2 ^ 63) := by norm_num [Ratio64.val]
  unfold rxPiBy64 ryPiBy64 globalPhasePiBy64
  rw [h1, h2]
  simp only [unwrapO_some, unwrapO_none, pure_bind]
  refine ⟨rfl, rfl, rfl, ?_, ?_, by rw [h3]⟩
  · unfold rxRatio64; rw [h3]; rfl
  · rw [ryRatio64_some h4, h5, neg_neg]

example : PiByOK true 3 := C120_pi_by_partial true 3 (by norm_num [Word]) (by norm_num)

/-! ## The claim fails in both kinds of build -/

/-- a circuit determines the angle of `ry_ratio` -/
theorem ryRatio_inj {x y : ℚ} (h : (Rotations.ryRatio [0] x : M LocalBuilder Reg) = Rotations.ryRatio [0] y) : x = y := by
  have e := fun z => ryRatio_emits [0] (by simp) (by simp) (fun r => LocalBuilder.rzRatio r (-z)) _ (rzRatio_emits [0] (-z)) ⟨[], 1, [], 0⟩
  have h1 := (e x).symm.trans ((congrFun h _).trans (e y))
  simp [each] at h1
  exact_mod_cast h1

/-- a circuit determines the angle of a conditioned global phase -/
theorem condGP_inj {x y : ℚ} (h : LocalBuilder.tryCond [0] [1] ⟨1, .unitary (.GlobalPhase (.piRational x))⟩ =
    LocalBuilder.tryCond [0] [1] ⟨1, .unitary (.GlobalPhase (.piRational y))⟩) : x = y := by
  have e : ∀ x : ℚ, ∃ s', LocalBuilder.tryCond [0] [1] ⟨1, .unitary (.GlobalPhase (.piRational x))⟩ ⟨[], 2, [], 0⟩ = .ok ([0], [1]) s' ∧
      s'.pipeline = [([0, 2], ⟨2, .unitary .CNOT⟩), ([2], ⟨1, .unitary (.Rz (.floating ((x / 2 : ℚ) : ℝ)))⟩),
        ([2], ⟨1, .unitary (.GlobalPhase (.piRational (x / 2)))⟩), ([0, 2], ⟨2, .unitary .CNOT⟩)] := fun x => ⟨_, rfl, rfl⟩
  obtain ⟨s1, a1, a2⟩ := e x
  obtain ⟨s2, b1, b2⟩ := e y
  obtain rfl : s1 = s2 := by
    have := a1.symm.trans ((congrFun h _).trans b1)
    injection this
  rw [a2] at b2
  simp at b2
  exact b2

/-- None of the four parts of the claim holds, in checked or in unchecked builds. -/
theorem C120_refuted (checked : Bool) :
    ¬C120_ry checked ∧ ¬C120_inverse checked ∧ ¬C120_cond checked ∧ ¬∀ m, Word m → PiByOK checked m := by
  have o : Own (⟨[], 2, [], 0⟩ : LocalBuilder) ([0] ++ [1]) := ⟨by simp, by decide, by decide⟩
  have wm : Word (-2 ^ 63) := by norm_num [Word]
  refine ⟨fun h => ?_, fun h => ?_, fun h => ?_, fun h => ?_⟩
  · have h1 := h [0] lowest _ lowest_is
    obtain ⟨a1, a2⟩ := C120_ry_min [0] lowest _ lowest_is rfl
    cases checked
    · have := ryRatio_inj (a2.symm.trans h1)
      norm_num at this
    · obtain ⟨s', a3⟩ := a1 (by simp) (by simp) ⟨[], 1, [], 0⟩
      have e := ryRatio_emits [0] (by simp) (by simp) (fun r => LocalBuilder.rzRatio r (- -2 ^ 63)) _ (rzRatio_emits [0] (- -2 ^ 63)) ⟨[], 1, [], 0⟩
      have := a3.symm.trans ((congrFun h1 _).trans e)
      cases this
  · have h1 := h 1 lowest _ lowest_is
    obtain ⟨a1, a2⟩ := C120_inverse_min 1 lowest _ lowest_is rfl
    cases checked
    · have := a2.symm.trans h1
      simp [invertObject, Rot.neg, Except.map] at this
      norm_num at this
    · have := a1.symm.trans h1
      simp [invertObject, Except.map] at this
  · have h1 := h [0] [1] 1 wide _ wide_is
    obtain ⟨a1, a2⟩ := C120_cond_overflow [0] [1] 1 wide _ wide_is (by rw [wide_num]; norm_num) (by rw [wide_den]; norm_num)
    cases checked
    · have := condGP_inj (a2.symm.trans h1)
      rw [wide_den, wide_num, if_neg (by norm_num)] at this
      norm_num at this
    · obtain ⟨s', a3⟩ := a1 [1] _ (by simp) o
      have := a3.symm.trans (congrFun h1 _)
      cases this
  · obtain ⟨h1, h2, h3⟩ := h _ wm [0]
    obtain ⟨a1, a2, a3, a4, a5, a6⟩ := C120_pi_by_min [0]
    have e : (Rotations.ryPiBy [0] (-2 ^ 63) : M LocalBuilder Reg) = Rotations.ryRatio [0] (1 / ((-2 ^ 63 : ℤ) : ℚ)) := by
      show piByDefault (ryRatioDefault LocalBuilder.rzRatio) [0] (-2 ^ 63) = _
      unfold piByDefault ratio1
      rw [if_neg (by norm_num), pure_bind]
      rfl
    cases checked
    · have := ryRatio_inj (a5.symm.trans (h2.trans e))
      norm_num at this
    · have e2 := ryRatio_emits [0] (by simp) (by simp) (fun r => LocalBuilder.rzRatio r (-(1 / ((-2 ^ 63 : ℤ) : ℚ)))) _ (rzRatio_emits [0] _) ⟨[], 1, [], 0⟩
      have := (congrFun (a2.symm.trans (h2.trans e)) _).trans e2
      cases this

end Verif.Props
