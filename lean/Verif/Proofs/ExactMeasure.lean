import Verif.Model.FloatMeasure
import Verif.Model.Calc

/-! # The measurement for any arithmetic, in exact arithmetic -/

namespace Verif
open Classical

/-- exact arithmetic -/
noncomputable def exactPrec : Prec ℝ where
  zero := 0
  one := 1
  add := (· + ·)
  sub := (· - ·)
  mul := (· * ·)
  div := (· / ·)
  sqrt := Real.sqrt
  le a b := decide (a ≤ b)
  beq a b := decide (a = b)

/-- real and imaginary part -/
def reIm (z : ℂ) : ℝ × ℝ := (z.re, z.im)

theorem normSqr_exact (z : ℂ) : normSqrP exactPrec (reIm z) = Complex.normSq z := (Complex.normSq_apply z).symm

theorem isZero_exact (z : ℂ) : isZeroP exactPrec (reIm z) = decide (z = 0) := by
  unfold isZeroP exactPrec reIm
  simp [Complex.ext_iff]

theorem sums_exact (l : List ℝ) (p : ℝ) : SumsP exactPrec l p ↔ p = l.sum := by
  constructor
  · intro h
    induction h with
    | nil => rfl
    | snoc l s x _ ih =>
      rw [List.sum_append, ← ih]
      simp [exactPrec]
    | join a b s t _ _ iha ihb =>
      rw [List.sum_append, ← iha, ← ihb]
      simp [exactPrec]
  · rintro rfl
    induction l using List.reverseRecOn with
    | nil => exact .nil
    | append_singleton l x ih =>
      rw [List.sum_append, List.sum_singleton]
      exact .snoc l _ x ih

theorem softLoop_exact (l : List ℂ) (i : ℕ) (r : ℝ) : softLoopP exactPrec (l.map reIm) i r = softLoop l i r := by
  induction l generalizing i r with
  | nil => rfl
  | cons c cs ih =>
    rw [List.map_cons, softLoopP, softLoop, normSqr_exact, ih]
    simp [exactPrec]

theorem softMeasure_exact (n : ℕ) (idx : List ℕ) (input : List ℂ) (h : input.length = 2 ^ n) (off : Option ℕ) (r : ℝ) :
    softMeasureP exactPrec n idx (input.map reIm) off r = softMeasure n idx input off r := by
  unfold softMeasureP softMeasure
  rw [if_neg (by rw [h, Nat.one_shiftLeft]; omega)]
  simp only [softLoop_exact]
  rfl

theorem measureTerms_exact (n m : ℕ) (idx : List ℕ) (input : List ℂ) (off : Option ℕ) :
    (measureTermsP exactPrec n m idx (input.map reIm) off).map List.sum = measureProb n m idx input off := by
  unfold measureTermsP measureProb measureProbFn
  simp only [Option.bind_eq_bind, Option.map_bind, Option.map_some, Function.comp_def]
  congr 1
  funext t
  congr 1
  congr 1
  funext b
  congr 1
  funext tmp
  split
  · rfl
  · have e : (if h : tmp + t - off.getD 0 ≥ (input.map reIm).length then (exactPrec.zero, exactPrec.zero) else (input.map reIm)[tmp + t - off.getD 0]'(by omega)) =
        reIm (if h : tmp + t - off.getD 0 ≥ input.length then 0 else input[tmp + t - off.getD 0]'(by omega)) := by
      by_cases h : tmp + t - off.getD 0 ≥ input.length
      · rw [dif_pos (by simpa using h), dif_pos h]; rfl
      · rw [dif_neg (by simpa using h), dif_neg h]; simp
    rw [e, isZero_exact, normSqr_exact]
    simp

theorem slice_map {K L : Type} (g : K → L) (l : List K) (a b : ℕ) : slice (l.map g) a b = (slice l a b).map (List.map g) := by
  unfold slice
  simp only [List.length_map]
  split <;> simp [List.map_drop, List.map_take]

theorem overlay_map {K L : Type} (g : K → L) (l d : List K) (a : ℕ) : overlay (l.map g) (d.map g) a = (overlay l d a).map g := by
  unfold overlay
  simp [List.map_take, List.map_drop]

theorem measureRow_exact (rm mm : ℕ) (p : ℝ) (row : ℕ) (z : ℂ) : measureRowP exactPrec rm mm p row (reIm z) = reIm (measureRow rm mm p row z) := by
  unfold measureRowP measureRow
  simp only
  split
  · rfl
  · simp [reIm, exactPrec]

theorem measureState_exact (n : ℕ) (idx : List ℕ) (m : ℕ) (p : ℝ) (input output : List ℂ) (offs : Option (ℕ × ℕ)) :
    measureStateP exactPrec n idx (m, p) (input.map reIm) (output.map reIm) offs = (measureState n idx (m, p) input output offs).map (List.map reIm) := by
  unfold measureStateP measureState
  by_cases hp : p = 0
  · simp [exactPrec, hp]
  · have h1 : (!exactPrec.beq p exactPrec.zero) = true := by simp [exactPrec, hp]
    simp only [h1, if_true, ne_eq, hp, not_false_eq_true, List.length_map, slice_map, Option.bind_eq_bind, Option.map_bind, Function.comp_def]
    congr 1
    funext rm
    congr 1
    funext mm
    split
    · rfl
    · simp only [Option.map_bind, Option.bind_map, Function.comp_def, Option.map_some, ← overlay_map, List.map_map, List.zipIdx_map, Prod.map_fst, Prod.map_snd, id, measureRow_exact]
      rfl

/-- in exact arithmetic the measurement is the one of `Verif.Model.Measure` -/
theorem measureP_exact (n : ℕ) (idx : List ℕ) (input output : List ℂ) (h : input.length = 2 ^ n) (r : ℝ) (m : ℕ) (p : ℝ) (out : List (ℝ × ℝ)) :
    MeasureP exactPrec n idx (input.map reIm) (output.map reIm) r m p out ↔
      ∃ o, measure n idx input output none none r = some ((m, p), o) ∧ out = o.map reIm := by
  unfold MeasureP
  rw [softMeasure_exact n idx input h, measureState_exact]
  have hp : (∃ terms, measureTermsP exactPrec n m idx (input.map reIm) none = some terms ∧ SumsP exactPrec terms p) ↔
      measureProb n m idx input none = some p := by
    rw [← measureTerms_exact, Option.map_eq_some_iff]
    simp only [sums_exact, eq_comm]
  rw [hp]
  unfold measure
  simp only [Option.map_none, Option.bind_none, Option.bind_eq_bind, Option.bind_eq_some_iff, Option.some.injEq, Prod.mk.injEq, Option.map_eq_some_iff]
  constructor
  · rintro ⟨h1, h2, o, h3, rfl⟩
    exact ⟨o, ⟨m, h1, p, h2, o, h3, ⟨rfl, rfl⟩, rfl⟩, rfl⟩
  · rintro ⟨o, ⟨m', h1, p', h2, o', h3, ⟨rfl, rfl⟩, rfl⟩, rfl⟩
    exact ⟨h1, h2, _, h3, rfl⟩

end Verif
