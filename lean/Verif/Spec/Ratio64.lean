import Verif.Model.Ratio64

/-!
# What is said about ratios on words
-/

namespace Verif

/-- a word -/
def Word (x : ℤ) : Prop := -2 ^ 63 ≤ x ∧ x < 2 ^ 63

/-- the words of `r` are numerator and denominator of `x` in lowest terms, with positive denominator -/
def IsRatio (r : Ratio64) (x : ℚ) : Prop := r.num = x.num ∧ r.den = x.den ∧ Word r.num ∧ Word r.den

/-- the pairs for which `Ratio::new` overflows: a denominator `-2^63` with an odd numerator, or a numerator `-2^63` with an odd negative denominator -/
def NewOverflows (n d : ℤ) : Prop := d = -2 ^ 63 ∧ n % 2 = 1 ∨ n = -2 ^ 63 ∧ d < 0 ∧ d % 2 = 1

end Verif
