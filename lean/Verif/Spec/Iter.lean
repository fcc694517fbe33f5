import Mathlib.Algebra.BigOperators.Group.List.Basic
import Mathlib.Data.Nat.Bitwise

/-! Specification vocabulary for the row iterators (independent of the model). -/

namespace Verif

/-- all ways to choose one entry from each list, in lexicographic order -/
def combos {α : Type} : List (List α) → List (List α)
  | [] => [[]]
  | l :: ls => l.flatMap (fun a => (combos ls).map (a :: ·))

/-- the number whose base-`2^n₀, 2^n₁, …` digits are the given columns, first column most significant -/
def concatCol {K : Type} : List ℕ → List (ℕ × K) → ℕ
  | _ :: ns, e :: es => e.1 * 2 ^ ns.sum + concatCol ns es
  | _, _ => 0

/-- the number whose low `n` bits are those of `x` in reverse order -/
def rev (n x : ℕ) : ℕ := Nat.ofBits (fun i : Fin n => x.testBit (n - 1 - i))

end Verif
