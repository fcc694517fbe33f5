import Verif.Model.Iter

/-!
# The debug text of an op

Models `fmt::Debug for MatrixOp` (`qip-iterators/src/iterators/ops.rs` L159-180). Texts are lists of characters; `none` is a panic.
-/

namespace Verif

/-- `x.to_string()` of a number, ops.rs L174 -/
def numText (n : ℕ) : List Char := Nat.toDigits 10 n

/-- `int_strings.join(", ")`, ops.rs L172-177 -/
def joinText : List ℕ → List Char
  | [] => []
  | [n] => numText n
  | n :: ns => numText n ++ ',' :: ' ' :: joinText ns

/-- `write!(f, "{}[{}]", name, int_strings.join(", "))`, ops.rs L177 -/
def writeText (name : List Char) (indices : List ℕ) : List Char := name ++ '[' :: (joinText indices ++ [']'])

/-- `fmt`, ops.rs L160-178; `indices[..*num_c_indices]` panics if the slice is too short -/
def MatrixOp.debugText {K : Type} : MatrixOp K → Option (List Char)
  | .matrix indices _ => some (writeText "Matrix".toList indices)
  | .sparse indices _ => some (writeText "SparseMatrix".toList indices)
  | .swap _ indices => some (writeText "Swap".toList indices)
  | .control n indices op => do
    let inner ← op.debugText
    let name := 'C' :: '(' :: (inner ++ [')'])
    if n ≤ indices.length then some (writeText name (indices.take n)) else none

end Verif
