import Mathlib.Data.Nat.Bitwise
import Batteries.Data.Nat.Lemmas

/-!
# Bit utilities

Models `qip-iterators/src/utils.rs` and the index arithmetic of `qip-iterators/src/matrix_ops.rs`
and `qip/src/utils.rs`.  Namespace `Word` works on 64-bit words (`usize` on the 64-bit target),
the rest of the file on `Nat`; the two are related by the C57 theorems.

A `none` result stands for a panic: shift amount too large or subtraction underflow in a checked build.
-/

namespace Verif

namespace Word

/-- `usize` on a 64-bit target. -/
abbrev Usize := BitVec 64

/-- `1 << i`, panics when `i >= 64` (checked build). -/
def shlOne (i : ℕ) : Option Usize := if i < 64 then some (1#64 <<< i) else none

/-- `get_flat_index`, qip-iterators/src/utils.rs L3-6; the product and the sum panic when they overflow (checked build). -/
def getFlatIndex (nindices : ℕ) (i j : Usize) : Option Usize := do
  let side ← shlOne nindices
  if i.toNat * side.toNat < 2 ^ 64 ∧ i.toNat * side.toNat + j.toNat < 2 ^ 64 then some (i * side + j) else none

/-- `flip_bits`, qip-iterators/src/utils.rs L20-23.  `64 - n` panics for `n > 64`, and
`>> leading_zeros` panics for `leading_zeros = 64`, i.e. `n = 0`. -/
def flipBits (n : ℕ) (num : Usize) : Option Usize :=
  if 64 < n then none
  else
    let leadingZeros := 64 - n
    if 64 ≤ leadingZeros then none else some (num.reverse >>> leadingZeros)

/-- `set_bit`, qip-iterators/src/utils.rs L35-42. -/
def setBit (num : Usize) (bitIndex : ℕ) (value : Bool) : Option Usize := do
  let v ← shlOne bitIndex
  if value then some (num ||| v) else some (num &&& ~~~v)

/-- `get_bit`, qip-iterators/src/utils.rs L53-55. -/
def getBit (num : Usize) (bitIndex : ℕ) : Option Bool :=
  if bitIndex < 64 then some (((num >>> bitIndex) &&& 1#64) != 0#64) else none

/-- checked `a - b` -/
def checkedSub (a b : ℕ) : Option ℕ := if b ≤ a then some (a - b) else none

/-- `full_to_sub`, qip-iterators/src/matrix_ops.rs L12-21. -/
def fullToSub (n : ℕ) (matIndices : List ℕ) (fullIndex : Usize) : Option Usize :=
  let nindices := matIndices.length
  matIndices.zipIdx.foldlM (fun acc (p : ℕ × ℕ) => do
    let m ← checkedSub n 1
    let m ← checkedSub m p.1
    let bit ← getBit fullIndex m
    setBit acc (nindices - 1 - p.2) bit) 0#64

/-- `sub_to_full`, qip-iterators/src/matrix_ops.rs L24-30. -/
def subToFull (n : ℕ) (matIndices : List ℕ) (subIndex base : Usize) : Option Usize :=
  let nindices := matIndices.length
  matIndices.zipIdx.foldlM (fun acc (p : ℕ × ℕ) => do
    let bit ← getBit subIndex (nindices - 1 - p.2)
    let m ← checkedSub n 1
    let m ← checkedSub m p.1
    setBit acc m bit) base

end Word

/-- `get_flat_index`, qip-iterators/src/utils.rs L3-6, on naturals. -/
def getFlatIndex (nindices i j : ℕ) : ℕ := i * (1 <<< nindices) + j

/-- `set_bit`, qip-iterators/src/utils.rs L35-42, on naturals (`num & !v` written without complement). -/
def setBit (num bitIndex : ℕ) (value : Bool) : ℕ :=
  let v := 1 <<< bitIndex
  if value then num ||| v else num ^^^ (num &&& v)

/-- `get_bit`, qip-iterators/src/utils.rs L53-55, on naturals. -/
def getBit (num bitIndex : ℕ) : Bool := ((num >>> bitIndex) &&& 1) != 0

/-- `flip_bits`, qip-iterators/src/utils.rs L20-23, on naturals: the word is reversed and shifted down.
Panics for `n = 0` (shift by 64) and `n > 64` (underflow). -/
def flipBits (n num : ℕ) : Option ℕ :=
  if 64 < n then none
  else if 64 ≤ 64 - n then none
  else some ((Nat.ofBits (fun i : Fin 64 => num.testBit (63 - i))) >>> (64 - n))

/-- The bit position `n - 1 - index` of qubit `index`; panics (underflow) unless `index < n`.
qip-iterators/src/matrix_ops.rs L18, L28. -/
def bitPos (n index : ℕ) : Option ℕ := if index < n then some (n - 1 - index) else none

/-- `full_to_sub`, qip-iterators/src/matrix_ops.rs L12-21, on naturals. -/
def fullToSub (n : ℕ) (matIndices : List ℕ) (fullIndex : ℕ) : Option ℕ :=
  let nindices := matIndices.length
  matIndices.zipIdx.foldlM (fun acc (p : ℕ × ℕ) => do
    let m ← bitPos n p.1
    let bit := getBit fullIndex m
    some (setBit acc (nindices - 1 - p.2) bit)) 0

/-- `sub_to_full`, qip-iterators/src/matrix_ops.rs L24-30, on naturals. -/
def subToFull (n : ℕ) (matIndices : List ℕ) (subIndex base : ℕ) : Option ℕ :=
  let nindices := matIndices.length
  matIndices.zipIdx.foldlM (fun acc (p : ℕ × ℕ) => do
    let bit := getBit subIndex (nindices - 1 - p.2)
    let m ← bitPos n p.1
    some (setBit acc m bit)) base

/-- `entwine_bits`, qip/src/utils.rs L21-43 (one loop iteration per recursion step `i`). -/
def entwineLoop : ℕ → ℕ → ℕ → ℕ → ℕ → ℕ → ℕ
  | _, 0, _, _, _, result => result
  | i, k + 1, selector, offBits, onBits, result =>
    if selector &&& 1 = 0 then
      let bit := offBits &&& 1
      entwineLoop (i + 1) k (selector >>> 1) (offBits >>> 1) onBits (result ||| (bit <<< i))
    else
      let bit := onBits &&& 1
      entwineLoop (i + 1) k (selector >>> 1) offBits (onBits >>> 1) (result ||| (bit <<< i))

/-- `entwine_bits`, qip/src/utils.rs L21-43. -/
def entwineBits (n selector offBits onBits : ℕ) : ℕ := entwineLoop 0 n selector offBits onBits 0

/-- `extract_bits`, qip/src/utils.rs L55-60. -/
def extractBits (num : ℕ) (indices : List ℕ) : ℕ :=
  indices.zipIdx.foldl (fun acc (p : ℕ × ℕ) => acc ||| (((num >>> p.1) &&& 1) <<< p.2)) 0

end Verif
