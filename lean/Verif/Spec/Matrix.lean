import Verif.Model.Iter
import Mathlib.Algebra.BigOperators.Intervals
import Mathlib.Algebra.Star.Basic

/-!
# Specification: the matrix an op stands for

Only `Nat.testBit`, list lookup and finite sums are used; nothing of the iterators.
Qubit `q` of an `n`-qubit state lives at bit `n-1-q` of the state index.
-/

namespace Verif
variable {K : Type}

/-- `m` controls in front of a `no`-qubit matrix: block-diagonal identity, with `M` in the last block -/
def ctrlMat [Zero K] [One K] (nc no : ℕ) (M : ℕ → ℕ → K) (r c : ℕ) : K :=
  if ∀ i, i < nc → r.testBit (no + i) = true then
    if ∀ i, i < nc → c.testBit (no + i) = true then M (r % 2 ^ no) (c % 2 ^ no) else 0
  else if r = c then 1 else 0

/-- the `2^k × 2^k` matrix of an op on its own `k` qubits -/
def opMat [Semiring K] : MatrixOp K → ℕ → ℕ → K
  | .matrix idx data, r, c => (data[r * 2 ^ idx.length + c]?).getD 0
  | .sparse _ rows, r, c => (((rows[r]?).getD []).filter (fun e => e.1 == c)).map Prod.snd |>.sum
  | .swap a _, r, c =>
    if ∀ i, i < a → r.testBit i = c.testBit (a + i) ∧ r.testBit (a + i) = c.testBit i then 1 else 0
  | .control nc idx op, r, c => ctrlMat nc (idx.length - nc) (opMat op) r c

/-- Well-formed ops: sizes match. -/
def MatrixOp.WF : MatrixOp K → Prop
  | .matrix idx data => data.length = 2 ^ idx.length * 2 ^ idx.length
  | .sparse idx rows => rows.length = 2 ^ idx.length ∧ ∀ row ∈ rows, ∀ e ∈ row, e.1 < 2 ^ idx.length
  | .swap a idx => idx.length = a * 2
  | .control nc idx op => nc ≤ idx.length ∧ op.WF ∧ op.indices.length = idx.length - nc

/-- the value spelled by the qubits `idx` (first = most significant) in state index `x` of `n` qubits -/
def readQubits (n : ℕ) (idx : List ℕ) (x : ℕ) : ℕ :=
  Nat.ofBits (fun i : Fin idx.length => x.testBit (n - 1 - idx[idx.length - 1 - i]))

/-- `x` and `y` agree on every qubit not in `idx` -/
def AgreeOff (n : ℕ) (idx : List ℕ) (x y : ℕ) : Prop :=
  ∀ q, q < n → q ∉ idx → x.testBit (n - 1 - q) = y.testBit (n - 1 - q)

open Classical in
/-- the `2^n × 2^n` matrix acting as `M` on qubits `idx` and as the identity on the others -/
noncomputable def embed [Zero K] (n : ℕ) (idx : List ℕ) (M : ℕ → ℕ → K) (r c : ℕ) : K :=
  if AgreeOff n idx r c then M (readQubits n idx r) (readQubits n idx c) else 0

/-- the amplitude at full index `c` of a state stored from index `offset` on; zero outside -/
def ampAt [Zero K] (v : List K) (offset c : ℕ) : K :=
  if c < offset then 0 else (v[c - offset]?).getD 0

/-- `M† M = 1` on `2^k × 2^k` matrices -/
def IsUnitary [Semiring K] [Star K] (k : ℕ) (M : ℕ → ℕ → K) : Prop :=
  ∀ r c, r < 2 ^ k → c < 2 ^ k →
    ∑ s ∈ Finset.range (2 ^ k), star (M s r) * M s c = if r = c then 1 else 0

/-- Kronecker product of the ops' matrices: the first op owns the most significant digits of row and column -/
def kron [Semiring K] : List (MatrixOp K) → ℕ → ℕ → K
  | [], _, _ => 1
  | op :: ops, r, c =>
    let w := (ops.map (fun o => o.indices.length)).sum
    opMat op (r / 2 ^ w) (c / 2 ^ w) * kron ops (r % 2 ^ w) (c % 2 ^ w)

/-- the same, but the first op owns the *least* significant digits of the row (and still the most significant
digits of the column) -/
def kronRowsReversed [Semiring K] : List (MatrixOp K) → ℕ → ℕ → K
  | [], _, _ => 1
  | op :: ops, r, c =>
    let w := (ops.map (fun o => o.indices.length)).sum
    opMat op (r % 2 ^ op.indices.length) (c / 2 ^ w) * kronRowsReversed ops (r / 2 ^ op.indices.length) (c % 2 ^ w)

end Verif
