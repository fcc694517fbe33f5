import Verif.Model.Apply
import Verif.Model.Fail
import Mathlib.Algebra.Star.Basic

/-!
# Op constructors and transformations

Models `qip/src/state_ops/matrix_ops.rs` and `transpose_sparse` of `qip/src/utils.rs`.
`1 << n` is unbounded here (in Rust it panics for arities of 64 and more).
-/

namespace Verif
open MatrixOp

variable {K : Type}

/-- `Representation`, qip/src/types.rs L17-22 -/
inductive Representation where
  | littleEndian
  | bigEndian
deriving DecidableEq

/-- `make_matrix_op`, matrix_ops.rs L12-27 -/
def makeMatrixOp (indices : List ℕ) (dat : List K) : Except Fail (MatrixOp K) :=
  let n := indices.length
  let expected := 1 <<< (2 * n)
  if indices.isEmpty then .error .error
  else if dat.length ≠ expected then .error .error
  else .ok (.matrix indices dat)

/-- the column flip of matrix_ops.rs L66-70 and L141-144 -/
def flipCols (n : ℕ) (v : List (ℕ × K)) : Option (List (ℕ × K)) :=
  v.mapM fun e => (flipBits n e.1).map fun c => (c, e.2)

/-- the `LittleEndian` branch of `make_sparse_matrix_op`, matrix_ops.rs L63-75: flip the columns, then sort the
rows (stably) by their flipped number -/
def reorderRows (n : ℕ) (dat : List (List (ℕ × K))) : Option (List (List (ℕ × K))) := do
  let dat ← dat.mapM (flipCols n)
  -- the key of every row; a panic of `flip_bits` would surface in the sort
  let keyed ← dat.zipIdx.mapM fun p => (flipBits n p.2).map fun k => (k, p.1)
  some ((keyed.mergeSort fun a b => decide (a.1 ≤ b.1)).map Prod.snd)

/-- `make_sparse_matrix_op`, matrix_ops.rs L32-81 -/
def makeSparseMatrixOp (indices : List ℕ) (dat : List (List (ℕ × K))) (order : Representation) :
    Except Fail (MatrixOp K) :=
  let n := indices.length
  let expected := 1 <<< n
  if indices.isEmpty then .error .error
  else if dat.length ≠ expected then .error .error
  else if dat.any List.isEmpty then .error .error
  else
    match order with
    | .littleEndian => (orPanic (reorderRows n dat)).map (.sparse indices)
    | .bigEndian => .ok (.sparse indices dat)

/-- `make_swap_op`, matrix_ops.rs L84-100 -/
def makeSwapOp (a b : List ℕ) : Except Fail (MatrixOp K) :=
  if a.isEmpty || b.isEmpty then .error .error
  else if a.length ≠ b.length then .error .error
  else .ok (.swap a.length (a ++ b))

/-- `make_control_op`, matrix_ops.rs L103-122 -/
def makeControlOp (c : List ℕ) (op : MatrixOp K) : Except Fail (MatrixOp K) :=
  if c.isEmpty then .error .error
  else
    match op with
    | .control numOc oo op => .ok (.control (c.length + numOc) (c ++ oo) op)
    | op => .ok (.control c.length (c ++ op.indices) op)

/-- `make_sparse_matrix_from_function`, matrix_ops.rs L128-149 -/
def makeSparseMatrixFromFunction (n : ℕ) (f : ℕ → List (ℕ × K)) (order : Representation) :
    Option (List (List (ℕ × K))) :=
  (List.range (1 <<< n)).mapM fun indx =>
    match order with
    | .littleEndian => do
      let i ← flipBits n indx
      flipCols n (f i)
    | .bigEndian => some (f indx)

/-- `slice::swap` -/
def swapAt (l : List K) (i j : ℕ) : Option (List K) :=
  match l[i]?, l[j]? with
  | some a, some b => some ((l.set i b).set j a)
  | _, _ => none

/-- the dense case of `transpose_op`, matrix_ops.rs L184-192 -/
def transposeDense (n : ℕ) (mat : List K) : Option (List K) :=
  ((List.range (1 <<< n)).flatMap fun row => (List.range row).map fun col => (row, col)).foldlM
    (fun m p => swapAt m (getFlatIndex n p.1 p.2) (getFlatIndex n p.2 p.1)) mat

/-- `flat_mat` of `transpose_sparse`, qip/src/utils.rs L65-73 -/
def flattenSparse (mat : List (List (ℕ × K))) : List (ℕ × (ℕ × K)) :=
  mat.zipIdx.flatMap fun p => p.1.map fun e => (e.1, (p.2, e.2))

/-- one `col_mat[col].lock().unwrap().push((row, val))`, utils.rs L76-78 -/
def pushCol (cols : List (List (ℕ × K))) (e : ℕ × (ℕ × K)) : Option (List (List (ℕ × K))) :=
  match cols[e.1]? with
  | none => none
  | some v => some (cols.set e.1 (v ++ [e.2]))

/-- `transpose_sparse`, utils.rs L63-94. `pushes` is the order in which the (parallel) pushes happen, some
permutation of `flattenSparse mat`; each column is then sorted (stably) by row. -/
def transposeSparse (mat : List (List (ℕ × K))) (pushes : List (ℕ × (ℕ × K))) :
    Option (List (List (ℕ × K))) := do
  let cols ← pushes.foldlM pushCol (List.replicate mat.length [])
  some (cols.map fun v => v.mergeSort fun a b => decide (a.1 ≤ b.1))

/-- `transpose_op`, matrix_ops.rs L182-201; the sequential push order is used for the sparse case (any other order
is covered by `C16_transpose_sparse_any_order`) -/
def transposeOp : MatrixOp K → Option (MatrixOp K)
  | .matrix indices mat => (transposeDense indices.length mat).map (.matrix indices)
  | .sparse indices mat => (transposeSparse mat (flattenSparse mat)).map (.sparse indices)
  | .swap a b => some (.swap a b)
  | .control c oi op => (transposeOp op).map (.control c oi)

/-- `conj_op`, matrix_ops.rs L157-179 -/
def conjOp [Star K] : MatrixOp K → MatrixOp K
  | .matrix indices mat => .matrix indices (mat.map star)
  | .sparse indices mat => .sparse indices (mat.map fun v => v.map fun e => (e.1, star e.2))
  | .swap a b => .swap a b
  | .control c oi op => .control c oi (conjOp op)

/-- `invert_op`, matrix_ops.rs L152-154 -/
def invertOp [Star K] (op : MatrixOp K) : Option (MatrixOp K) := (transposeOp op).map conjOp

/-- `select_matrix_coords`, matrix_ops.rs L226-242 -/
def selectMatrixCoords (n nindices : ℕ) (indices : List ℕ) (row col : ℕ) : Option (ℕ × ℕ) :=
  (List.range nindices).foldlM (fun acc j => do
    let indx ← indices[j]?
    let p ← bitPos n indx
    let q ← bitPos nindices j
    some (setBit acc.1 q (getBit row p), setBit acc.2 q (getBit col p))) (0, 0)

/-- `make_op_matrix`, matrix_ops.rs L246-257: row `i` is `op` applied to basis state `i` -/
def makeOpMatrix [Semiring K] [DecidableEq K] (n : ℕ) (op : MatrixOp K) : Option (List (List K)) :=
  (List.range (1 <<< n)).mapM fun i =>
    let zeros : List K := List.replicate (1 <<< n) 0
    applyOp n op (zeros.set i 1) zeros 0 0

end Verif
