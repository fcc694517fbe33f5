import Verif.Model.Iter

/-!
# Applying ops to state vectors

Models `qip-iterators/src/matrix_ops.rs` and `qip-iterators/src/iterators/iterator_mapper.rs`.
Slices are lists, `&mut` output slices are input/output lists, `none` is a panic.
-/

namespace Verif
open MatrixOp

variable {K : Type} [Zero K] [One K] [Add K] [Mul K] [DecidableEq K]

/-- `(0..op.num_indices()).map(|i| get_index(op, i)).collect()`, matrix_ops.rs L33-35, L49, L108, L137 -/
def matIndices (op : MatrixOp K) : Option (List ℕ) := do
  let k ← op.numIndices
  (List.range k).mapM (fun i => op.indices[i]?)

/-- the closure `f` of matrix_ops.rs L78-90 (and L194-206): value times the addressed input entry, zero
outside the input window -/
def colValue (n : ℕ) (matIdx : List ℕ) (row inputOffset : ℕ) (input : List K) (e : ℕ × K) : Option K := do
  let colbits ← subToFull n matIdx e.1 row
  if colbits < inputOffset then some 0
  else
    let vecrow := colbits - inputOffset
    if vecrow ≥ input.length then some 0
    else
      match input[vecrow]? with
      | none => none
      | some x => some (e.2 * x)

/-- `apply_op_row_indices`, matrix_ops.rs L62-94 -/
def applyOpRowIndices (n : ℕ) (op : MatrixOp K) (input : List K) (outputrow inputOffset outputOffset : ℕ)
    (matIdx : List ℕ) : Option K := do
  let row := outputOffset + outputrow
  let matrow ← fullToSub n matIdx row
  op.sumForOpCols matIdx.length matrow (colValue n matIdx row inputOffset input)

/-- `apply_op_row`, matrix_ops.rs L38-59 -/
def applyOpRow (n : ℕ) (op : MatrixOp K) (input : List K) (outputrow inputOffset outputOffset : ℕ) : Option K := do
  let matIdx ← matIndices op
  applyOpRowIndices n op input outputrow inputOffset outputOffset matIdx

/-- `apply_op`, matrix_ops.rs L98-123: `*outputloc += row` for every row -/
def applyOp (n : ℕ) (op : MatrixOp K) (input output : List K) (inputOffset outputOffset : ℕ) : Option (List K) := do
  let matIdx ← matIndices op
  output.zipIdx.mapM fun (p : K × ℕ) => do
    let v ← applyOpRowIndices n op input p.2 inputOffset outputOffset matIdx
    some (p.1 + v)

/-- `apply_op_overwrite`, matrix_ops.rs L127-152: `*outputloc = row` for every row -/
def applyOpOverwrite (n : ℕ) (op : MatrixOp K) (input output : List K) (inputOffset outputOffset : ℕ) :
    Option (List K) := do
  let matIdx ← matIndices op
  output.zipIdx.mapM fun (p : K × ℕ) =>
    applyOpRowIndices n op input p.2 inputOffset outputOffset matIdx

/-- the fold of `sum_for_ops_cols`, iterator_mapper.rs L13-26: the entries of every op's row; each op takes its
row number from the LOW bits of what is left -/
def opsItems : List (MatrixOp K × ℕ) → (accRow : ℕ) → Option (List (List (ℕ × K)))
  | [], _ => some []
  | (op, nind) :: rest, accRow => do
    let mask := (1 <<< nind) - 1
    let opRow := accRow &&& mask
    let v ← op.items nind opRow
    let vs ← opsItems rest (accRow >>> nind)
    some (v :: vs)

/-- `sum_for_ops_cols`, iterator_mapper.rs L8-31 -/
def sumForOpsCols (row : ℕ) (ops : List (MatrixOp K)) (f : ℕ × K → Option K) : Option K := do
  let ns ← ops.mapM MatrixOp.numIndices
  let v ← opsItems (ops.zip ns) row
  let r ← drain MultiIter.next (MultiIter.new ns v)
  let ts ← r.1.mapM f
  some (total ts)

/-- overwrite `out[lo ..]` by the list `l` (the zipped assignment of matrix_ops.rs L175-182) -/
def overlay (out l : List K) (lo : ℕ) : List K := out.take lo ++ l ++ out.drop (lo + l.length)

/-- `apply_ops`, matrix_ops.rs L158-219 -/
def applyOps (n : ℕ) (ops : List (MatrixOp K)) (input output : List K) (inputOffset outputOffset : ℕ) :
    Option (List K) :=
  match ops with
  | [op] => applyOp n op input output inputOffset outputOffset
  | [] => do
    let lower := max inputOffset outputOffset
    let upper := min (inputOffset + input.length) (outputOffset + output.length)
    -- `upper - input_offset` and `upper - output_offset` panic on underflow
    if upper < inputOffset ∨ upper < outputOffset then none
    else
      let src ← slice input (lower - inputOffset) (upper - inputOffset)
      let _dst ← slice output (lower - outputOffset) (upper - outputOffset)
      some (overlay output src (lower - outputOffset))
  | ops => do
    let idxs ← ops.mapM matIndices
    let matIdx := idxs.flatten
    output.zipIdx.mapM fun (p : K × ℕ) => do
      let row := outputOffset + p.2
      let matrow ← fullToSub n matIdx row
      let v ← sumForOpsCols matrow ops (colValue n matIdx row inputOffset input)
      some (p.1 + v)

end Verif
