import Verif.Model.WideCalc

/-!
# Calculations on machine words

`Model/Iter`, `Model/Apply`, `Model/Measure` and `Model/Calc` use unbounded numbers for rows, columns and masks. Here they are `usize` (64 bits) as in Rust, in a build with
overflow checks (`checked`, an overflow is a panic, `none`) or without (it wraps). Only what `calculate_state_with_init` calls is modelled, with the offsets 0 that it passes.
Lengths of lists, positions in lists and qubit numbers are `Nat`: a `Vec` has less than `2 ^ 63` elements.
-/

namespace Verif
open Complex Classical

/-- `a + b` for `usize` -/
def add64 (checked : Bool) (a b : BitVec 64) : Option (BitVec 64) := if a.toNat + b.toNat < 2 ^ 64 then some (a + b) else if checked then none else some (a + b)

/-- `a - b` for `usize` -/
def sub64 (checked : Bool) (a b : BitVec 64) : Option (BitVec 64) := if b.toNat ≤ a.toNat then some (a - b) else if checked then none else some (a - b)

/-- `a * b` for `usize` -/
def mul64 (checked : Bool) (a b : BitVec 64) : Option (BitVec 64) := if a.toNat * b.toNat < 2 ^ 64 then some (a * b) else if checked then none else some (a * b)

/-- `get_flat_index`, qip-iterators/src/utils.rs L3-6 -/
def getFlatIndex64 (checked : Bool) (nindices : ℕ) (i j : BitVec 64) : Option (BitVec 64) := do
  let side ← shlOne64 checked nindices
  let p ← mul64 checked i side
  add64 checked p j

/-- `set_bit`, qip-iterators/src/utils.rs L35-42 -/
def setBit64 (checked : Bool) (num : BitVec 64) (bitIndex : ℕ) (value : Bool) : Option (BitVec 64) := do
  let v ← shlOne64 checked bitIndex
  if value then some (num ||| v) else some (num &&& ~~~v)

/-- `get_bit`, qip-iterators/src/utils.rs L53-55 -/
def getBit64 (checked : Bool) (num : BitVec 64) (bitIndex : ℕ) : Option Bool := do
  let y ← shr64 checked num bitIndex
  some ((y &&& 1#64) != 0#64)

/-- `full_to_sub`, qip-iterators/src/matrix_ops.rs L12-21 -/
def fullToSub64 (checked : Bool) (n : ℕ) (matIndices : List ℕ) (fullIndex : BitVec 64) : Option (BitVec 64) :=
  let nindices := matIndices.length
  matIndices.zipIdx.foldlM (fun acc (p : ℕ × ℕ) => do
    let m ← bitPos64 checked n p.1
    let bit ← getBit64 checked fullIndex m
    setBit64 checked acc (nindices - 1 - p.2) bit) 0#64

/-- `sub_to_full`, qip-iterators/src/matrix_ops.rs L24-30 -/
def subToFull64 (checked : Bool) (n : ℕ) (matIndices : List ℕ) (subIndex base : BitVec 64) : Option (BitVec 64) :=
  let nindices := matIndices.length
  matIndices.zipIdx.foldlM (fun acc (p : ℕ × ℕ) => do
    let bit ← getBit64 checked subIndex (nindices - 1 - p.2)
    let m ← bitPos64 checked n p.1
    setBit64 checked acc m bit) base

section ops
variable {K : Type}

/-- `MatrixOpIterator`, qip-iterators/src/iterators/qubit_iterators.rs L8-15 -/
structure MatIter64 (K : Type) where
  n : ℕ
  data : List K
  lastCol : Option (BitVec 64)

/-- `MatrixOpIterator::new`, qubit_iterators.rs L23-31 -/
def MatIter64.new (checked : Bool) (row : BitVec 64) (n : ℕ) (data : List K) : Option (MatIter64 K) := do
  let lower ← getFlatIndex64 checked n row 0#64
  let side ← shlOne64 checked n
  let upper ← getFlatIndex64 checked n row side
  let d ← slice data lower.toNat upper.toNat
  some { n := n, data := d, lastCol := none }

/-- the `for col in pos..(1 << n)` loop, qubit_iterators.rs L47-53; `cols` are the numbers of this range -/
def matScan64 [Zero K] [DecidableEq K] (data : List K) : (cols : List ℕ) → Option (Option (BitVec 64 × K))
  | [] => some none
  | col :: rest =>
    match data[col]? with
    | none => none
    | some val => if val ≠ 0 then some (some (BitVec.ofNat 64 col, val)) else matScan64 data rest

/-- `if let Some(last_col) = last_col { last_col + 1 } else { 0 }`, qubit_iterators.rs L41-45 -/
def nextPos64 (checked : Bool) : Option (BitVec 64) → Option (BitVec 64)
  | some lastCol => add64 checked lastCol 1#64
  | none => some 0#64

/-- `MatrixOpIterator::next`, qubit_iterators.rs L40-55 -/
def MatIter64.next [Zero K] [DecidableEq K] (checked : Bool) (it : MatIter64 K) : Option (Option (BitVec 64 × K) × MatIter64 K) := do
  let pos ← nextPos64 checked it.lastCol
  let side ← shlOne64 checked it.n
  match ← matScan64 it.data (List.range' pos.toNat (side.toNat - pos.toNat)) with
  | some (col, val) => some (some (col, val), { it with lastCol := some col })
  | none => some (none, { it with lastCol := none })

/-- an entry of a sparse row, whose column is a `usize` -/
def wordItem (e : ℕ × K) : BitVec 64 × K := (BitVec.ofNat 64 e.1, e.2)

/-- `SparseMatrixOpIterator::next`, qubit_iterators.rs L87-101: the state is a position in a `Vec`, which cannot overflow -/
def sparseNext64 (it : SparseIter K) : Option (Option (BitVec 64 × K) × SparseIter K) := it.next.map fun r => (r.1.map wordItem, r.2)

/-- `ControlledOpIterator`, qubit_iterators.rs L106-115 -/
structure CtrlIter64 (σ : Type) where
  row : BitVec 64
  indexThreshold : BitVec 64
  opIter : Option σ
  lastCol : Option (BitVec 64)

/-- `ControlledOpIterator::new`, qubit_iterators.rs L124-143 -/
def CtrlIter64.new {σ : Type} (checked : Bool) (row : BitVec 64) (nControl nOp : ℕ) (iterBuilder : BitVec 64 → Option σ) : Option (CtrlIter64 σ) := do
  let nIndices := nControl + nOp
  let a ← shlOne64 checked nIndices
  let b ← shlOne64 checked nOp
  let thr ← sub64 checked a b
  if thr.toNat ≤ row.toNat then
    let d ← sub64 checked row thr
    let it ← iterBuilder d
    some { row := row, indexThreshold := thr, opIter := some it, lastCol := none }
  else some { row := row, indexThreshold := thr, opIter := none, lastCol := none }

/-- `ControlledOpIterator::next`, qubit_iterators.rs L153-171 -/
def CtrlIter64.next {σ : Type} [One K] (checked : Bool) (inner : σ → Option (Option (BitVec 64 × K) × σ)) (it : CtrlIter64 σ) :
    Option (Option (BitVec 64 × K) × CtrlIter64 σ) :=
  match it.opIter with
  | some s => do
    let (cval, s') ← inner s
    match cval with
    | some (i, val) =>
      let c ← add64 checked i it.indexThreshold
      some (some (c, val), { it with opIter := some s', lastCol := some c })
    | none => some (none, { it with opIter := some s', lastCol := none })
  | none =>
    let lc := match it.lastCol with
      | some lastCol => if lastCol.toNat < it.row.toNat then some it.row else none
      | none => some it.row
    some (lc.map fun c => (c, 1), { it with lastCol := lc })

/-- `SwapOpIterator`, qubit_iterators.rs L176-184 -/
structure SwapIter64 where
  row : BitVec 64
  halfN : ℕ
  lastCol : Option (BitVec 64)

/-- `SwapOpIterator::new`, qubit_iterators.rs L192-199 -/
def SwapIter64.new (row : BitVec 64) (nQubits : ℕ) : SwapIter64 := { row := row, halfN := nQubits >>> 1, lastCol := none }

/-- `SwapOpIterator::next`, qubit_iterators.rs L208-218 -/
def SwapIter64.next [One K] (checked : Bool) (it : SwapIter64) : Option (Option (BitVec 64 × K) × SwapIter64) :=
  match it.lastCol with
  | none => do
    let m ← shl64 checked (BitVec.allOnes 64) it.halfN
    let lower := it.row &&& ~~~m
    let upper ← shr64 checked it.row it.halfN
    let l ← shl64 checked lower it.halfN
    let c ← add64 checked l upper
    some (some (c, 1), { it with lastCol := some c })
  | some _ => some (none, { it with lastCol := none })

variable [Zero K] [One K] [DecidableEq K]

/-- the items of `sum_for_control_iterator`, ops.rs L118-156 -/
def controlItems64 (checked : Bool) : MatrixOp K → (row : BitVec 64) → (nControl nOp : ℕ) → Option (List (BitVec 64 × K))
  | .matrix _ data, row, nc, no => do
    let it ← CtrlIter64.new checked row nc no (fun row => MatIter64.new checked row no data)
    let r ← drain (CtrlIter64.next checked (MatIter64.next checked)) it
    some r.1
  | .sparse _ data, row, nc, no => do
    let it ← CtrlIter64.new checked row nc no (fun row => SparseIter.new row.toNat data)
    let r ← drain (CtrlIter64.next checked sparseNext64) it
    some r.1
  | .swap _ _, row, nc, no => do
    let it ← CtrlIter64.new checked row nc no (fun row => some (SwapIter64.new row no))
    let r ← drain (CtrlIter64.next checked (SwapIter64.next checked)) it
    some r.1
  | .control newNc oIndices op, row, nc, _ =>
    if newNc ≤ oIndices.length then controlItems64 checked op row (nc + newNc) (oIndices.length - newNc) else none

/-- the items of `sum_for_op_cols`, ops.rs L100-116. A control op with more controls than indices cannot be made (`make_control_op`); here it panics in both builds. -/
def items64 (checked : Bool) : MatrixOp K → (nindices : ℕ) → (row : BitVec 64) → Option (List (BitVec 64 × K))
  | .matrix _ data, nind, row => do
    let it ← MatIter64.new checked row nind data
    let r ← drain (MatIter64.next checked) it
    some r.1
  | .sparse _ data, _, row => do
    let it ← SparseIter.new row.toNat data
    let r ← drain sparseNext64 it
    some r.1
  | .swap _ _, nind, row => do
    let r ← drain (SwapIter64.next checked) (SwapIter64.new row nind)
    some r.1
  | .control nc oIndices op, _, row => if nc ≤ oIndices.length then controlItems64 checked op row nc (oIndices.length - nc) else none

variable [Add K] [Mul K]

/-- the closure `f` of qip-iterators/src/matrix_ops.rs L78-90, with `input_offset = 0` -/
def colValue64 (checked : Bool) (n : ℕ) (matIdx : List ℕ) (row : BitVec 64) (input : List K) (e : BitVec 64 × K) : Option K := do
  let colbits ← subToFull64 checked n matIdx e.1 row
  if colbits.toNat ≥ input.length then some 0
  else
    match input[colbits.toNat]? with
    | none => none
    | some x => some (e.2 * x)

/-- `apply_op_row_indices`, matrix_ops.rs L62-94, with the offsets 0 -/
def applyOpRowIndices64 (checked : Bool) (n : ℕ) (op : MatrixOp K) (input : List K) (outputrow : BitVec 64) (matIdx : List ℕ) : Option K := do
  let row ← add64 checked 0#64 outputrow
  let matrow ← fullToSub64 checked n matIdx row
  let l ← items64 checked op matIdx.length matrow
  let ts ← l.mapM (colValue64 checked n matIdx row input)
  some (MatrixOp.total ts)

/-- `apply_op_overwrite`, matrix_ops.rs L127-152, with the offsets 0 -/
def applyOpOverwrite64 (checked : Bool) (n : ℕ) (op : MatrixOp K) (input output : List K) : Option (List K) := do
  let matIdx ← matIndices op
  output.zipIdx.mapM fun (p : K × ℕ) => applyOpRowIndices64 checked n op input (BitVec.ofNat 64 p.2) matIdx

omit [Zero K] [One K] [DecidableEq K] [Add K] [Mul K]

/-- `make_matrix_op`, qip/src/state_ops/matrix_ops.rs L12-27; the size is computed first -/
def makeMatrixOp64 (checked : Bool) (indices : List ℕ) (dat : List K) : Except Fail (MatrixOp K) :=
  match shlOne64 checked (2 * indices.length) with
  | none => .error .panic
  | some expected =>
    if indices.isEmpty then .error .error
    else if dat.length ≠ expected.toNat then .error .error
    else .ok (.matrix indices dat)

end ops

/-- the op made for a unitary object, builder.rs L424-486, see `unitaryOp` -/
noncomputable def unitaryOp64 (checked : Bool) (indices : List ℕ) : UObj → Except Fail (MatrixOp ℂ)
  | .X => makeMatrixOp64 checked indices [0, 1, 1, 0]
  | .Y => makeMatrixOp64 checked indices [0, -I, I, 0]
  | .Z => makeMatrixOp64 checked indices [1, 0, 0, -1]
  | .H =>
    let nl : ℂ := ((1 / Real.sqrt 2 : ℝ) : ℂ)
    makeMatrixOp64 checked indices [nl, nl, nl, -nl]
  | .S => makeMatrixOp64 checked indices [1, 0, 0, I]
  | .T => makeMatrixOp64 checked indices [1, 0, 0, exp ((Real.pi / 4 : ℝ) * I)]
  | .CNOT =>
    match indices with
    | [] => .error .panic
    | c :: rest => do
      let inner ← makeMatrixOp64 checked rest [0, 1, 1, 0]
      makeControlOp [c] inner
  | .MAT data => makeMatrixOp64 checked indices data
  | .SWAP =>
    let n := indices.length
    if n % 2 ≠ 0 then .error .panic
    else makeSwapOp (indices.take (n / 2)) (indices.drop (n / 2))
  | .Rz theta =>
    let hTheta := rotAngle theta * (1 / 2)
    makeMatrixOp64 checked indices [exp ((-hTheta : ℝ) * I), 0, 0, exp ((hTheta : ℝ) * I)]
  | .GlobalPhase _ => .error .panic

/-- the folds of measurement_ops.rs L76-83 and L87-95 -/
def scatterBits64 (checked : Bool) (n : ℕ) (bits : BitVec 64) (indices : List ℕ) : Option (BitVec 64) :=
  indices.zipIdx.foldlM (fun acc (p : ℕ × ℕ) => do
    let y ← shr64 checked bits p.2
    let m ← bitPos64 checked n p.1
    let v ← shl64 checked (y &&& 1#64) m
    some (acc ||| v)) 0#64

/-- `measure_prob` and `measure_prob_fn`, measurement_ops.rs L44-112, without an offset -/
noncomputable def measureProb64 (checked : Bool) (n : ℕ) (measured : BitVec 64) (indices : List ℕ) (input : List ℂ) : Option ℝ := do
  let template ← scatterBits64 checked n measured indices
  let remaining := (List.range n).filter (fun i => !indices.contains i)
  let count ← shlOne64 checked remaining.length
  let vals ← (List.range count.toNat).mapM fun bits => do
    let tmp ← scatterBits64 checked n (BitVec.ofNat 64 bits) remaining
    let index ← add64 checked tmp template
    let amp : ℂ := if h : index.toNat ≥ input.length then 0 else input[index.toNat]'(by omega)
    if amp = 0 then some none else some (some (Complex.normSq amp))
  some (vals.filterMap id).sum

/-- `measure_probs`, measurement_ops.rs L115-127 -/
noncomputable def measureProbs64 (checked : Bool) (n : ℕ) (indices : List ℕ) (input : List ℂ) : Option (List ℝ) := do
  let count ← shlOne64 checked indices.length
  (List.range count.toNat).mapM fun measured => measureProb64 checked n (BitVec.ofNat 64 measured) indices input

/-- `extract_bits`, qip/src/utils.rs L55-60 -/
def extractBits64 (checked : Bool) (num : BitVec 64) (indices : List ℕ) : Option (BitVec 64) :=
  indices.zipIdx.foldlM (fun acc (p : ℕ × ℕ) => do
    let y ← shr64 checked num p.1
    let v ← shl64 checked (y &&& 1#64) p.2
    some (acc ||| v)) 0#64

/-- `soft_measure`, measurement_ops.rs L153-176, without an offset -/
noncomputable def softMeasure64 (checked : Bool) (n : ℕ) (indices : List ℕ) (input : List ℂ) (rnd : ℝ) : Option (BitVec 64) := do
  let side ← shlOne64 checked n
  let r := rnd * (if input.length < side.toNat then probMagnitude input else 1)
  let measuredIndx := match softLoop input 0 r with
    | some i => BitVec.ofNat 64 i
    | none => 0#64
  let indices ← indices.mapM (bitPos64 checked n)
  extractBits64 checked measuredIndx indices

/-- `Iterator::sum` of `usize`: the additions panic or wrap like `+` -/
def sum64 (checked : Bool) (l : List (BitVec 64)) : Option (BitVec 64) := l.foldlM (add64 checked) 0#64

/-- `row_mask`, measurement_ops.rs L233 -/
def rowMask64 (checked : Bool) (n : ℕ) (indices : List ℕ) : Option (BitVec 64) := do
  let ps ← indices.mapM fun index => do
    let m ← bitPos64 checked n index
    shlOne64 checked m
  sum64 checked ps

/-- `measured_mask`, measurement_ops.rs L234-241 -/
def measuredMask64 (checked : Bool) (n : ℕ) (measured : BitVec 64) (indices : List ℕ) : Option (BitVec 64) := do
  let ps ← indices.zipIdx.mapM fun (p : ℕ × ℕ) => do
    let y ← shr64 checked measured p.2
    let m ← bitPos64 checked n p.1
    shl64 checked (y &&& 1#64) m
  sum64 checked ps

/-- the per-row closure of `measure_state`, measurement_ops.rs L250-263 -/
noncomputable def measureRow64 (rowMask measuredMask : BitVec 64) (pMult : ℝ) (row : BitVec 64) (input : ℂ) : ℂ :=
  if (row &&& rowMask) ^^^ measuredMask ≠ 0#64 then 0 else input * pMult

/-- `measure_state`, measurement_ops.rs L220-269, without offsets -/
noncomputable def measureState64 (checked : Bool) (n : ℕ) (indices : List ℕ) (measured : BitVec 64) (measuredProb : ℝ) (input output : List ℂ) : Option (List ℂ) :=
  if measuredProb ≠ 0 then do
    let pMult := 1 / Real.sqrt measuredProb
    let rm ← rowMask64 checked n indices
    let mm ← measuredMask64 checked n measured indices
    let upper := min input.length output.length
    some (overlay output ((input.take upper).zipIdx.map fun p => measureRow64 rm mm pMult (BitVec.ofNat 64 p.2) p.1) 0)
  else some output

/-- `measure`, measurement_ops.rs L190-214, without offsets and condition -/
noncomputable def measure64 (checked : Bool) (n : ℕ) (indices : List ℕ) (input output : List ℂ) (rnd : ℝ) : Option ((BitVec 64 × ℝ) × List ℂ) := do
  let m ← softMeasure64 checked n indices input rnd
  let p ← measureProb64 checked n m indices input
  let out ← measureState64 checked n indices m p input output
  some ((m, p), out)

/-- one step of the fold, builder.rs L416-503, see `calcStep` -/
noncomputable def calcStep64 (checked : Bool) (n : ℕ) (rnds : ℕ → ℝ) (s : CalcState) (e : List ℕ × CObj) : Option CalcState :=
  match e.2.object with
  | .unitary (.GlobalPhase _) => some { state := s.arena, arena := s.state, measurements := s.measurements }
  | .unitary u =>
    match unitaryOp64 checked e.1 u with
    | .error _ => none
    | .ok uop => do
      let arena ← applyOpOverwrite64 checked n uop s.state s.arena
      some { state := arena, arena := s.state, measurements := s.measurements }
  | .meas .measurement => do
    let ((measured, p), arena) ← measure64 checked n e.1 s.state s.arena (rnds s.measurements.length)
    some { state := arena, arena := s.state, measurements := s.measurements ++ [.single measured.toNat p] }
  | .meas .stochastic => do
    let ps ← measureProbs64 checked n e.1 s.state
    some { state := s.arena, arena := s.state, measurements := s.measurements ++ [.stochastic ps] }

/-- `calculate_state_with_init`, builder.rs L388-507; `bytes` is the size of `Complex<P>` -/
noncomputable def calculateWords (checked : Bool) (bytes : ℕ) (b : LocalBuilder) (it : List (Reg × BitVec 64)) (rnds : ℕ → ℝ) : Option (List ℂ × List MeasResult) := do
  let state ← start64 checked bytes b.n it
  let r ← b.pipeline.foldlM (calcStep64 checked b.n rnds) { state := state, arena := List.replicate state.length 0, measurements := [] }
  some (r.state, r.measurements)

end Verif
