import Verif.Model.Bits
import Mathlib.Algebra.BigOperators.Group.List.Basic
import Mathlib.Algebra.Ring.Defs

/-!
# Row iterators

Models `qip-iterators/src/iterators/*.rs`.  An iterator is a state `σ` with
`next : σ → Option (Option α × σ)`; the outer `none` is a panic, the inner `none` is Rust's `None`.
Values live in an arbitrary type `K` with the operations used and decidable equality instead of floats.
-/

namespace Verif

/-- Rust's `for x in it` / `.map(f).sum()` / `.fold(..)`: call `next` until it returns `None`; return the
items and the state the iterator is left in.  `none`: `next` panicked or iteration never ends. -/
def drain {σ α : Type} (next : σ → Option (Option α × σ)) (s : σ) : Option (List α × σ) :=
  match next s with
  | none => none
  | some (none, s') => some ([], s')
  | some (some a, s') => do
    let t ← drain next s'
    return (a :: t.1, t.2)
partial_fixpoint

/-- Rust slice `&l[lo..hi]`; panics unless `lo <= hi <= len`. -/
def slice {α : Type} (l : List α) (lo hi : ℕ) : Option (List α) :=
  if lo ≤ hi ∧ hi ≤ l.length then some ((l.take hi).drop lo) else none

variable {K : Type}

/-- `if let Some(last) = last { last + 1 } else { 0 }`, qubit_iterators.rs L41-45 and L88-92 -/
def nextPos : Option ℕ → ℕ
  | some last => last + 1
  | none => 0

/-! ## Dense rows -/

/-- `MatrixOpIterator`, qip-iterators/src/iterators/qubit_iterators.rs L8-15 -/
structure MatIter (K : Type) where
  n : ℕ
  data : List K
  lastCol : Option ℕ

/-- `MatrixOpIterator::new`, qubit_iterators.rs L23-31 -/
def MatIter.new (row n : ℕ) (data : List K) : Option (MatIter K) := do
  let lower := getFlatIndex n row 0
  let upper := getFlatIndex n row (1 <<< n)
  let d ← slice data lower upper
  some { n := n, data := d, lastCol := none }

/-- the `for col in pos..(1 << n)` loop, qubit_iterators.rs L47-53 -/
def matScan [Zero K] [DecidableEq K] (data : List K) : List ℕ → Option (Option (ℕ × K))
  | [] => some none
  | col :: rest =>
    match data[col]? with
    | none => none
    | some val => if val ≠ 0 then some (some (col, val)) else matScan data rest

/-- `MatrixOpIterator::next`, qubit_iterators.rs L40-55 -/
def MatIter.next [Zero K] [DecidableEq K] (it : MatIter K) : Option (Option (ℕ × K) × MatIter K) :=
  let pos := nextPos it.lastCol
  match matScan it.data (List.range' pos ((1 <<< it.n) - pos)) with
  | none => none
  | some (some (col, val)) => some (some (col, val), { it with lastCol := some col })
  | some none => some (none, { it with lastCol := none })

/-! ## Sparse rows -/

/-- `SparseMatrixOpIterator`, qubit_iterators.rs L60-66 -/
structure SparseIter (K : Type) where
  data : List (ℕ × K)
  lastIndex : Option ℕ

/-- `SparseMatrixOpIterator::new`, qubit_iterators.rs L73-78 -/
def SparseIter.new (row : ℕ) (data : List (List (ℕ × K))) : Option (SparseIter K) := do
  let d ← data[row]?
  some { data := d, lastIndex := none }

/-- `SparseMatrixOpIterator::next`, qubit_iterators.rs L87-101 -/
def SparseIter.next (it : SparseIter K) : Option (Option (ℕ × K) × SparseIter K) :=
  let pos := nextPos it.lastIndex
  if pos ≥ it.data.length then some (none, { it with lastIndex := none })
  else
    match it.data[pos]? with
    | none => none
    | some e => some (some e, { it with lastIndex := some pos })

/-! ## Controlled rows -/

/-- `ControlledOpIterator`, qubit_iterators.rs L106-115; `σ` is the state of the inner iterator -/
structure CtrlIter (σ : Type) where
  row : ℕ
  indexThreshold : ℕ
  opIter : Option σ
  lastCol : Option ℕ

/-- `ControlledOpIterator::new`, qubit_iterators.rs L124-143.  The closure `iter_builder` may panic. -/
def CtrlIter.new {σ : Type} (row nControl nOp : ℕ) (iterBuilder : ℕ → Option σ) : Option (CtrlIter σ) :=
  let nIndices := nControl + nOp
  let thr := (1 <<< nIndices) - (1 <<< nOp)
  if row ≥ thr then
    (iterBuilder (row - thr)).map fun it =>
      { row := row, indexThreshold := thr, opIter := some it, lastCol := none }
  else
    some { row := row, indexThreshold := thr, opIter := none, lastCol := none }

/-- `ControlledOpIterator::next`, qubit_iterators.rs L153-171 -/
def CtrlIter.next {σ : Type} [One K] (inner : σ → Option (Option (ℕ × K) × σ)) (it : CtrlIter σ) :
    Option (Option (ℕ × K) × CtrlIter σ) :=
  match it.opIter with
  | some s =>
    (inner s).map fun (cval, s') =>
      let ret := cval.map fun (i, val) => (i + it.indexThreshold, val)
      (ret, { it with opIter := some s', lastCol := ret.map Prod.fst })
  | none =>
    let lc := match it.lastCol with
      | some lastCol => if lastCol < it.row then some it.row else none
      | none => some it.row
    some (lc.map fun c => (c, 1), { it with lastCol := lc })

/-! ## Swap rows -/

/-- `SwapOpIterator`, qubit_iterators.rs L176-184 -/
structure SwapIter where
  row : ℕ
  halfN : ℕ
  lastCol : Option ℕ

/-- `SwapOpIterator::new`, qubit_iterators.rs L192-199 -/
def SwapIter.new (row nQubits : ℕ) : SwapIter := { row := row, halfN := nQubits >>> 1, lastCol := none }

/-- `SwapOpIterator::next`, qubit_iterators.rs L208-218 (`row & !(MAX << h)` is `row & (2^h - 1)`) -/
def SwapIter.next [One K] (it : SwapIter) : Option (Option (ℕ × K) × SwapIter) :=
  let lc := match it.lastCol with
    | none =>
      let lower := it.row &&& ((1 <<< it.halfN) - 1)
      let upper := it.row >>> it.halfN
      some ((lower <<< it.halfN) + upper)
    | some _ => none
  some (lc.map fun c => (c, 1), { it with lastCol := lc })

/-! ## Function rows -/

/-- `FunctionOpIterator`, qubit_iterators.rs L223-230 -/
structure FnIter (K : Type) where
  outputN : ℕ
  x : ℕ
  fxXorY : ℕ
  theta : K
  lastCol : Option ℕ

/-- `FunctionOpIterator::new`, qubit_iterators.rs L235-253 -/
def FnIter.new (row inputN outputN : ℕ) (f : ℕ → ℕ × K) : Option (FnIter K) := do
  let x := row >>> outputN
  let arg ← flipBits inputN x
  let (fx, theta) := f arg
  let y := row &&& ((1 <<< outputN) - 1)
  let ffx ← flipBits outputN fx
  some { outputN := outputN, x := x, fxXorY := y ^^^ ffx, theta := theta, lastCol := none }

/-- `FunctionOpIterator::next`, qubit_iterators.rs L262-270 -/
def FnIter.next (it : FnIter K) : Option (Option (ℕ × K) × FnIter K) :=
  let lc := match it.lastCol with
    | some _ => none
    | none => some ((it.x <<< it.outputN) ||| it.fxXorY)
  some (lc.map fun c => (c, it.theta), { it with lastCol := lc })

/-! ## Several ops at once -/

/-- `MultiOpIterator`, qip-iterators/src/iterators/qubit_multi_iterator.rs L6-11 -/
structure MultiIter (K : Type) where
  iterNs : List ℕ
  iterOutputs : List (List (ℕ × K))
  currPoss : List ℕ
  overflow : Bool

/-- `MultiOpIterator::new`, qubit_multi_iterator.rs L16-27 -/
def MultiIter.new (iterNs : List ℕ) (iterOutputs : List (List (ℕ × K))) : MultiIter K :=
  { iterNs := iterNs, iterOutputs := iterOutputs, currPoss := iterNs.map (fun _ => 0), overflow := false }

/-- the fold computing the current item, qubit_multi_iterator.rs L41-52; `outs[cur_pos]` may panic -/
def multiItem [Mul K] : List ((ℕ × ℕ) × List (ℕ × K)) → ℕ × K → Option (ℕ × K)
  | [], acc => some acc
  | ((curPos, nPos), outs) :: rest, (accCol, accVal) =>
    match outs[curPos]? with
    | none => none
    | some (col, val) => multiItem rest ((accCol <<< nPos) ||| col, accVal * val)

/-- the increment loop of qubit_multi_iterator.rs L55-70, over (position, output list) pairs in reverse
order; returns the new positions (same order) and `broke_early` -/
def multiIncr : List (ℕ × List (ℕ × K)) → List ℕ × Bool
  | [] => ([], false)
  | (curPos, outs) :: rest =>
    let p := curPos + 1
    if p = outs.length then
      let (ps, b) := multiIncr rest
      (0 :: ps, b)
    else (p :: rest.map Prod.fst, true)

/-- `MultiOpIterator::next`, qubit_multi_iterator.rs L36-78.  Rust's double-ended `zip` of the reversed
slices pairs position and output list by index counted from the end; the two have equal length here. -/
def MultiIter.next [Mul K] [One K] (it : MultiIter K) : Option (Option (ℕ × K) × MultiIter K) :=
  if it.overflow then some (none, { it with overflow := false })
  else
    match multiItem ((it.currPoss.zip it.iterNs).zip it.iterOutputs) (0, 1) with
    | none => none
    | some retVal =>
      let (ps, brokeEarly) := multiIncr (it.currPoss.reverse.zip it.iterOutputs.reverse)
      some (some retVal, { it with currPoss := ps.reverse, overflow := !brokeEarly })

/-! ## Ops -/

/-- `MatrixOp`, qip-iterators/src/iterators/ops.rs L11-20 -/
inductive MatrixOp (K : Type) where
  | matrix (indices : List ℕ) (data : List K)
  | sparse (indices : List ℕ) (rows : List (List (ℕ × K)))
  | swap (a : ℕ) (indices : List ℕ)
  | control (nc : ℕ) (indices : List ℕ) (op : MatrixOp K)

namespace MatrixOp

/-- `MatrixOp::num_indices`, ops.rs L24-36; the `debug_assert_eq!` of the swap case is a panic -/
def numIndices : MatrixOp K → Option ℕ
  | matrix indices _ => some indices.length
  | sparse indices _ => some indices.length
  | swap a b => if b.length = a * 2 then some (a * 2) else none
  | control _ os _ => some os.length

/-- `MatrixOp::indices`, ops.rs L39-46 -/
def indices : MatrixOp K → List ℕ
  | matrix i _ => i
  | sparse i _ => i
  | swap _ i => i
  | control _ i _ => i

/-- `MatrixOp::new_swap`, ops.rs L67-78; `debug_assert_eq!` is a panic -/
def newSwap (a b : List ℕ) : Option (MatrixOp K) :=
  if a.length = b.length then some (swap a.length (a ++ b)) else none

/-- `MatrixOp::new_control`, ops.rs L81-91 -/
def newControl (c r : List ℕ) (op : MatrixOp K) : MatrixOp K := control c.length (c ++ r) op

variable [Zero K] [One K] [DecidableEq K]

/-- The items an op's control iterator yields: `sum_for_control_iterator` ops.rs L118-156 and, with the same
case split, `act_on_control_iterator` iterator_mapper.rs L66-113. -/
def controlItems : MatrixOp K → (row nControl nOp : ℕ) → Option (List (ℕ × K))
  | matrix _ data, row, nc, no => do
    let it ← CtrlIter.new row nc no (fun row => MatIter.new row no data)
    let r ← drain (CtrlIter.next MatIter.next) it
    some r.1
  | sparse _ data, row, nc, no => do
    let it ← CtrlIter.new row nc no (fun row => SparseIter.new row data)
    let r ← drain (CtrlIter.next SparseIter.next) it
    some r.1
  | swap _ _, row, nc, no => do
    let it ← CtrlIter.new row nc no (fun row => some (SwapIter.new row no))
    let r ← drain (CtrlIter.next SwapIter.next) it
    some r.1
  | control newNc oIndices op, row, nc, _ =>
    if newNc ≤ oIndices.length then
      controlItems op row (nc + newNc) (oIndices.length - newNc)
    else none

/-- The items an op's row iterator yields: the case split of `sum_for_op_cols` ops.rs L100-116 and of
`act_on_iterator` iterator_mapper.rs L48-64. -/
def items : MatrixOp K → (nindices row : ℕ) → Option (List (ℕ × K))
  | matrix _ data, nind, row => do
    let it ← MatIter.new row nind data
    let r ← drain MatIter.next it
    some r.1
  | sparse _ data, _, row => do
    let it ← SparseIter.new row data
    let r ← drain SparseIter.next it
    some r.1
  | swap _ _, nind, row => do
    let r ← drain SwapIter.next (SwapIter.new row nind)
    some r.1
  | control nc oIndices op, _, row =>
    if nc ≤ oIndices.length then controlItems op row nc (oIndices.length - nc) else none

/-- `Iterator::sum` of `.map(f).sum()`, ops.rs L106-146, iterator_mapper.rs L30: the terms are added from left to right, starting at zero
(the order matters for rounded arithmetic, C86) -/
def total {T : Type} [Zero T] [Add T] (ts : List T) : T := ts.foldl (· + ·) 0

/-- `MatrixOp::sum_for_op_cols`, ops.rs L100-116: `.map(f).sum()` over the row's items.  `f` may panic. -/
def sumForOpCols {T : Type} [Zero T] [Add T] (op : MatrixOp K) (nindices row : ℕ) (f : ℕ × K → Option T) :
    Option T := do
  let l ← op.items nindices row
  let ts ← l.mapM f
  some (total ts)

end MatrixOp

end Verif
