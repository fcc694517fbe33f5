import Verif.Model.Gates

/-!
# Conditioned builders

Models `try_apply_with_condition` of `LocalBuilder` (`qip/src/builder.rs` L651-814) and `Conditioned`
(`qip/src/conditioning.rs`).

The Rust traits `Conditionable`, `CliffordTBuilder`, `RotationsBuilder`, … are independent; here they form a chain of
classes, which every builder of the library (`LocalBuilder`, and `Conditioned` over such a builder) implements.
-/

namespace Verif
open Complex RegOps CircuitBuilder TempBuilder

/-- `Conditionable`, conditioning.rs L12-25 -/
class Conditionable (β : Type) extends Rotations β where
  tryCond : Reg → Reg → CObj → M β (Reg × Reg)

namespace LocalBuilder

/-- the body of the `try_fold` for `SWAP`, builder.rs L708-737 -/
def condSwapStep (p : Reg × List Reg × List Reg) (q : Reg × Reg) : M LocalBuilder (Reg × List Reg × List Reg) := do
  let newCr ← RegOps.mergeTwo p.1 q.1
  let (newCr, rb) ← cnot newCr q.2
  let (cr, ra) ← splitLast newCr
  let ra ← unwrapO ra
  let newCr ← RegOps.mergeTwo cr rb
  let (newCr, ra) ← cnot newCr ra
  let (cr, rb) ← splitLast newCr
  let rb ← unwrapO rb
  let newCr ← RegOps.mergeTwo cr ra
  let (newCr, rb) ← cnot newCr rb
  let (cr, ra) ← splitLast newCr
  let ra ← unwrapO ra
  pure (cr, p.2.1 ++ [ra], p.2.2 ++ [rb])

/-- the phase gate between the two Toffolis for `S` and `T`, builder.rs L682-703 (`g` is `s` or `t`) -/
def condPhase (g : Reg → M LocalBuilder Reg) (cr r : Reg) : M LocalBuilder (Reg × Reg) := do
  let cr ← RegOps.mergeTwo cr r
  let tq ← TempBuilder.makeTempQubit
  let (cr, tq) ← toffoli cr tq
  let tq ← g tq
  let (cr, tq) ← toffoli cr tq
  TempBuilder.returnTemp tq
  let (cr, r) ← splitLast cr
  let r ← unwrapO r
  pure (cr, r)

/-- `try_apply_with_condition`, builder.rs L652-802; `split_vector_at` (L805-814) with `x ≤ len` gives the first `x`
elements and the rest -/
noncomputable def tryCond (cr r : Reg) (co : CObj) : M LocalBuilder (Reg × Reg) :=
  match co.object with
  | .unitary .X => toffoli cr r
  | .unitary .Y => do
    let r ← Gate.s r
    let (cr, r) ← toffoli cr r
    let r ← sDagger r
    pure (cr, r)
  | .unitary .Z => do
    let r ← Gate.h r
    let (cr, r) ← toffoli cr r
    let r ← Gate.h r
    pure (cr, r)
  | .unitary .H => do
    let r ← Rotations.ryPiBy r 4
    let (cr, r) ← toffoli cr r
    let r ← Rotations.ryPiBy r (-4)
    pure (cr, r)
  | .unitary .S => condPhase Gate.s cr r
  | .unitary .T => condPhase Gate.t cr r
  | .unitary .SWAP => do
    let n := r.length
    if n % 2 ≠ 0 then throw .panic
    let rs ← splitAll r
    let (cr, ras, rbs) ← ((rs.take (n / 2)).zip (rs.drop (n / 2))).foldlM condSwapStep (cr, [], [])
    let m ← mergeRegisters (ras ++ rbs)
    let r ← unwrapO m
    pure (cr, r)
  | .unitary .CNOT => do
    if r.length ≠ 2 then throw .panic
    let (ra, r) ← splitFirst r
    let ra ← unwrapO ra
    let cr ← RegOps.mergeTwo cr ra
    let (cr, r) ← toffoli cr r
    let (cr, ra) ← splitLast cr
    let ra ← unwrapO ra
    let r ← RegOps.mergeTwo ra r
    pure (cr, r)
  | .unitary (.GlobalPhase phase) => do
    let tq ← TempBuilder.makeTempQubit
    let (cr, tq) ← toffoli cr tq
    let tq ← match phase with
      | .floating theta => do
        let tq ← rz tq (theta * (1 / 2))
        applyGlobalPhase tq (theta * (1 / 2))
      | .piRational q => do
        let tq ← rzRatio tq (q / 2)
        applyGlobalPhaseRatio tq (q / 2)
    let (cr, tq) ← toffoli cr tq
    TempBuilder.returnTemp tq
    pure (cr, r)
  | .unitary (.Rz phase) => do
    let crn := cr.length
    let cr ← RegOps.mergeTwo cr r
    let tq ← TempBuilder.makeTempQubit
    let (cr, tq) ← toffoli cr tq
    let tq ← match phase with
      | .floating theta => rz tq theta
      | .piRational q => rzRatio tq q
    let (cr, tq) ← toffoli cr tq
    TempBuilder.returnTemp tq
    match ← RegOps.splitRel cr (List.range crn) with
    | .split cr r => pure (cr, r)
    | .selected _ => throw .panic
    | .unselected _ => throw .panic
  | .unitary (.MAT _) => throw .panic
  | .meas _ => throw .error

noncomputable instance : Conditionable LocalBuilder where
  tryCond := tryCond

end LocalBuilder

/-! ## `Conditioned` -/

/-- `Conditioned`, conditioning.rs L27-32: the parent builder (mutably borrowed, hence part of the state) and the
condition register -/
structure Conditioned (β : Type) where
  parent : β
  cr : Option Reg

namespace Conditioned
variable {β α : Type}

/-- `self.parent.f(..)` -/
def onParent (m : M β α) : M (Conditioned β) α := fun s =>
  match m s.parent with
  | .ok a p => .ok a { s with parent := p }
  | .error e p => .error e { s with parent := p }

/-- `self.cr.take().unwrap()` -/
def takeCr : M (Conditioned β) Reg := do
  let s ← get
  set { s with cr := none }
  unwrapO s.cr

/-- `self.cr = Some(cr)` -/
def putCr (cr : Reg) : M (Conditioned β) Unit := modify fun s => { s with cr := some cr }

/-- `condition_with`, work with the conditioned builder, `dissolve`: conditioning.rs L22-24, L34-46 -/
def conditioned (cr : Reg) (m : M (Conditioned β) α) : M β (α × Reg) := fun s =>
  match m ⟨s, some cr⟩ with
  | .ok a s' =>
    match s'.cr with
    | some cr => .ok (a, cr) s'.parent
    | none => .error .panic s'.parent
  | .error e s' => .error e s'.parent

/-- conditioning.rs L53-74 -/
instance [RegOps β] : RegOps (Conditioned β) where
  nQubits s := nQubits s.parent
  register n := onParent (register n)
  mergeTwo r1 r2 := onParent (mergeTwo r1 r2)
  splitRel r is := onParent (splitRel r is)

/-- `apply_circuit_object`, conditioning.rs L76-85 -/
def applyCO [Conditionable β] (r : Reg) (c : CObj) : M (Conditioned β) Reg := do
  let cr ← takeCr
  let (cr, r) ← onParent (Conditionable.tryCond cr r c)
  putCr cr
  pure r

instance [Conditionable β] : CircuitBuilder (Conditioned β) where
  applyCO := applyCO

/-- conditioning.rs L96-128 -/
instance [Conditionable β] : CliffordT (Conditioned β) where
  vecMatrixToCO n data := CliffordT.vecMatrixToCO β n data
  makeX s := CliffordT.makeX s.parent
  makeY s := CliffordT.makeY s.parent
  makeZ s := CliffordT.makeZ s.parent
  makeH s := CliffordT.makeH s.parent
  makeS s := CliffordT.makeS s.parent
  makeT s := CliffordT.makeT s.parent
  makeCnot s := CliffordT.makeCnot s.parent

/-- conditioning.rs L170-180 -/
instance [Conditionable β] : TempBuilder (Conditioned β) where
  makeTempQubit := onParent makeTempQubit
  returnTemp r := onParent (returnTemp r)

/-- conditioning.rs L130-168: the rotations go to the parent as they are -/
instance [Conditionable β] : Rotations (Conditioned β) where
  rz r θ := onParent (Rotations.rz r θ)
  rx r θ := onParent (Rotations.rx r θ)
  ry r θ := onParent (Rotations.ry r θ)
  rzRatio r q := onParent (Rotations.rzRatio r q)
  rxRatio r q := onParent (Rotations.rxRatio r q)
  ryRatio r q := onParent (Rotations.ryRatio r q)
  rzPiBy r m := onParent (Rotations.rzPiBy r m)
  rxPiBy r m := onParent (Rotations.rxPiBy r m)
  ryPiBy r m := onParent (Rotations.ryPiBy r m)

/-- `try_apply_with_condition`, conditioning.rs L188-206 -/
def tryCond [Conditionable β] (cr r : Reg) (co : CObj) : M (Conditioned β) (Reg × Reg) := do
  let ncr := cr.length
  let ccr ← takeCr
  let cr ← RegOps.mergeTwo cr ccr
  let (cr, r) ← onParent (Conditionable.tryCond cr r co)
  match ← RegOps.splitRel cr (List.range ncr) with
  | .split cr ccr => do
    putCr ccr
    pure (cr, r)
  | .selected _ => throw .panic
  | .unselected _ => throw .panic

instance [Conditionable β] : Conditionable (Conditioned β) where
  tryCond := tryCond

end Conditioned

end Verif
