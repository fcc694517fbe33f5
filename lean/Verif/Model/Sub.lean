import Verif.Model.Cond

/-!
# Subcircuits and their inverses

Models `Subcircuitable`, `Invertable` and `ConditionableSubcircuit` for `LocalBuilder` (`qip/src/builder.rs` L816-955)
and for `Conditioned` (`qip/src/conditioning.rs` L209-283), `inverter_args` (`qip/src/inverter.rs`) and the code
generated by `#[invert]` (`qip-macros/src/lib.rs` L371-531).
-/

namespace Verif
open Complex RegOps CircuitBuilder TempBuilder

/-- one round of the `try_for_each` in `apply_pipeline_objects`, builder.rs L888-901 -/
def applyEntry {β : Type} [TempBuilder β] (slots : List (Option Reg)) (e : List ℕ × CObj) : M β (List (Option Reg)) := do
  let (subRs, slots) ← liftE (takeMany slots e.1)
  let m ← mergeRegisters subRs
  let subR ← unwrapO m
  let subR ← applyCO subR e.2
  let subRs ← splitAll subR
  let slots := (e.1.zip subRs).foldl (fun sl p => sl.set p.1 (some p.2)) slots
  if slots.all Option.isSome then pure slots else throw .panic

/-- `max_r_index`, builder.rs L877-881; `none` if no element has an index -/
def maxIndex (sc : Pipeline) : Option ℕ := (sc.filterMap fun e => e.1.max?).max?

/-- `apply_pipeline_objects`, builder.rs L865-909. `1 + max_r_index - rn` underflows if the subcircuit does not reach
the last qubit of the register: a panic (in builds without overflow checks: a request for about 2^64 temporaries). -/
def applyPipelineObjects {β : Type} [TempBuilder β] (sc : Pipeline) (r : Reg) : M β Reg := do
  let rn := r.length
  let rs ← splitAll r
  let maxRIndex ← unwrapO (maxIndex sc)
  if 1 + maxRIndex < rn then throw .panic
  let tempN := 1 + maxRIndex - rn
  let rs ← if tempN = 0 then pure rs else do
    let temp ← makeTempRegister tempN
    let ts ← splitAll temp
    pure (rs ++ ts)
  let slots ← sc.foldlM applyEntry (rs.map some)
  let rs ← unwrapO (slots.mapM id)
  if rs.length < rn then throw .panic
  let mt ← mergeRegisters (rs.drop rn)
  match mt with
  | some tr => returnTemp tr
  | none => pure ()
  let m ← mergeRegisters (rs.take rn)
  unwrapO m

/-- `inverse_data`, builder.rs L931-940: conjugate transpose of a `2^n` by `2^n` matrix; `none` is an index out of
range -/
noncomputable def daggerData (n : ℕ) (data : List ℂ) : Option (List ℂ) :=
  let nn := 1 <<< n
  if nn * nn ≤ data.length then
    (List.range data.length).mapM fun k =>
      if k < nn * nn then do
        let d ← data[(k % nn) * nn + k / nn]?
        some (star d)
      else some 0
  else none

/-- `invert_circuit_object`, builder.rs L911-955 -/
noncomputable def invertObject (co : CObj) : Except Fail (List CObj) :=
  match co.object with
  | .meas _ => .error .error
  | .unitary u =>
    let objs : Except Fail (List UObj) := match u with
      | .S => .ok [.Z, .S]
      | .T => .ok [.Z, .S, .T]
      | .Rz phase => .ok [.Rz phase.neg]
      | .GlobalPhase phase => .ok [.GlobalPhase phase.neg]
      | .MAT data =>
        match daggerData co.n data with
        | some d => .ok [.MAT d]
        | none => .error .panic
      | u => .ok [u]
    objs.map fun us => us.map fun u => ⟨co.n, .unitary u⟩

/-- `invert_subcircuit`, builder.rs L839-848 -/
noncomputable def invertSub (sc : Pipeline) : Except Fail Pipeline :=
  sc.reverse.foldlM (fun acc e => do
    let cos ← invertObject e.2
    pure (acc ++ cos.map fun co => (e.1, co))) []

/-- `Subcircuitable`, `ConditionableSubcircuit` and `Invertable`: builder_traits.rs L641-653, conditioning.rs
L209-218, inverter.rs L27-44. `SimilarBuilder` is `LocalBuilder` and `invert_subcircuit` is `invertSub` for every
builder of the library (`Conditioned` passes them on, conditioning.rs L239-251). -/
class Recursive (β : Type) extends Conditionable β where
  makeSub : β → Pipeline
  applySub : Pipeline → Reg → M β Reg
  applyCondSub : Pipeline → Reg → Reg → M β (Reg × Reg)

/-- `apply_inverted_subcircuit`, inverter.rs L36-43 -/
noncomputable def applyInverted {β : Type} [Recursive β] (sc : Pipeline) (r : Reg) : M β Reg := do
  let sc ← liftE (invertSub sc)
  Recursive.applySub sc r

/-- builder.rs L816-830, L851-863 -/
noncomputable instance : Recursive LocalBuilder where
  makeSub b := b.pipeline
  applySub := applyPipelineObjects
  applyCondSub sc cr r := do
    let (r, cr) ← Conditioned.conditioned cr (applyPipelineObjects sc r)
    pure (cr, r)

namespace Conditioned

/-- conditioning.rs L220-237, L253-275 -/
instance {β : Type} [Recursive β] : Recursive (Conditioned β) where
  makeSub s := Recursive.makeSub s.parent
  applySub sc r := do
    let cr ← takeCr
    let (cr, r) ← onParent (Recursive.applyCondSub sc cr r)
    putCr cr
    pure r
  applyCondSub sc cr r := do
    let ncr := cr.length
    let ccr ← takeCr
    let cr ← RegOps.mergeTwo cr ccr
    let (cr, r) ← onParent (Recursive.applyCondSub sc cr r)
    match ← RegOps.splitRel cr (List.range ncr) with
    | .split cr ccr => do
      putCr ccr
      pure (cr, r)
    | .selected _ => throw .panic
    | .unselected _ => throw .panic

end Conditioned

/-- the ranges `0..n1, n1..n1+n2, …` of registers of the given sizes, inverter.rs L69-75, lib.rs L521-525 -/
def ranges : ℕ → List ℕ → List (List ℕ)
  | _, [] => []
  | n, k :: ks => List.range' n k :: ranges (n + k) ks

/-- the circuit made by `f` on registers of the given sizes in a new builder, inverter.rs L62-68, lib.rs L511-517 -/
def buildSub (sizes : List ℕ) (f : List Reg → M LocalBuilder (List Reg)) : Except Fail Pipeline :=
  match (do
    let rs ← sizes.mapM LocalBuilder.register
    f rs : M LocalBuilder (List Reg)) LocalBuilder.default with
  | .ok _ b => .ok b.pipeline
  | .error e _ => .error e

/-- `inverter_args`, inverter.rs L48-82 -/
noncomputable def inverterArgs {β τ : Type} [Recursive β] (rs : List Reg) (f : List Reg → τ → M LocalBuilder (List Reg))
    (t : τ) : M β (List Reg) := do
  let sub ← liftE (buildSub (rs.map List.length) fun rs => f rs t)
  let m ← mergeRegisters rs
  let r ← unwrapO m
  let r ← applyInverted sub r
  match ← splitGroups r (ranges 0 (rs.map List.length)) with
  | .allSelected rs => pure rs
  | .remaining _ _ => throw .panic

/-- `inverter`, inverter.rs L86-95 -/
noncomputable def inverter {β : Type} [Recursive β] (rs : List Reg) (f : List Reg → M LocalBuilder (List Reg)) :
    M β (List Reg) := inverterArgs rs (fun rs (_ : Unit) => f rs) ()

/-- the function generated by `#[invert]` for a function `f` with register arguments, qip-macros/src/lib.rs L509-528.
(Non-register arguments are those captured in `f`. The registers are popped off the selected ones from the end.) -/
noncomputable def invertFn {β : Type} [Recursive β] (f : List Reg → M LocalBuilder (List Reg)) (rs : List Reg) :
    M β (List Reg) := do
  let sub ← liftE (buildSub (rs.map List.length) f)
  let m ← mergeRegisters rs
  let r ← unwrapO m
  let r ← applyInverted sub r
  let sel ← splitGroups r (ranges 0 (rs.map List.length))
  match sel.getAllSelected with
  | .ok v => if rs.length ≤ v.length then pure (v.drop (v.length - rs.length)) else throw .panic
  | .error _ => throw .panic

end Verif
