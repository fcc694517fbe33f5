import Verif.Model.Fail
import Mathlib.Data.Complex.Basic

/-!
# Circuit builders: registers, circuit objects, `LocalBuilder`

Models `qip/src/builder_traits.rs` (the `CircuitBuilder` trait and its default methods) and the corresponding part
of `qip/src/builder.rs`.

* A builder method `fn f(&mut self, ..) -> CircuitResult<T>` is a function in `M β T`: it maps the builder state to a
  result or a failure (`Err` or panic), *together with the builder state left behind* in either case.
* Registers (`Qudit`, builder.rs L66-69) are their index lists. `Qudit::new` (L81-91) never makes an empty one, so
  theorems assume registers non-empty; what the code would do on an empty list is modelled all the same.
* Rust's move semantics (a register passed to a method is consumed) is not part of the functions; it is stated as the
  ownership discipline of the histories in `Verif.Spec.History`.
* Traits are type classes. Only methods that some implementor overrides are class fields; the others are functions.
* Floats are real/complex numbers, `Ratio<i64>` is ℚ, `i64` is ℤ.
-/

namespace Verif

/-- a builder method: `EStateM` keeps the builder state also when the call fails -/
abbrev M (β α : Type) := EStateM Fail β α

/-- `Result::unwrap` / `Option::expect` on the result of a builder call: an `Err` becomes a panic -/
def unwrapM {β α : Type} (m : M β α) : M β α := fun s =>
  match m s with
  | .ok a s => .ok a s
  | .error _ s => .error .panic s

/-- `Option::unwrap` -/
def unwrapO {β α : Type} : Option α → M β α
  | some a => pure a
  | none => throw .panic

/-- a state-independent computation as a builder method -/
def liftE {β α : Type} : Except Fail α → M β α
  | .ok a => pure a
  | .error e => throw e

/-- `Qudit`, builder.rs L66-69 -/
abbrev Reg := List ℕ

/-- `Qudit::new` / `new_from_iter`, builder.rs L81-98 -/
def Reg.new (indices : List ℕ) : Option Reg := if indices.isEmpty then none else some indices

/-- `SplitResult`, builder_traits.rs L23-30 -/
inductive SplitResult where
  | selected (r : Reg)
  | unselected (r : Reg)
  | split (a b : Reg)
deriving DecidableEq, Repr

/-- `SplitManyResult`, builder_traits.rs L34-39 -/
inductive SplitManyResult where
  | allSelected (rs : List Reg)
  | remaining (rs : List Reg) (r : Reg)
deriving DecidableEq, Repr

/-- `SplitManyResult::get_all_selected`, builder_traits.rs L43-48 -/
def SplitManyResult.getAllSelected : SplitManyResult → Except (List Reg) (List Reg)
  | .allSelected v => .ok v
  | .remaining v _ => .error v

/-- `SplitManyResult::get_selected`, builder_traits.rs L51-56 -/
def SplitManyResult.getSelected : SplitManyResult → List Reg
  | .allSelected v => v
  | .remaining v _ => v

/-! ## Circuit objects -/

/-- `RotationObject`, builder.rs L147-153 -/
inductive Rot where
  | floating (θ : ℝ)
  | piRational (q : ℚ)

/-- `Neg for RotationObject`, builder.rs L155-164 -/
noncomputable def Rot.neg : Rot → Rot
  | .floating f => .floating (-f)
  | .piRational r => .piRational (-r)

/-- `UnitaryMatrixObject`, builder.rs L119-144 -/
inductive UObj where
  | X | Y | Z | H | S | T | CNOT | SWAP
  | Rz (r : Rot)
  | MAT (data : List ℂ)
  | GlobalPhase (r : Rot)

/-- `MeasurementObject`, builder.rs L271-279 -/
inductive MObj where
  | measurement
  | stochastic
deriving DecidableEq

/-- `BuilderCircuitObjectType`, builder.rs L109-116 -/
inductive ObjType where
  | unitary (u : UObj)
  | meas (m : MObj)

/-- `BuilderCircuitObject`, builder.rs L102-106 -/
structure CObj where
  n : ℕ
  object : ObjType

/-- `Vec<(Vec<usize>, BuilderCircuitObject)>`, builder.rs L24, L817 -/
abbrev Pipeline := List (List ℕ × CObj)

/-! ## The `CircuitBuilder` trait -/

/-- the register part of `CircuitBuilder`, builder_traits.rs L61-110 (required methods) -/
class RegOps (β : Type) where
  nQubits : β → ℕ
  register : ℕ → M β Reg
  mergeTwo : Reg → Reg → M β Reg
  splitRel : Reg → List ℕ → M β SplitResult

section RegOps
variable {β : Type} [RegOps β]
open RegOps

/-- `qubit`, builder_traits.rs L73-75 -/
def qubit : M β Reg := register 1

/-- `qudit`, builder_traits.rs L78-80 -/
def qudit (n : ℕ) : M β (Option Reg) :=
  if n = 0 then pure none else do
    let r ← register n
    pure (some r)

/-- `try_register`, builder_traits.rs L86-88 -/
def tryRegister (n : ℕ) : M β (Option Reg) := qudit n

/-- `merge_registers`, builder_traits.rs L94-102 -/
def mergeRegisters (rs : List Reg) : M β (Option Reg) :=
  rs.foldlM (fun acc r1 =>
    match acc with
    | some r2 => do
      let r ← mergeTwo r2 r1
      pure (some r)
    | none => pure (some r1)) none

/-- `split_register_absolute`, builder_traits.rs L114-128 -/
def splitAbs (r : Reg) (indices : List ℕ) : M β SplitResult :=
  let rRelIndices := indices.filterMap fun absIndex => r.find? (fun i => i == absIndex)
  splitRel r rRelIndices

/-- `split_helper`, builder_traits.rs L224-239. The first argument bounds the recursion depth (one more than the
register size suffices, see `splitAll_eq`). -/
def splitHelper : ℕ → Reg → List Reg → M β (List Reg)
  | 0, _, _ => throw .panic
  | k + 1, r, acc => do
    match ← splitRel r [0] with
    | .selected r => pure (acc ++ [r])
    | .split r0 r => splitHelper k r (acc ++ [r0])
    | .unselected _ => throw .panic

/-- `split_all_register`, builder_traits.rs L131-133 -/
def splitAll (r : Reg) : M β (List Reg) := splitHelper (r.length + 1) r []

/-- `split_first_qubit`, builder_traits.rs L137-143 -/
def splitFirst (r : Reg) : M β (Option Reg × Reg) := do
  match ← splitRel r [0] with
  | .selected r => pure (none, r)
  | .split ra rb => pure (some ra, rb)
  | .unselected _ => throw .panic

/-- `split_last_qubit`, builder_traits.rs L146-153; `n - 1` underflows (panics) for an empty register -/
def splitLast (r : Reg) : M β (Reg × Option Reg) := do
  if r.length = 0 then throw .panic
  match ← splitRel r [r.length - 1] with
  | .selected r => pure (r, none)
  | .split ra rb => pure (rb, some ra)
  | .unselected _ => throw .panic

/-- `rs[i].take().unwrap()` for each `i` in turn: the taken registers and the slots left -/
def takeMany (slots : List (Option Reg)) : List ℕ → Except Fail (List Reg × List (Option Reg))
  | [] => .ok ([], slots)
  | i :: is =>
    match slots[i]? with
    | some (some r) => do
      let (rs, slots) ← takeMany (slots.set i none) is
      .ok (r :: rs, slots)
    | _ => .error .panic

/-- `split_relative_index_groups`, builder_traits.rs L177-202 -/
def splitGroups (r : Reg) (groups : List (List ℕ)) : M β SplitManyResult := do
  let rs ← splitAll r
  let (selected, slots) ← groups.foldlM (fun (acc : List Reg × List (Option Reg)) is => do
    let (subrs, slots) ← liftE (takeMany acc.2 is)
    let m ← mergeRegisters subrs
    pure (acc.1 ++ m.toList, slots)) ([], rs.map some)
  match ← mergeRegisters (slots.filterMap id) with
  | none => pure (.allSelected selected)
  | some r => pure (.remaining selected r)

end RegOps

/-- `CircuitBuilder`, builder_traits.rs L61-222 -/
class CircuitBuilder (β : Type) extends RegOps β where
  applyCO : Reg → CObj → M β Reg

/-! ## `LocalBuilder` -/

/-- `LocalBuilder`, builder.rs L22-28 -/
structure LocalBuilder where
  pipeline : Pipeline
  n : ℕ
  zeroedQubits : List Reg
  measurements : ℕ

/-- `LocalBuilder::default()` (derived), builder.rs L22 -/
def LocalBuilder.default : LocalBuilder := { pipeline := [], n := 0, zeroedQubits := [], measurements := 0 }

/-- `pipeline_depth`, builder.rs L59-61 -/
def LocalBuilder.pipelineDepth (b : LocalBuilder) : ℕ := b.pipeline.length

namespace LocalBuilder

/-- `register`, builder.rs L322-327 -/
def register (n : ℕ) : M LocalBuilder Reg := do
  let b ← get
  let r ← unwrapO (Reg.new (List.range' b.n n))
  modify fun b => { b with n := b.n + n }
  pure r

/-- `merge_two_registers`, builder.rs L329-331 -/
def mergeTwo (r1 r2 : Reg) : M LocalBuilder Reg := unwrapO (Reg.new (r1 ++ r2))

/-- the `filter_map` of builder.rs L341-347: note `i <= len`, so `i = len` panics on `r.indices[i]` -/
def selectIndices (r : Reg) : List ℕ → Option (List ℕ)
  | [] => some []
  | i :: is =>
    if i ≤ r.length then do
      let x ← r[i]?
      let xs ← selectIndices r is
      some (x :: xs)
    else selectIndices r is

/-- `split_register_relative`, builder.rs L333-362 -/
def splitRel (r : Reg) (indices : List ℕ) : M LocalBuilder SplitResult := do
  let sel ← unwrapO (selectIndices r indices)
  let r1 := Reg.new sel
  let rem := r.filter fun oi =>
    match r1 with
    | some r1 => !r1.contains oi
    | none => true
  let r2 := Reg.new rem
  match r1, r2 with
  | some r1, none => pure (.selected r1)
  | none, some r2 => pure (.unselected r2)
  | some r1, some r2 => pure (.split r1 r2)
  | none, none => throw .panic

instance : RegOps LocalBuilder where
  nQubits b := b.n
  register := register
  mergeTwo := mergeTwo
  splitRel := splitRel

/-- `self.pipeline.push((indices, c))` -/
def push (indices : List ℕ) (c : CObj) : M LocalBuilder Unit :=
  modify fun b => { b with pipeline := b.pipeline ++ [(indices, c)] }

/-- `apply_circuit_object`, builder.rs L364-386 -/
def applyCO (r : Reg) (c : CObj) : M LocalBuilder Reg := do
  if c.n = 1 ∨ c.n = r.length then
    if c.n = 1 ∧ r.length > 1 then
      let rs ← splitAll r
      rs.forM fun r => push r c
      let m ← mergeRegisters rs
      unwrapO m
    else
      push r c
      pure r
  else throw .error

instance : CircuitBuilder LocalBuilder where
  applyCO := applyCO

end LocalBuilder

end Verif
