import Verif.Model.Gates
import Verif.Spec.Clean

/-!
# Specification: histories of builder calls

A program using the builder owns some registers. A call consumes registers (they are moved into it) and hands out
new ones. A call that returns `Err` has consumed its registers as well. Panicking ends the program.
-/

namespace Verif

/-- gates on one register -/
inductive Named where
  | x | y | z | h | s | t | sDagger | tDagger
deriving DecidableEq

/-- the gate methods -/
def Named.run : Named → Reg → M LocalBuilder Reg
  | .x => Gate.x | .y => Gate.y | .z => Gate.z | .h => Gate.h | .s => Gate.s | .t => Gate.t
  | .sDagger => Verif.sDagger | .tDagger => Verif.tDagger

/-- calls of builder methods -/
inductive Call where
  | register (n : ℕ)
  | merge (a b : Reg)
  | mergeMany (rs : List Reg)
  | split (r : Reg) (idx : List ℕ)
  | splitAbs (r : Reg) (idx : List ℕ)
  | splitAll (r : Reg)
  | splitFirst (r : Reg)
  | splitLast (r : Reg)
  | splitGroups (r : Reg) (groups : List (List ℕ))
  | object (r : Reg) (c : CObj)
  | named (g : Named) (r : Reg)
  | cnot (c r : Reg)
  | swap (a b : Reg)
  | basicToffoli (c r : Reg)
  | toffoli (c r : Reg)
  | rz (r : Reg) (θ : ℝ)
  | rx (r : Reg) (θ : ℝ)
  | ry (r : Reg) (θ : ℝ)
  | rzPiBy (r : Reg) (m : ℤ)
  | globalPhase (r : Reg) (θ : ℝ)
  | measure (r : Reg)
  | measureStochastic (r : Reg)
  | makeTemp
  | returnTemp (r : Reg)

/-- the registers moved into the call -/
def Call.args : Call → List Reg
  | .register _ => []
  | .merge a b => [a, b]
  | .mergeMany rs => rs
  | .cnot a b | .swap a b | .basicToffoli a b | .toffoli a b => [a, b]
  | .makeTemp => []
  | .split r _ | .splitAbs r _ | .splitAll r | .splitFirst r | .splitLast r | .splitGroups r _ | .object r _
  | .named _ r | .rz r _ | .rx r _ | .ry r _ | .rzPiBy r _ | .globalPhase r _ | .measure r | .measureStochastic r
  | .returnTemp r => [r]

/-- the registers in a `SplitResult` -/
def SplitResult.regs : SplitResult → List Reg
  | .selected r => [r]
  | .unselected r => [r]
  | .split a b => [a, b]

/-- the registers in a `SplitManyResult` -/
def SplitManyResult.regs : SplitManyResult → List Reg
  | .allSelected rs => rs
  | .remaining rs r => rs ++ [r]

/-- the call, with the registers it hands out -/
noncomputable def Call.run : Call → M LocalBuilder (List Reg)
  | .register n => do let r ← RegOps.register n; pure [r]
  | .merge a b => do let r ← RegOps.mergeTwo a b; pure [r]
  | .mergeMany rs => do let r ← mergeRegisters rs; pure r.toList
  | .split r idx => do let s ← RegOps.splitRel r idx; pure s.regs
  | .splitAbs r idx => do let s ← Verif.splitAbs r idx; pure s.regs
  | .splitAll r => Verif.splitAll r
  | .splitFirst r => do let s ← Verif.splitFirst r; pure (s.1.toList ++ [s.2])
  | .splitLast r => do let s ← Verif.splitLast r; pure (s.1 :: s.2.toList)
  | .splitGroups r groups => do let s ← Verif.splitGroups r groups; pure s.regs
  | .object r c => do let r ← CircuitBuilder.applyCO r c; pure [r]
  | .named g r => do let r ← g.run r; pure [r]
  | .cnot c r => do let p ← Verif.cnot c r; pure [p.1, p.2]
  | .swap a b => do let p ← Verif.swap a b; pure [p.1, p.2]
  | .basicToffoli c r => do let p ← Verif.basicToffoli c r; pure [p.1, p.2]
  | .toffoli c r => do let p ← Verif.toffoli c r; pure [p.1, p.2]
  | .rz r θ => do let r ← Rotations.rz r θ; pure [r]
  | .rx r θ => do let r ← Rotations.rx r θ; pure [r]
  | .ry r θ => do let r ← Rotations.ry r θ; pure [r]
  | .rzPiBy r m => do let r ← Rotations.rzPiBy r m; pure [r]
  | .globalPhase r θ => do let r ← LocalBuilder.applyGlobalPhase r θ; pure [r]
  | .measure r => do let p ← LocalBuilder.measure r; pure [p.1]
  | .measureStochastic r => do let p ← LocalBuilder.measureStochastic r; pure [p.1]
  | .makeTemp => do let r ← TempBuilder.makeTempQubit; pure [r]
  | .returnTemp r => do TempBuilder.returnTemp r; pure []

/-- the states a program can reach with allowed calls: the builder and the registers the program owns -/
inductive Hist (allowed : Call → Prop) : LocalBuilder → List Reg → Prop where
  | start : Hist allowed LocalBuilder.default []
  | ok {s s' live rest out} (c : Call) : Hist allowed s live → allowed c → live.Perm (c.args ++ rest) →
      c.run s = .ok out s' → Hist allowed s' (out ++ rest)
  | err {s s' live rest} (c : Call) : Hist allowed s live → allowed c → live.Perm (c.args ++ rest) →
      c.run s = .error .error s' → Hist allowed s' rest
  | drop {s live rest r} : Hist allowed s live → live.Perm (r :: rest) → Hist allowed s rest

/-- the states a program can reach from a given one with allowed calls -/
inductive Later (allowed : Call → Prop) (s0 : LocalBuilder) (live0 : List Reg) : LocalBuilder → List Reg → Prop where
  | start : Later allowed s0 live0 s0 live0
  | ok {s s' live rest out} (c : Call) : Later allowed s0 live0 s live → allowed c → live.Perm (c.args ++ rest) →
      c.run s = .ok out s' → Later allowed s0 live0 s' (out ++ rest)
  | err {s s' live rest} (c : Call) : Later allowed s0 live0 s live → allowed c → live.Perm (c.args ++ rest) →
      c.run s = .error .error s' → Later allowed s0 live0 s' rest
  | drop {s live rest r} : Later allowed s0 live0 s live → live.Perm (r :: rest) → Later allowed s0 live0 s rest

/-- no index list given to a split names a position twice -/
def Call.NoRepeat : Call → Prop
  | .split _ idx | .splitAbs _ idx => idx.Nodup
  | _ => True

/-- gate objects have the size they are declared with, and rotations are applied to single qubits (the code accepts
them on larger registers, but panics when the state is calculated, see C34) -/
def Call.Sized : Call → Prop
  | .object _ c => ∃ u, c.object = .unitary u ∧ u.Shape c.n
  | .rz r _ | .rx r _ | .ry r _ | .rzPiBy r _ => r.length = 1
  | _ => True

/-- calls adding gates other than global phases, or nothing -/
def Call.Gates : Call → Prop
  | .object _ c => ∀ ρ, c.object ≠ .unitary (.GlobalPhase ρ)
  | .globalPhase _ _ | .measure _ | .measureStochastic _ => False
  | _ => True

/-- is a circuit element a measurement -/
def isMeas (e : List ℕ × CObj) : Bool :=
  match e.2.object with
  | .meas _ => true
  | .unitary _ => false

/-- the number of measurements in a circuit -/
def measCount (p : Pipeline) : ℕ := p.countP isMeas

end Verif
