import Verif.Spec.Nest
import Verif.Model.Arith
import Verif.Spec.Wave
import Verif.Spec.Matrix
import Verif.Spec.History
import Mathlib.Data.ENNReal.Basic

/-!
# Specification: programs using the library

A program owns registers, makes builders with conditions (`condition_with`), works with them and gives them up again
(`dissolve`). In between it calls the methods and functions of the library, its own functions, `program!` and the
functions generated by `#[invert]`.
-/

namespace Verif
open RegOps CircuitBuilder

/-- the methods and functions of the library that every builder has (those that take a matrix are listed separately for every
size of the register; a program that does not look at the size is a choice between them) -/
inductive Method where
  | register (n : ℕ) | qudit (n : ℕ)
  | merge | mergeMany
  | split (idx : List ℕ) | splitAbs (idx : List ℕ) | splitAll | splitFirst | splitLast | splitGroups (groups : List (List ℕ))
  | object (c : CObj) | vecMatrix (n : ℕ) (data : List ℂ) | matrix (n : ℕ) (data : List ℂ) | broadcast (n : ℕ) (data : List ℂ)
  | named (g : Named)
  | cnot | swap | basicToffoli | toffoli
  | rz (θ : ℝ) | rx (θ : ℝ) | ry (θ : ℝ)
  | rzRatio (q : ℚ) | rxRatio (q : ℚ) | ryRatio (q : ℚ)
  | rzPiBy (m : ℤ) | rxPiBy (m : ℤ) | ryPiBy (m : ℤ)
  | makeTemp | makeTempRegister (n : ℕ) | returnTemp
  | tryCond (c : CObj)
  | subcircuit (sc : Pipeline) | invertedSubcircuit (sc : Pipeline) | conditionedSubcircuit (sc : Pipeline)
  | negateBitmask (mask : ℕ)
  | qfft
  | sum | carry | carryInv | add | addInv | addMod | addModInv | rshift | lshift | copy | copyInv
  | timesMod | timesModInv | squareMod | squareModInv | expMod | expModInv

/-- the call, from the registers moved in to the registers handed out; another number of registers is rejected by the
Rust compiler -/
noncomputable def Method.run {β : Type} [Recursive β] : Method → List Reg → M β (List Reg)
  | .register n, [] => do let r ← RegOps.register n; pure [r]
  | .qudit n, [] => do let r ← Verif.qudit n; pure r.toList
  | .merge, [a, b] => do let r ← RegOps.mergeTwo a b; pure [r]
  | .mergeMany, rs => do let r ← mergeRegisters rs; pure r.toList
  | .split idx, [r] => do let x ← RegOps.splitRel r idx; pure x.regs
  | .splitAbs idx, [r] => do let x ← Verif.splitAbs r idx; pure x.regs
  | .splitAll, [r] => Verif.splitAll r
  | .splitFirst, [r] => do let x ← Verif.splitFirst r; pure (x.1.toList ++ [x.2])
  | .splitLast, [r] => do let x ← Verif.splitLast r; pure (x.1 :: x.2.toList)
  | .splitGroups groups, [r] => do let x ← Verif.splitGroups r groups; pure x.regs
  | .object c, [r] => do let r ← applyCO r c; pure [r]
  | .vecMatrix n data, [r] => if r.length = n then do let r ← applyVecMatrix r data; pure [r] else throw .panic
  | .matrix n data, [r] => if r.length = n then do let r ← applyMatrix r data; pure [r] else throw .panic
  | .broadcast n data, [r] => if r.length = n then do let r ← broadcastSingleQubitMatrix r data; pure [r] else throw .panic
  | .named g, [r] => do let r ← g.runOn r; pure [r]
  | .cnot, [c, r] => do let p ← Verif.cnot c r; pure [p.1, p.2]
  | .swap, [a, b] => do let p ← Verif.swap a b; pure [p.1, p.2]
  | .basicToffoli, [c, r] => do let p ← Verif.basicToffoli c r; pure [p.1, p.2]
  | .toffoli, [c, r] => do let p ← Verif.toffoli c r; pure [p.1, p.2]
  | .rz θ, [r] => do let r ← Rotations.rz r θ; pure [r]
  | .rx θ, [r] => do let r ← Rotations.rx r θ; pure [r]
  | .ry θ, [r] => do let r ← Rotations.ry r θ; pure [r]
  | .rzRatio q, [r] => do let r ← Rotations.rzRatio r q; pure [r]
  | .rxRatio q, [r] => do let r ← Rotations.rxRatio r q; pure [r]
  | .ryRatio q, [r] => do let r ← Rotations.ryRatio r q; pure [r]
  | .rzPiBy m, [r] => do let r ← Rotations.rzPiBy r m; pure [r]
  | .rxPiBy m, [r] => do let r ← Rotations.rxPiBy r m; pure [r]
  | .ryPiBy m, [r] => do let r ← Rotations.ryPiBy r m; pure [r]
  | .makeTemp, [] => do let r ← TempBuilder.makeTempQubit; pure [r]
  | .makeTempRegister n, [] => do let r ← Verif.makeTempRegister n; pure [r]
  | .returnTemp, [r] => do TempBuilder.returnTemp r; pure []
  | .tryCond c, [cr, r] => do let p ← Conditionable.tryCond cr r c; pure [p.1, p.2]
  | .subcircuit sc, [r] => do let r ← Recursive.applySub sc r; pure [r]
  | .invertedSubcircuit sc, [r] => do let r ← applyInverted sc r; pure [r]
  | .conditionedSubcircuit sc, [cr, r] => do let p ← Recursive.applyCondSub sc cr r; pure [p.1, p.2]
  | .negateBitmask mask, [r] => do let r ← Verif.negateBitmask r mask; pure [r]
  | .qfft, [r] => do let r ← Verif.qfft r; pure [r]
  | .sum, rs => Arith.sum rs
  | .carry, rs => Arith.carry rs
  | .carryInv, rs => Arith.carryInv rs
  | .add, rs => Arith.add rs
  | .addInv, rs => Arith.addInv rs
  | .addMod, rs => Arith.addMod rs
  | .addModInv, rs => Arith.addModInv rs
  | .rshift, rs => Arith.rshift rs
  | .lshift, rs => Arith.lshift rs
  | .copy, rs => Arith.copy rs
  | .copyInv, rs => Arith.copyInv rs
  | .timesMod, rs => Arith.timesMod rs
  | .timesModInv, rs => Arith.timesModInv rs
  | .squareMod, rs => Arith.squareMod rs
  | .squareModInv, rs => Arith.squareModInv rs
  | .expMod, rs => Arith.expMod rs
  | .expModInv, rs => Arith.expModInv rs
  | _, _ => throw .panic

/-- no index list given to a split names a position twice -/
def Method.NoRepeat : Method → Prop
  | .split idx | .splitAbs idx => idx.Nodup
  | _ => True

/-- the circuit objects a program brings in with a call -/
def Method.objects : Method → List CObj
  | .object c => [c]
  | .vecMatrix n data | .matrix n data | .broadcast n data => [⟨n, .unitary (.MAT data)⟩]
  | .subcircuit sc | .invertedSubcircuit sc | .conditionedSubcircuit sc => sc.map Prod.snd
  | _ => []

/-- the methods that only a builder without conditions has -/
inductive LocalMethod where
  | measure | measureStochastic
  | globalPhase (θ : ℝ) | globalPhaseRatio (q : ℚ) | globalPhasePiBy (m : ℤ)

/-- the call -/
def LocalMethod.run : LocalMethod → List Reg → M LocalBuilder (List Reg)
  | .measure, [r] => do let p ← LocalBuilder.measure r; pure [p.1]
  | .measureStochastic, [r] => do let p ← LocalBuilder.measureStochastic r; pure [p.1]
  | .globalPhase θ, [r] => do let r ← LocalBuilder.applyGlobalPhase r θ; pure [r]
  | .globalPhaseRatio q, [r] => do let r ← LocalBuilder.applyGlobalPhaseRatio r q; pure [r]
  | .globalPhasePiBy m, [r] => do let r ← LocalBuilder.applyGlobalPhasePiBy r m; pure [r]
  | _, _ => throw .panic

/-- functions a program can be made of, for builders inside `k` conditions; `ok` says which circuit objects it brings in
itself -/
inductive Client (ok : CObj → Prop) : (k : ℕ) → (List Reg → M (NB k) (List Reg)) → Prop where
  /-- a method or function of the library -/
  | method {k} (m : Method) : m.NoRepeat → (∀ c ∈ m.objects, ok c) → Client ok k m.run
  /-- a method of builders without conditions -/
  | onLocal (m : LocalMethod) : Client ok 0 m.run
  /-- reordering and dropping registers -/
  | keep {k} (σ : List Reg → List Reg) : (∀ rs, (σ rs).Subperm rs) → Client ok k fun rs => pure (σ rs)
  /-- one function after the other -/
  | seq {k f g} : Client ok k f → Client ok k g → Client ok k fun rs => f rs >>= g
  /-- a function called with some of the registers -/
  | on {k f} (σ : List Reg → List Reg × List Reg) : (∀ rs, ((σ rs).1 ++ (σ rs).2).Perm rs) → Client ok k f →
      Client ok k fun rs => do
        let out ← f (σ rs).1
        pure (out ++ (σ rs).2)
  /-- a choice between functions, made looking at the builder and the registers (loops come from using it repeatedly) -/
  | choose {k} {ι : Type} {F : ι → List Reg → M (NB k) (List Reg)} (c : NB k → List Reg → ι) : (∀ i, Client ok k (F i)) →
      Client ok k fun rs s => F (c s rs) rs s
  /-- going on after an `Err`: the registers moved into the call are gone -/
  | recover {k f g} : Client ok k f → Client ok k g → Client ok k fun rs s =>
      match f rs s with
      | .error .error s' => g [] s'
      | r => r
  /-- `condition_with` the first register, a function on the others, `dissolve` -/
  | cond {k f} : Client ok (k + 1) f → Client ok k fun rs =>
      match rs with
      | cr :: rs => do
        let p ← Conditioned.conditioned (β := NB k) cr (f rs)
        pure (p.2 :: p.1)
      | [] => throw .panic
  /-- `program!` -/
  | prog {k} (lines : List (Line (NB k))) : (∀ f gs, Line.plain f gs ∈ lines → Client ok k f) →
      (∀ mask f gs, Line.control mask f gs ∈ lines → Client ok (k + 1) f) → Client ok k fun rs => program rs lines
  /-- the function made by `#[invert]` -/
  | invert {k f} : Client ok 0 f → Client ok k (invertFn f)
  /-- `inverter` -/
  | inverter {k f} : Client ok 0 f → Client ok k fun rs => inverter rs f

/-- circuit objects a program may bring in without harm: the fitting ones, matrices being unitary; rotations may be for several
qubits, as those the library makes itself -/
def Apt (c : CObj) : Prop :=
  ∀ u, c.object = .unitary u → (∃ ρ, u = .Rz ρ) ∨
    (u.Shape c.n ∧ ∀ data, u = .MAT data → IsUnitary c.n fun i j => (data[i * 2 ^ c.n + j]?).getD 0)

/-- the condition registers held by a builder inside `k` conditions -/
def NB.conds : (k : ℕ) → NB k → List Reg
  | 0, _ => []
  | k + 1, s => (Conditioned.cr (β := NB k) s).toList ++ NB.conds k (Conditioned.parent (β := NB k) s)

/-- a circuit element on distinct allocated qubits, as many as its object is made for -/
def Placed (n : ℕ) (e : List ℕ × CObj) : Prop :=
  e.1 ≠ [] ∧ e.1.Nodup ∧ (∀ q ∈ e.1, q < n) ∧ e.2.n = e.1.length

/-- what a program that owns the registers `L` can rely on: its registers, the conditions and the pool of temporaries share no
qubit, none is empty or holds a qubit twice, all qubits are allocated, and so are those of the circuit -/
structure Sound (k : ℕ) (s : NB k) (L : List Reg) : Prop where
  own : Own (Rooted.root s) (NB.conds k s ++ L).flatten
  nonempty : ∀ r ∈ NB.conds k s ++ L, r ≠ []
  placed : ∀ e ∈ (Rooted.root s).pipeline, Placed (Rooted.root s).n e

/-- the states a program can reach from a builder inside `k₀` conditions and registers `live₀`: the builder it works with then and
the registers it owns -/
inductive Onward (ok : CObj → Prop) (k₀ : ℕ) (s₀ : NB k₀) (live₀ : List Reg) : (k : ℕ) → NB k → List Reg → Prop where
  | start : Onward ok k₀ s₀ live₀ k₀ s₀ live₀
  | ok {k s s' live rest rs out f} : Onward ok k₀ s₀ live₀ k s live → Client ok k f → live.Perm (rs ++ rest) →
      f rs s = .ok out s' → Onward ok k₀ s₀ live₀ k s' (out ++ rest)
  | err {k s s' live rest rs f} : Onward ok k₀ s₀ live₀ k s live → Client ok k f → live.Perm (rs ++ rest) →
      f rs s = .error .error s' → Onward ok k₀ s₀ live₀ k s' rest
  | drop {k s live rest r} : Onward ok k₀ s₀ live₀ k s live → live.Perm (r :: rest) → Onward ok k₀ s₀ live₀ k s rest
  /-- `condition_with` -/
  | condition {k s live rest r} : Onward ok k₀ s₀ live₀ k s live → live.Perm (r :: rest) →
      Onward ok k₀ s₀ live₀ (k + 1) (⟨s, some r⟩ : Conditioned (NB k)) rest
  /-- `dissolve` -/
  | dissolve {k} {s : Conditioned (NB k)} {live r} : Onward ok k₀ s₀ live₀ (k + 1) s live → s.cr = some r →
      Onward ok k₀ s₀ live₀ k s.parent (r :: live)
  /-- the conditioned builder goes out of scope -/
  | abandon {k} {s : Conditioned (NB k)} {live} : Onward ok k₀ s₀ live₀ (k + 1) s live → Onward ok k₀ s₀ live₀ k s.parent live

/-- the states a program can reach from a new builder -/
abbrev Session (ok : CObj → Prop) : (k : ℕ) → NB k → List Reg → Prop := Onward ok 0 LocalBuilder.default []

/-- calling `f` with the registers `rs` leaves the builder as `s'`, having succeeded or returned an `Err` -/
def Leaves {k : ℕ} (f : List Reg → M (NB k) (List Reg)) (rs : List Reg) (s s' : NB k) : Prop :=
  (∃ out, f rs s = .ok out s') ∨ f rs s = .error .error s'

/-- circuit objects that do not measure -/
def NotMeas (c : CObj) : Prop := ∀ o, c.object ≠ .meas o

/-- gates as in the textbook: rotations of single qubits, no global phase, no stochastic measurement (see C34, C43, C97) -/
def Textbook (e : List ℕ × CObj) : Prop :=
  (∀ ρ, e.2.object = .unitary (.Rz ρ) → e.1.length = 1) ∧ (∀ ρ, e.2.object ≠ .unitary (.GlobalPhase ρ)) ∧
    e.2.object ≠ .meas .stochastic

/-- the sum of `F` over the outcomes of the measurements in `p` -/
noncomputable def sumOutcomes : Pipeline → (List ℕ → ENNReal) → ENNReal
  | [], F => F []
  | e :: p, F => if isMeas e then ∑ m ∈ Finset.range (2 ^ e.1.length), sumOutcomes p fun ms => F (m :: ms) else sumOutcomes p F

end Verif
