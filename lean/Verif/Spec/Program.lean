import Verif.Model.Program
import Verif.Spec.Registers
import Verif.Spec.Wave

/-!
# Specification: which qubits a `program!` line selects
-/

namespace Verif

/-- the qubit at position `p.2` of register number `p.1` -/
def qubitAt (rs : List Reg) (p : ℕ × ℕ) : ℕ := (rs.getD p.1 []).getD p.2 0

/-- the positions a selector stands for: the written indices of its register, or all of them -/
def selPos (rs : List Reg) (s : Sel) : List (ℕ × ℕ) :=
  (match s.2 with
    | some is => is
    | none => List.range (rs.getD s.1 []).length).map fun i => (s.1, i)

/-- the positions of a group of selectors, in the written order -/
def groupPos (rs : List Reg) (g : List Sel) : List (ℕ × ℕ) := g.flatMap (selPos rs)

/-- the register a group of selectors stands for -/
def groupReg (rs : List Reg) (g : List Sel) : Reg := (groupPos rs g).map (qubitAt rs)

/-- the position exists -/
def HasPos (rs : List Reg) (p : ℕ × ℕ) : Prop := p.1 < rs.length ∧ p.2 < (rs.getD p.1 []).length

/-- a well-formed list of groups: existing registers and positions, every position at most once, no empty group -/
structure ValidGroups (rs : List Reg) (gs : List (List Sel)) : Prop where
  ne : ∀ g ∈ gs, groupPos rs g ≠ []
  nodup : (gs.flatMap (groupPos rs)).Nodup
  reg : ∀ g ∈ gs, ∀ s ∈ g, s.1 < rs.length
  pos : ∀ p ∈ gs.flatMap (groupPos rs), HasPos rs p

/-- all qubits of the registers in place -/
def full (rs : List Reg) : Slots := rs.map fun r => r.map fun q => some [q]

/-- the qubits of `r` whose bit in the mask is 0 flipped; qubit `k` of the register belongs to bit `k` -/
def negMask (r : Reg) (m : ℕ) (x : Asg) : Asg := fun q => if q ∈ r ∧ m.testBit (r.idxOf q) = false then !x q else x q

section
variable {β : Type} [Conditionable β]

/-- what a line asks for: a call with the registers its groups stand for; with `control` the first one is a condition,
and with a bit mask it is negated before and after -/
def Line.call (rs : List Reg) : Line β → M β (List Reg)
  | .plain f gs => f (gs.map (groupReg rs))
  | .control mask f gs =>
    match gs.map (groupReg rs) with
    | [] => throw .panic
    | cr :: rs => do
      let cr ← match mask with
        | some m => negateBitmask cr m
        | none => pure cr
      let (rs, cr) ← Conditioned.conditioned cr (f rs)
      let cr ← match mask with
        | some m => negateBitmask cr m
        | none => pure cr
      pure (cr :: rs)

/-- the calls of the lines one after the other lead from `s` to `s'`, each giving back the registers it got -/
def Runs (rs : List Reg) : List (Line β) → β → β → Prop
  | [], s, s' => s' = s
  | l :: ls, s, s' => ∃ s1, l.call rs s = .ok (l.groups.map (groupReg rs)) s1 ∧ Runs rs ls s1 s'

end

end Verif
