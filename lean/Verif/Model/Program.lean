import Verif.Model.Sub

/-!
# The `program!` macro

Models `negate_bitmask` (`qip/src/macros/program.rs` L6-22) and the code that `program!` generates
(`qip-macros/src/lib.rs` L92-354): an interpreter for the lines of a program. The variables bound by the generated code
are the lists of optional qubits `slots`, numbered in the order of the register list. That a program names registers
that exist and calls functions with the right number of registers is checked by the Rust compiler; here a violation is
a panic.
-/

namespace Verif
open RegOps CircuitBuilder

/-- `negate_bitmask`, macros/program.rs L6-22 (`u64` masks: the shift `>> 1` is division by 2) -/
def negateBitmask {β : Type} [CliffordT β] (r : Reg) (mask : ℕ) : M β Reg := do
  let rs ← splitAll r
  let p ← rs.foldlM (fun (acc : List Reg × ℕ) qubit => do
    let lowest := acc.2 &&& 1
    let qubit ← if lowest = 0 then Gate.not qubit else pure qubit
    pure (acc.1 ++ [qubit], acc.2 >>> 1)) ([], mask)
  let m ← mergeRegisters p.1
  unwrapO m

/-- one register of a line with its optional indices, lib.rs L214, L222-228 -/
abbrev Sel := ℕ × Option (List ℕ)

/-- a line of a program, lib.rs L140-214 -/
inductive Line (β : Type) where
  | plain (f : List Reg → M β (List Reg)) (groups : List (List Sel))
  | control (mask : Option ℕ) (f : List Reg → M (Conditioned β) (List Reg)) (groups : List (List Sel))

/-- the groups of registers of a line -/
def Line.groups {β : Type} : Line β → List (List Sel)
  | .plain _ g => g
  | .control _ _ g => g

/-- the variables of the generated code: for each register of the program its qubits, taken ones being `None` -/
abbrev Slots := List (List (Option Reg))

/-- the indices a selector stands for: those written, or `0..r.len()`, lib.rs L223-227, L304-308 -/
def Sel.indices (slots : Slots) (s : Sel) : Except Fail (List ℕ) :=
  match slots[s.1]? with
  | none => .error .panic
  | some r =>
    match s.2 with
    | some is => .ok is
    | none => .ok (List.range r.length)

/-- take the qubits of one selector, lib.rs L222-228 -/
def takeSel (slots : Slots) (s : Sel) : Except Fail (List Reg × Slots) := do
  let is ← s.indices slots
  match slots[s.1]? with
  | none => .error .panic
  | some r => do
    let (qs, r) ← takeMany r is
    .ok (qs, slots.set s.1 r)

/-- the chained iterators of one group, lib.rs L222-228 -/
def takeSels : Slots → List Sel → Except Fail (List Reg × Slots)
  | slots, [] => .ok ([], slots)
  | slots, s :: ss => do
    let (qs, slots) ← takeSel slots s
    let (qs', slots) ← takeSels slots ss
    .ok (qs ++ qs', slots)

/-- pull the registers of a line out, lib.rs L218-238 -/
def pullGroups {β : Type} [RegOps β] : Slots → List (List Sel) → M β (List Reg × Slots)
  | slots, [] => pure ([], slots)
  | slots, g :: gs => do
    let (qs, slots) ← liftE (takeSels slots g)
    let m ← mergeRegisters qs
    let r ← unwrapO m
    let (rs, slots) ← pullGroups slots gs
    pure (r :: rs, slots)

/-- `for i in s { r[i] = reg[index].take(); index += 1; }`, lib.rs L310-316: out of range is a panic -/
def putIndices : List (Option Reg) → List (Option Reg) → List ℕ → Except Fail (List (Option Reg) × List (Option Reg))
  | slot, reg, [] => .ok (slot, reg)
  | slot, reg, i :: is =>
    match reg with
    | [] => .error .panic
    | q :: reg => if i < slot.length then putIndices (slot.set i q) reg is else .error .panic

/-- put the qubits of one group back, lib.rs L303-317 -/
def putSels : Slots → List (Option Reg) → List Sel → Except Fail Slots
  | slots, _, [] => .ok slots
  | slots, reg, s :: ss => do
    let is ← s.indices slots
    match slots[s.1]? with
    | none => .error .panic
    | some slot => do
      let (slot, reg) ← putIndices slot reg is
      putSels (slots.set s.1 slot) reg ss

/-- put the registers of a line back, lib.rs L298-319 -/
def putGroups {β : Type} [RegOps β] : Slots → List Reg → List (List Sel) → M β Slots
  | slots, _, [] => pure slots
  | _, [], _ :: _ => throw .panic
  | slots, r :: rs, g :: gs => do
    let qs ← splitAll r
    let slots ← liftE (putSels slots (qs.map some) g)
    putGroups slots rs gs

/-- one line, lib.rs L218-319 -/
def runLine {β : Type} [Conditionable β] (slots : Slots) (l : Line β) : M β Slots := do
  let (rs, slots) ← pullGroups slots l.groups
  match l with
  | .plain f gs => do
    let rs ← f rs
    putGroups slots rs gs
  | .control mask f gs =>
    match rs with
    | [] => throw .panic
    | cr :: rs => do
      let cr ← match mask with
        | some m => negateBitmask cr m
        | none => pure cr
      let (rs, cr) ← Conditioned.conditioned cr (f rs)
      let cr ← match mask with
        | some m => negateBitmask cr m
        | none => pure cr
      putGroups slots (cr :: rs) gs

/-- `r.into_iter().flat_map(|r| r)` merged and unwrapped, lib.rs L326-329 -/
def mergeSlots {β : Type} [RegOps β] : Slots → M β (List Reg)
  | [] => pure []
  | slot :: slots => do
    let m ← mergeRegisters (slot.filterMap id)
    let r ← unwrapO m
    let rs ← mergeSlots slots
    pure (r :: rs)

/-- `program!`, lib.rs L93-353 -/
def program {β : Type} [Conditionable β] (rs : List Reg) (lines : List (Line β)) : M β (List Reg) := do
  let slots ← rs.mapM fun r => splitAll r
  let slots ← lines.foldlM runLine (slots.map fun qs => qs.map some)
  mergeSlots slots

/-! ## `program_ops` -/

/-- the wrappers `x`, `h`, … of `qip/src/macros/program_ops.rs` L5-25 -/
def op1 {β : Type} (g : Reg → M β Reg) : List Reg → M β (List Reg)
  | [r] => do
    let r ← g r
    pure [r]
  | _ => throw .panic

/-- the wrappers `cnot` and `toffoli` of `qip/src/macros/program_ops.rs` L26-41 -/
def op2 {β : Type} (g : Reg → Reg → M β (Reg × Reg)) : List Reg → M β (List Reg)
  | [a, b] => do
    let (a, b) ← g a b
    pure [a, b]
  | _ => throw .panic

end Verif
