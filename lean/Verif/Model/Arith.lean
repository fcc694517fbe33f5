import Verif.Model.Program

/-!
# Arithmetic circuits and the Fourier transform

Models `qip/src/boolean_circuits/arithmetic.rs` and `qip/src/qfft.rs`. A function of several registers takes and
returns a list of registers; a wrong number of registers cannot happen in Rust and is a panic here. The functions
`f_inv` are generated by `#[invert]` (`invertFn`).
-/

namespace Verif
open RegOps CircuitBuilder TempBuilder

section
variable {β : Type} [Recursive β]

/-- `sum`, arithmetic.rs L61-71 -/
def Arith.sum : List Reg → M β (List Reg)
  | [rc, ra, rb] => program [rc, ra, rb]
    [.control none (op1 Gate.x) [[(1, none)], [(2, none)]],
     .control none (op1 Gate.x) [[(0, none)], [(2, none)]]]
  | _ => throw .panic

/-- `carry`, arithmetic.rs L73-89 -/
def Arith.carry : List Reg → M β (List Reg)
  | [rc, ra, rb, rcp] => program [rc, ra, rb, rcp]
    [.control none (op1 Gate.x) [[(1, none), (2, none)], [(3, none)]],
     .control none (op1 Gate.x) [[(1, none)], [(2, none)]],
     .control none (op1 Gate.x) [[(0, none), (2, none)], [(3, none)]],
     .control none (op1 Gate.x) [[(1, none)], [(2, none)]]]
  | _ => throw .panic

/-- `carry_inv`, arithmetic.rs L73 -/
noncomputable def Arith.carryInv : List Reg → M β (List Reg) := invertFn Arith.carry

/-- `add`, arithmetic.rs L29-59; the first argument bounds the recursion depth (the size of `rc` suffices) -/
noncomputable def Arith.addF : ℕ → List Reg → M β (List Reg)
  | 0, _ => throw .panic
  | k + 1, [rc, ra, rb] =>
    if rc.length = 1 ∧ ra.length = 1 ∧ rb.length = 2 then
      program [rc, ra, rb]
        [.plain Arith.carry [[(0, none)], [(1, none)], [(2, some [0])], [(2, some [1])]],
         .plain Arith.sum [[(0, none)], [(1, none)], [(2, some [0])]]]
    else if rc.length = ra.length ∧ rc.length + 1 = rb.length then
      let n := rc.length
      program [rc, ra, rb]
        [.plain Arith.carry [[(0, some [0])], [(1, some [0])], [(2, some [0])], [(0, some [1])]],
         .plain (Arith.addF k) [[(0, some (List.range' 1 (n - 1)))], [(1, some (List.range' 1 (n - 1)))],
           [(2, some (List.range' 1 n))]],
         .plain Arith.carryInv [[(0, some [0])], [(1, some [0])], [(2, some [0])], [(0, some [1])]],
         .plain Arith.sum [[(0, some [0])], [(1, some [0])], [(2, some [0])]]]
    else throw .error
  | _ + 1, _ => throw .panic

/-- `add`, arithmetic.rs L29-59 -/
noncomputable def Arith.add (rs : List Reg) : M β (List Reg) := Arith.addF ((rs.headD []).length + 1) rs

/-- `add_inv`, arithmetic.rs L29 -/
noncomputable def Arith.addInv : List Reg → M β (List Reg) := invertFn Arith.add

/-- `add_mod`, arithmetic.rs L91-132 -/
noncomputable def Arith.addMod : List Reg → M β (List Reg)
  | [ra, rb, rm] =>
    if ra.length ≠ rm.length then throw .error
    else if rb.length ≠ ra.length + 1 then throw .error
    else do
      let n := ra.length
      let rt ← makeTempQubit
      let rc ← makeTempRegister n
      let rs ← program [ra, rb, rm, rt, rc]
        [.plain Arith.add [[(4, none)], [(0, none)], [(1, none)]],
         .plain Arith.addInv [[(4, none)], [(2, none)], [(1, none)]],
         .control none (op1 Gate.x) [[(1, some [n])], [(3, none)]],
         .control none Arith.add [[(3, none)], [(4, none)], [(2, none)], [(1, none)]],
         .plain Arith.addInv [[(4, none)], [(0, none)], [(1, none)]],
         .control (some 0) (op1 Gate.x) [[(1, some [n])], [(3, none)]],
         .plain Arith.add [[(4, none)], [(0, none)], [(1, none)]]]
      match rs with
      | [ra, rb, rm, rt, rc] => do
        returnTemp rt
        returnTemp rc
        pure [ra, rb, rm]
      | _ => throw .panic
  | _ => throw .panic

/-- the loop of `rshift` over `(0..n-1).rev()`, arithmetic.rs L204-215; `indx - 1` modulo `n` -/
def Arith.rshiftStep (n : ℕ) (rs : List (Option Reg)) (indx : ℕ) : M β (List (Option Reg)) := do
  let ra ← unwrapO (rs[indx]?.join)
  let rs := rs.set indx none
  let offset := if indx = 0 then n - 1 else indx - 1
  let rb ← unwrapO (rs[offset]?.join)
  let rs := rs.set offset none
  let (ra, rb) ← unwrapM (swap ra rb)
  pure ((rs.set indx (some ra)).set offset (some rb))

/-- `rshift`, arithmetic.rs L195-218 -/
def Arith.rshift : List Reg → M β (List Reg)
  | [r] => do
    let n := r.length
    let rs ← splitAll r
    if n = 0 then throw .panic
    let rs ← (List.range (n - 1)).reverse.foldlM (Arith.rshiftStep n) (rs.map some)
    let m ← mergeRegisters (rs.filterMap id)
    let r ← unwrapO m
    pure [r]
  | _ => throw .panic

/-- `lshift`, arithmetic.rs L196 -/
noncomputable def Arith.lshift : List Reg → M β (List Reg) := invertFn Arith.rshift

/-- `copy`, arithmetic.rs L220-250 -/
def Arith.copy : List Reg → M β (List Reg)
  | [ra, rb] =>
    if ra.length ≠ rb.length then throw .error
    else do
      let ras ← splitAll ra
      let rbs ← splitAll rb
      let ps ← (ras.zip rbs).foldlM (fun (acc : List Reg × List Reg) p => do
        let (ra, rb) ← cnot p.1 p.2
        pure (acc.1 ++ [ra], acc.2 ++ [rb])) ([], [])
      let ma ← mergeRegisters ps.1
      let ra ← unwrapO ma
      let mb ← mergeRegisters ps.2
      let rb ← unwrapO mb
      pure [ra, rb]
  | _ => throw .panic

/-- `copy_inv`, arithmetic.rs L221 -/
noncomputable def Arith.copyInv : List Reg → M β (List Reg) := invertFn Arith.copy

/-- `add_mod_inv`, arithmetic.rs L93 -/
noncomputable def Arith.addModInv : List Reg → M β (List Reg) := invertFn Arith.addMod

/-- `times_mod`, arithmetic.rs L134-193 -/
noncomputable def Arith.timesMod : List Reg → M β (List Reg)
  | [ra, rb, rm, rp] =>
    let n := rm.length
    let k := rb.length
    if ra.length ≠ n + 1 then throw .error
    else if rp.length ≠ n + 1 then throw .error
    else do
      let rt ← makeTempRegister k
      let rc ← makeTempRegister n
      let rs ← (List.range k).foldlM (fun rs indx => program rs
        [.plain Arith.addInv [[(5, none)], [(2, none)], [(0, none)]],
         .control none (op1 Gate.x) [[(0, some [n])], [(4, some [indx])]],
         .control none Arith.add [[(4, some [indx])], [(5, none)], [(2, none)], [(0, none)]],
         .control none Arith.addMod [[(1, some [indx])], [(0, some (List.range n))], [(3, none)], [(2, none)]],
         .plain Arith.rshift [[(0, none)]]]) [ra, rb, rm, rp, rt, rc]
      let rs ← (List.range k).reverse.foldlM (fun rs indx =>
        match rs with
        | [ra, rb, rm, rp, rt, rc] => do
          let rs ← program [ra, rm, rt, rc]
            [.plain Arith.lshift [[(0, none)]],
             .control none Arith.addInv [[(2, some [indx])], [(3, none)], [(1, none)], [(0, none)]],
             .control none (op1 Gate.x) [[(0, some [n])], [(2, some [indx])]],
             .plain Arith.add [[(3, none)], [(1, none)], [(0, none)]]]
          match rs with
          | [ra, rm, rt, rc] => pure [ra, rb, rm, rp, rt, rc]
          | _ => throw .panic
        | _ => throw .panic) rs
      match rs with
      | [ra, rb, rm, rp, rt, rc] => do
        returnTemp rc
        returnTemp rt
        pure [ra, rb, rm, rp]
      | _ => throw .panic
  | _ => throw .panic

/-- `times_mod_inv`, arithmetic.rs L136 -/
noncomputable def Arith.timesModInv : List Reg → M β (List Reg) := invertFn Arith.timesMod

/-- `square_mod`, arithmetic.rs L252-284 -/
noncomputable def Arith.squareMod : List Reg → M β (List Reg)
  | [ra, rm, rs] =>
    let n := rm.length
    if ra.length ≠ n + 1 then throw .error
    else if rs.length ≠ n + 1 then throw .error
    else do
      let rt ← makeTempRegister n
      let rs ← program [ra, rm, rs, rt]
        [.plain Arith.copy [[(0, some (List.range n))], [(3, none)]],
         .plain Arith.timesMod [[(0, none)], [(3, none)], [(1, none)], [(2, none)]],
         .plain Arith.copyInv [[(0, some (List.range n))], [(3, none)]]]
      match rs with
      | [ra, rm, rs, rt] => do
        returnTemp rt
        pure [ra, rm, rs]
      | _ => throw .panic
  | _ => throw .panic

/-- `square_mod_inv`, arithmetic.rs L253 -/
noncomputable def Arith.squareModInv : List Reg → M β (List Reg) := invertFn Arith.squareMod

/-- `exp_mod`, arithmetic.rs L286-340; the first argument bounds the recursion depth (the size of `rb` suffices) -/
noncomputable def Arith.expModF : ℕ → List Reg → M β (List Reg)
  | 0, _ => throw .panic
  | d + 1, [ra, rb, rm, rp, re] =>
    let n := rm.length
    let k := rb.length
    if ra.length ≠ n + 1 then throw .error
    else if rp.length ≠ n + 1 then throw .error
    else if re.length ≠ n + 1 then throw .error
    else if k = 1 then
      program [ra, rb, rm, rp, re]
        [.control (some 0) Arith.copy [[(1, some [0])], [(3, none)], [(4, none)]],
         .control none Arith.timesMod [[(1, some [0])], [(0, none)], [(3, none)], [(2, none)], [(4, none)]]]
    else do
      let ru ← makeTempRegister (n + 1)
      let rv ← makeTempRegister (n + 1)
      let rs ← program [ra, rb, rm, rp, re, ru, rv]
        [.control (some 0) Arith.copy [[(1, some [0])], [(3, none)], [(6, none)]],
         .control none Arith.timesMod [[(1, some [0])], [(0, none)], [(3, none)], [(2, none)], [(4, none)]],
         .plain Arith.squareMod [[(0, none)], [(2, none)], [(5, none)]],
         .plain (Arith.expModF d) [[(5, none)], [(1, some (List.range' 1 (k - 1)))], [(2, none)], [(6, none)], [(4, none)]],
         .plain Arith.squareModInv [[(0, none)], [(2, none)], [(5, none)]],
         .control none Arith.timesModInv [[(1, some [0])], [(0, none)], [(3, none)], [(2, none)], [(4, none)]],
         .control (some 0) Arith.copyInv [[(1, some [0])], [(3, none)], [(6, none)]]]
      match rs with
      | [ra, rb, rm, rp, re, ru, rv] => do
        returnTemp ru
        returnTemp rv
        pure [ra, rb, rm, rp, re]
      | _ => throw .panic
  | _ + 1, _ => throw .panic

/-- `exp_mod`, arithmetic.rs L286-340 -/
noncomputable def Arith.expMod (rs : List Reg) : M β (List Reg) := Arith.expModF ((rs.getD 1 []).length + 1) rs

/-- `exp_mod_inv`, arithmetic.rs L287 -/
noncomputable def Arith.expModInv : List Reg → M β (List Reg) := invertFn Arith.expMod

end

/-! ## qfft -/

section
variable {β : Type} [Conditionable β]

/-- the inner loop of `qfft` over `j`, qfft.rs L19-25: returns `ri` and the slots -/
def qfftRow (i : ℕ) (p : Reg × List (Option Reg)) (j : ℕ) : M β (Reg × List (Option Reg)) := do
  let rj ← unwrapO (p.2[j]?.join)
  let (ri, rj) ← Conditioned.conditioned rj (Rotations.rzPiBy p.1 ((2 ^ (j - i) : ℕ) : ℤ))
  pure (ri, p.2.set j (some rj))

/-- the loop of `qfft` over `i`, qfft.rs L17-28 (`1 << (j - i)` does not overflow below 63 qubits) -/
def qfftCol (rs : List (Option Reg)) (i : ℕ) : M β (List (Option Reg)) := do
  let ri ← unwrapO (rs[i]?.join)
  let (ri, rs) ← (List.range' (i + 1) (rs.length - (i + 1))).foldlM (qfftRow i) (ri, rs.set i none)
  let ri ← Gate.h ri
  pure (rs.set i (some ri))

/-- the swaps of `qfft`, qfft.rs L29-37 -/
def qfftSwap (rs : List (Option Reg)) (i : ℕ) : M β (List (Option Reg)) := do
  let ib := rs.length - 1 - i
  let ra ← unwrapO (rs[i]?.join)
  let rs := rs.set i none
  let rb ← unwrapO (rs[ib]?.join)
  let rs := rs.set ib none
  let (ra, rb) ← swap ra rb
  pure ((rs.set i (some ra)).set ib (some rb))

/-- `qfft`, qfft.rs L7-40 -/
def qfft (r : Reg) : M β Reg := do
  let rs ← splitAll r
  let rs ← (List.range rs.length).foldlM qfftCol (rs.map some)
  let rs ← (List.range (rs.length / 2)).foldlM qfftSwap rs
  let rs ← unwrapO (rs.mapM id)
  match ← mergeRegisters rs with
  | some r => pure r
  | none => throw .error

end

end Verif
