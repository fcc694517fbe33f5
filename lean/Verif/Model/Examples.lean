import Verif.Model.Program
import Verif.Model.Calc

/-!
# The documented examples

Models the programs in the documentation of the crate (`qip/src/lib.rs` L22-229) and in `qip/examples`, with registers
of any size where the documentation fixes the size to 3.
-/

namespace Verif
open RegOps CircuitBuilder

/-- the circuit of the swap test, lib.rs L41-51: `h`, a swap under the condition `q`, `h`, and a measurement of `q` -/
noncomputable def swapTest (q ra rb : Reg) : M LocalBuilder ((Reg × Reg × Reg) × ℕ) := do
  let q ← Gate.h q
  let ((ra, rb), q) ← Conditioned.conditioned q (swap ra rb)
  let q ← Gate.h q
  let (q, m) ← LocalBuilder.measure q
  pure ((q, ra, rb), m)

/-- the example (CSWAP), lib.rs L32-51, with registers of `n` qubits -/
noncomputable def cswapExample (n : ℕ) : M LocalBuilder ((Reg × Reg × Reg) × ℕ) := do
  let q ← LocalBuilder.register 1
  let ra ← LocalBuilder.register n
  let rb ← LocalBuilder.register n
  swapTest q ra rb

/-- `gamma`, lib.rs L80-86 and examples/inverse_example.rs L9-20 -/
def gamma {β : Type} [TempBuilder β] : List Reg → M β (List Reg)
  | [ra, rb] => do
    let (ra, rb) ← toffoli ra rb
    let (rb, ra) ← toffoli rb ra
    pure [ra, rb]
  | _ => throw .panic

/-- `gamma` with the argument `skip`, lib.rs L126-136: the second `toffoli` is left out unless `skip` -/
def gammaSkip {β : Type} [TempBuilder β] (skip : Bool) : List Reg → M β (List Reg)
  | [ra, rb] => do
    let (ra, rb) ← toffoli ra rb
    let (rb, ra) ← if skip then toffoli rb ra else pure (rb, ra)
    pure [ra, rb]
  | _ => throw .panic

/-- the program of lib.rs L88-107 (the registers are merged in the end) -/
noncomputable def macroExample : M LocalBuilder Reg := do
  let ra ← LocalBuilder.register 3
  let rb ← LocalBuilder.register 3
  let rs ← program (β := LocalBuilder) [ra, rb]
    [.plain gamma [[(0, some [0, 1])], [(0, some [2])]],
     .plain gamma [[(0, some [0]), (1, some [0])], [(0, some [2])]],
     .plain gamma [[(0, some [0])], [(1, some [0]), (0, some [2])]],
     .control none gamma [[(1, none)], [(0, some [0, 1])], [(0, some [2])]],
     .control (some 0b110) gamma [[(1, none)], [(0, some [0, 1])], [(0, some [2])]]]
  match rs with
  | [ra, rb] => RegOps.mergeTwo ra rb
  | _ => throw .panic

/-- the program of lib.rs L177-187 and examples/inverse_example.rs L24-33 -/
noncomputable def inverseExample : M LocalBuilder Reg := do
  let ra ← LocalBuilder.register 3
  let rb ← LocalBuilder.register 3
  let rs ← program (β := LocalBuilder) [ra, rb]
    [.plain gamma [[(0, some [0, 1])], [(0, some [2])]],
     .plain (invertFn gamma) [[(0, some [0, 1])], [(0, some [2])]]]
  match rs with
  | [ra, rb] => RegOps.mergeTwo ra rb
  | _ => throw .panic

/-- the circuit of examples/simple.rs L7-13, L17-28 -/
noncomputable def simpleExample : M LocalBuilder (Reg × ℕ) := do
  let ra ← LocalBuilder.register 1
  let rb ← LocalBuilder.register 1
  let ra ← Gate.h ra
  let rs ← program (β := LocalBuilder) [ra, rb] [.control none (op1 Gate.not) [[(0, none)], [(1, none)]]]
  match rs with
  | [ra, rb] => do
    let r ← RegOps.mergeTwo ra rb
    LocalBuilder.measureStochastic r
  | _ => throw .panic

end Verif
