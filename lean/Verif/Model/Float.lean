import Verif.Model.Apply

/-!
# The simulation loop for any arithmetic

The loop of `calculate_state_with_init` (`qip/src/builder.rs` L411-505) on ops whose numbers are elements of an arbitrary type,
for example machine numbers.
-/

namespace Verif

/-- the fold of builder.rs L416-503 for a circuit of unitary objects (no measurements, no global phases) whose ops are `ops`: every op
is applied to `state` and written to `arena` (L487), then the two buffers are exchanged (L501) -/
def runOps {F : Type} [Zero F] [One F] [Add F] [Mul F] [DecidableEq F] (n : ℕ) (ops : List (MatrixOp F)) (s : List F × List F) :
    Option (List F × List F) :=
  ops.foldlM (fun s op => do
    let arena ← applyOpOverwrite n op s.1 s.2 0 0
    some (arena, s.1)) s

end Verif
