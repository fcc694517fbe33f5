import Verif.Model.Apply

/-!
# Parallel row loops

`iter_mut!(output).enumerate().for_each(row_fn)` (qip-iterators/src/matrix_ops.rs L122, L151, L216;
qip/src/state_ops/measurement_ops.rs L265-267; macro in qip-iterators/src/rayon_helper/mod.rs L19-35) hands each
output cell to one task.  A task reads its own cell and the shared read-only input, computes, and writes its own
cell.  A schedule is any interleaving of the tasks' two events.
-/

namespace Verif

/-- the events of the row task `r`: read own cell and compute; write own cell -/
inductive Ev where
  | start (r : ℕ)
  | finish (r : ℕ)
deriving DecidableEq

/-- memory during a parallel loop: the output slice and, per task, the value computed but not yet written -/
structure ParState (K : Type) where
  out : List K
  pend : ℕ → Option K

/-- one event of the loop body `*outputloc = task(r, *outputloc)`; `none` is a panic -/
def parStep {K : Type} (task : ℕ → K → Option K) (s : ParState K) : Ev → Option (ParState K)
  | .start r => do
    let cell ← s.out[r]?
    let v ← task r cell
    some { s with pend := fun i => if i = r then some v else s.pend i }
  | .finish r => do
    let v ← s.pend r
    if r < s.out.length then some { s with out := s.out.set r v } else none

/-- run a whole schedule on the slice `out` -/
def runSchedule {K : Type} (task : ℕ → K → Option K) (evs : List Ev) (out : List K) : Option (List K) :=
  (evs.foldlM (parStep task) { out := out, pend := fun _ => none }).map ParState.out

end Verif
