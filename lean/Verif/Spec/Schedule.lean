import Verif.Model.Schedule

namespace Verif

/-- A schedule of the row tasks `0 … len-1`: every task starts and finishes exactly once, and finishes after it
started; otherwise the order is arbitrary. -/
def IsSchedule (len : ℕ) (evs : List Ev) : Prop :=
  evs.Perm ((List.range len).flatMap fun r => [Ev.start r, Ev.finish r]) ∧
  ∀ pre post r, evs = pre ++ Ev.finish r :: post → Ev.start r ∈ pre

end Verif
