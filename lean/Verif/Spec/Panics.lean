import Verif.Spec.History
import Verif.Spec.Wave

/-!
# Specification: calls that panic and calls that return an error
-/

namespace Verif

/-- The calls that panic, on registers without repeated qubits. (A register of size zero cannot be asked for in Rust, where the size is a
`NonZeroUsize`.) -/
def Call.Panics : Call → Prop
  | .register n => n = 0
  | .split r idx => r.length ∈ idx
  | .splitAbs r idx => r.length ∈ idx ∧ r.length ∈ r
  | .splitGroups r groups => ¬ (groups.flatten.Nodup ∧ ∀ i ∈ groups.flatten, i < r.length)
  | _ => False

/-- the calls that return an `Err` -/
def Call.Errs : Call → Prop
  | .object r c => c.n ≠ r.length ∧ c.n ≠ 1
  | .cnot c _ => 1 < c.length
  | .swap a b => a.length ≠ b.length
  | .basicToffoli c _ => c.length ≠ 2
  | .rzPiBy _ m => m = 0
  | _ => False

/-- a circuit element that `calculate_state` cannot execute: a gate other than a global phase on the wrong number of qubits -/
def Misfit (e : List ℕ × CObj) : Prop := ∃ u, e.2.object = .unitary u ∧ (∀ ρ, u ≠ .GlobalPhase ρ) ∧ ¬ u.Shape e.1.length

end Verif
