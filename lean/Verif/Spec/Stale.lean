import Verif.Spec.Born

/-!
# Specification: circuits with stochastic measurements and global phases

What `calculate_state` makes of them, in terms of states instead of buffers: it keeps the current state and the one
before, and an element that is neither a gate nor a measurement that collapses exchanges the two (C43).
-/

namespace Verif
open Complex

/-- a circuit element that should not change the state, apart from a phase -/
def IdleE (e : List ℕ × CObj) : Prop := (∃ ρ, e.2.object = .unitary (.GlobalPhase ρ)) ∨ e.2.object = .meas .stochastic

/-- current and previous state after one circuit element -/
noncomputable def staleStep (angle : Rot → ℝ) (e : List ℕ × CObj) (s : Wave × Wave) : Wave × Wave :=
  match e.2.object with
  | .unitary (.GlobalPhase _) => (s.2, s.1)
  | .unitary _ => (entryW angle e s.1, s.1)
  | .meas _ => (s.2, s.1)

/-- current and previous state after a circuit -/
noncomputable def staleW (angle : Rot → ℝ) : Pipeline → Wave × Wave → Wave × Wave
  | [], s => s
  | e :: p, s => staleW angle p (staleStep angle e s)

/-- the probabilities of the values of a register -/
noncomputable def probsW (r : Reg) (ψ : Wave) : List ℝ :=
  (List.range (2 ^ r.length)).map fun m => normW (projW r m ψ)

/-- the lists of probabilities that the stochastic measurements of a circuit report -/
noncomputable def staleProbs (angle : Rot → ℝ) : Pipeline → Wave × Wave → List (List ℝ)
  | [], _ => []
  | e :: p, s => (if isMeas e then [probsW e.1 s.1] else []) ++ staleProbs angle p (staleStep angle e s)

end Verif
