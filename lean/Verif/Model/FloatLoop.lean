import Verif.Model.FloatMeasure

/-!
# The whole loop of a calculation for any arithmetic

Models `measure_probs` (`qip/src/state_ops/measurement_ops.rs` L115-127) and the loop of `calculate_state_with_init`
(`qip/src/builder.rs` L411-505) with all kinds of circuit elements, for an arbitrary type of machine numbers. `RunsP` of
`Verif.Model.FloatMeasure` is the same loop for gates and measurements only.
-/

namespace Verif

/-- `measure_probs`, measurement_ops.rs L115-127, with no offset: what it can give back. Every entry is a `measure_prob` (L44-112), whose
numbers are added up in some order. -/
def ProbsP {P : Type} (R : Prec P) (n : ℕ) (indices : List ℕ) (input : List (P × P)) (ps : List P) : Prop :=
  List.Forall₂ (fun m p => ∃ terms, measureTermsP R n m indices input none = some terms ∧ SumsP R terms p) (List.range (1 <<< indices.length)) ps

/-- an element of a circuit whose numbers have the type `K`: `BuilderCircuitObjectType`, builder.rs L110-115, the unitary objects as the
operations that builder.rs L423-485 makes of them, except for the global phase (L420) -/
inductive ElemC (K : Type) where
  | globalPhase
  | op (o : MatrixOp K)
  | measurement (indices : List ℕ)
  | stochastic (indices : List ℕ)

/-- `MeasurementResults`, builder.rs L282-288 -/
inductive MeasC (P : Type) where
  | single (m : ℕ) (p : P)
  | stochastic (ps : List P)

/-- the accumulator of builder.rs L416 -/
structure StateC (K P : Type) where
  state : List K
  arena : List K
  measurements : List (MeasC P)

/-- the fold of builder.rs L411-505, with all results it can have; `parts` takes a complex number apart and `mk` puts it together. The buffers
are exchanged at the end of every step (L502), also when nothing was written to `arena` (L420, L495-498). -/
inductive RunsC {K P : Type} [Zero K] [One K] [Add K] [Mul K] [DecidableEq K] (R : Prec P) (parts : K → P × P) (mk : P × P → K) (n : ℕ)
    (rnds : ℕ → P) : List (ElemC K) → StateC K P → StateC K P → Prop
  | nil (s : StateC K P) : RunsC R parts mk n rnds [] s s
  | globalPhase (es : List (ElemC K)) (s t : StateC K P) : RunsC R parts mk n rnds es ⟨s.arena, s.state, s.measurements⟩ t →
      RunsC R parts mk n rnds (.globalPhase :: es) s t
  | op (o : MatrixOp K) (es : List (ElemC K)) (s t : StateC K P) (arena : List K) : applyOpOverwrite n o s.state s.arena 0 0 = some arena →
      RunsC R parts mk n rnds es ⟨arena, s.state, s.measurements⟩ t → RunsC R parts mk n rnds (.op o :: es) s t
  | measurement (indices : List ℕ) (es : List (ElemC K)) (s t : StateC K P) (m : ℕ) (p : P) (out : List (P × P)) :
      MeasureP R n indices (s.state.map parts) (s.arena.map parts) (rnds s.measurements.length) m p out →
      RunsC R parts mk n rnds es ⟨out.map mk, s.state, s.measurements ++ [.single m p]⟩ t →
      RunsC R parts mk n rnds (.measurement indices :: es) s t
  | stochastic (indices : List ℕ) (es : List (ElemC K)) (s t : StateC K P) (ps : List P) : ProbsP R n indices (s.state.map parts) ps →
      RunsC R parts mk n rnds es ⟨s.arena, s.state, s.measurements ++ [.stochastic ps]⟩ t →
      RunsC R parts mk n rnds (.stochastic indices :: es) s t

end Verif
