import Verif.Spec.Value
import Verif.Spec.Clean
import Verif.Spec.History
import Verif.Model.Calc
import Mathlib.MeasureTheory.Constructions.Pi
import Mathlib.MeasureTheory.Measure.Lebesgue.Basic

/-!
# Specification: circuits with measurements

The textbook rules for a run of a circuit: a gate transforms the state, a measurement with outcome `m` keeps the part
of the state in which the register holds `m`. The probability of a sequence of outcomes is the squared length of what
is left in the end.
-/

namespace Verif
open Complex Classical MeasureTheory

/-- the squared length of a state (its total probability) -/
noncomputable def normW (ψ : Wave) : ℝ := ψ.sum fun _ c => normSq c

/-- a state scaled to length 1 -/
noncomputable def unitW (ψ : Wave) : Wave := ((1 / Real.sqrt (normW ψ) : ℝ) : ℂ) • ψ

/-- the part of a state in which the register `r` holds `m` -/
noncomputable def projW (r : Reg) (m : ℕ) (ψ : Wave) : Wave := ψ.filter fun x => valQ r x = m

/-- what is left of a state after a circuit whose measurements gave the outcomes `ms`, not scaled -/
noncomputable def branchW (angle : Rot → ℝ) : Pipeline → List ℕ → Wave → Wave
  | [], _, ψ => ψ
  | e :: p, ms, ψ =>
    match e.2.object, ms with
    | .unitary _, ms => branchW angle p ms (entryW angle e ψ)
    | .meas _, [] => 0
    | .meas _, m :: ms => branchW angle p ms (projW e.1 m ψ)

/-- the probabilities that the measurements of such a run report: of each outcome, given the earlier ones -/
noncomputable def reportW (angle : Rot → ℝ) : Pipeline → List ℕ → Wave → List ℝ
  | [], _, _ => []
  | e :: p, ms, ψ =>
    match e.2.object, ms with
    | .unitary _, ms => reportW angle p ms (entryW angle e ψ)
    | .meas _, [] => []
    | .meas _, m :: ms => normW (projW e.1 m ψ) / normW ψ :: reportW angle p ms (projW e.1 m ψ)

/-- the calculation with the draws `rnds` gives the outcomes `ms`, in this order -/
def Outcomes (b : LocalBuilder) (it : List (Reg × ℕ)) (rnds : ℕ → ℝ) (ms : List ℕ) : Prop :=
  ∃ v l, b.calculateStateWithInit it rnds = some (v, l) ∧ l.length = ms.length ∧
    ∀ (j : ℕ) (hj : j < ms.length), ∃ pr, getMeasurement l j = some (ms[j], pr)

/-- the probability that the calculation gives the outcomes `ms`, if the numbers drawn for the measurements are
independent and uniform in [0,1) -/
noncomputable def outcomeProb (b : LocalBuilder) (it : List (Reg × ℕ)) (ms : List ℕ) : ENNReal :=
  volume {ω : Fin ms.length → ℝ | (∀ j, ω j ∈ Set.Ico (0 : ℝ) 1) ∧
    Outcomes b it (fun j => if hj : j < ms.length then ω ⟨j, hj⟩ else 1 / 2) ms}

/-- the circuit elements of a program that measures: gates (global phases excepted) and measurements of distinct,
allocated qubits -/
def StepOK (n : ℕ) (e : List ℕ × CObj) : Prop :=
  SegU n e ∨ (e.2.object = .meas .measurement ∧ e.1.Nodup ∧ ∀ q ∈ e.1, q < n)

end Verif
