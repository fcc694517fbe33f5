import Verif.Spec.Stale

/-!
# Specification: what a circuit gives, whatever it is made of

`calculate_state` keeps the current state and the one before. A gate replaces the current state, a stochastic
measurement or a global phase exchanges the two, a measurement keeps the part in which the register holds the outcome;
an outcome of probability zero (which is found if the current state is zero) exchanges the two. The textbook rules are
those of `branchW`; the rules here are the ones that the code follows.
-/

namespace Verif
open Complex Classical MeasureTheory

/-- is a circuit element a measurement that collapses the state -/
def isColl (e : List ℕ × CObj) : Bool :=
  match e.2.object with
  | .meas .measurement => true
  | _ => false

/-- the number of measurements that collapse the state -/
def collCount (p : Pipeline) : ℕ := p.countP isColl

/-- current and previous state after one circuit element; `m` is the outcome, if it is a measurement -/
noncomputable def pairStep (angle : Rot → ℝ) (e : List ℕ × CObj) (m : ℕ) (S : Wave × Wave) : Wave × Wave :=
  match e.2.object with
  | .unitary (.GlobalPhase _) => (S.2, S.1)
  | .unitary _ => (entryW angle e S.1, S.1)
  | .meas .stochastic => (S.2, S.1)
  | .meas .measurement => if normW (projW e.1 m S.1) = 0 then (S.2, S.1) else (unitW (projW e.1 m S.1), S.1)

/-- the result that a circuit element adds to the list of results -/
noncomputable def resultW (e : List ℕ × CObj) (m : ℕ) (ψ : Wave) : List MeasResult :=
  match e.2.object with
  | .unitary _ => []
  | .meas .stochastic => [.stochastic (probsW e.1 ψ)]
  | .meas .measurement => [.single m (normW (projW e.1 m ψ))]

/-- the chance of the outcome `m`: its probability, and for the state zero always 0 -/
noncomputable def chanceW (r : Reg) (m : ℕ) (ψ : Wave) : ℝ :=
  if ψ = 0 then (if m = 0 then 1 else 0) else normW (projW r m ψ)

/-- the outcomes that remain after a circuit element -/
def restOf (e : List ℕ × CObj) (ms : List ℕ) : List ℕ := if isColl e then ms.tail else ms

/-- current and previous state after a circuit whose measurements gave the outcomes `ms` -/
noncomputable def pairW (angle : Rot → ℝ) : Pipeline → List ℕ → Wave × Wave → Wave × Wave
  | [], _, S => S
  | e :: p, ms, S => pairW angle p (restOf e ms) (pairStep angle e (ms.headD 0) S)

/-- the list of results -/
noncomputable def resultsW (angle : Rot → ℝ) : Pipeline → List ℕ → Wave × Wave → List MeasResult
  | [], _, _ => []
  | e :: p, ms, S => resultW e (ms.headD 0) S.1 ++ resultsW angle p (restOf e ms) (pairStep angle e (ms.headD 0) S)

/-- the probability of the outcomes `ms` -/
noncomputable def chancesW (angle : Rot → ℝ) : Pipeline → List ℕ → Wave × Wave → ℝ
  | [], _, _ => 1
  | e :: p, ms, S => (if isColl e then chanceW e.1 (ms.headD 0) S.1 else 1) *
      chancesW angle p (restOf e ms) (pairStep angle e (ms.headD 0) S)

/-- any circuit element on distinct, allocated qubits, of the size it is made for; matrices are unitary -/
def AnyOK (n : ℕ) (e : List ℕ × CObj) : Prop :=
  SegU n e ∨ (EntryOK n e ∧ (IdleE e ∨ e.2.object = .meas .measurement))

/-- the outcome in a result, if it is that of a collapsing measurement -/
def MeasResult.outcome : MeasResult → Option ℕ
  | .single m _ => some m
  | .stochastic _ => none

/-- the collapsing measurements of the calculation give the outcomes `ms`, in this order -/
def Finds (b : LocalBuilder) (it : List (Reg × ℕ)) (rnds : ℕ → ℝ) (ms : List ℕ) : Prop :=
  ∃ v l, b.calculateStateWithInit it rnds = some (v, l) ∧
    l.filterMap MeasResult.outcome = ms

/-- the probability that the collapsing measurements give the outcomes `ms`, if the numbers drawn are independent and
uniform in [0,1) -/
noncomputable def findProb (b : LocalBuilder) (it : List (Reg × ℕ)) (ms : List ℕ) : ENNReal :=
  volume {ω : Fin (measCount b.pipeline) → ℝ | (∀ j, ω j ∈ Set.Ico (0 : ℝ) 1) ∧
    Finds b it (fun j => if hj : j < measCount b.pipeline then ω ⟨j, hj⟩ else 1 / 2) ms}

end Verif
