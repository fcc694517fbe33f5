import Verif.Spec.IeeeMeasure
import Verif.Spec.Stale
import Verif.Model.FloatLoop

/-!
# Specification: circuits with all kinds of elements in floating point arithmetic
-/

namespace Verif
open Classical

/-- Along the exact run of the circuit `p` from `s`, errors `ε` of the state and `ε'` of the other buffer before the first element become at most
`δ` after the last one; at every measurement the state has length one and the draw is further than `κ` from all sums at which `soft_measure`
changes its outcome; and `κ` covers the errors of all measurements. A global phase and a stochastic measurement exchange the buffers. -/
inductive ClearC (f : Format) (n : ℕ) (rnds : ℕ → ℝ) (κ : ℝ) : Pipeline → CalcState → ℝ → ℝ → ℝ → Prop
  | nil (s : CalcState) (ε ε' : ℝ) : ClearC f n rnds κ [] s ε ε' ε
  | gate (idx : List ℕ) (w : ℕ) (g : UObj) (p : Pipeline) (s s' : CalcState) (ε ε' δ : ℝ) : (∀ ρ, g ≠ .GlobalPhase ρ) →
      calcStep n rnds s (idx, ⟨w, .unitary g⟩) = some s' → ε ≤ 1 →
      ClearC f n rnds κ p s' (ε + gateCost idx.length g * f.eps) ε δ → ClearC f n rnds κ ((idx, ⟨w, .unitary g⟩) :: p) s ε ε' δ
  | phase (idx : List ℕ) (w : ℕ) (ρ : Rot) (p : Pipeline) (s s' : CalcState) (ε ε' δ : ℝ) :
      calcStep n rnds s (idx, ⟨w, .unitary (.GlobalPhase ρ)⟩) = some s' →
      ClearC f n rnds κ p s' ε' ε δ → ClearC f n rnds κ ((idx, ⟨w, .unitary (.GlobalPhase ρ)⟩) :: p) s ε ε' δ
  | stochastic (idx : List ℕ) (w : ℕ) (p : Pipeline) (s s' : CalcState) (ε ε' δ : ℝ) : calcStep n rnds s (idx, ⟨w, .meas .stochastic⟩) = some s' →
      ε ≤ 1 → ε * (2 + ε) + 24 * (2 ^ n * f.eps) ≤ κ →
      ClearC f n rnds κ p s' ε' ε δ → ClearC f n rnds κ ((idx, ⟨w, .meas .stochastic⟩) :: p) s ε ε' δ
  | measurement (idx : List ℕ) (w : ℕ) (p : Pipeline) (s s' : CalcState) (m : ℕ) (Q ε ε' δ : ℝ) : nrm n (vals id s.state) = 1 →
      calcStep n rnds s (idx, ⟨w, .meas .measurement⟩) = some s' → s'.measurements = s.measurements ++ [.single m Q] →
      ε ≤ 1 → ε * (2 + ε) + 24 * (2 ^ n * f.eps) ≤ κ → (∀ k, 1 ≤ k → k ≤ 2 ^ n → κ < |rnds s.measurements.length - cumul (vals id s.state) k|) →
      ClearC f n rnds κ p s' (2 * ε / Real.sqrt Q + 13 * (2 ^ n * f.eps)) ε δ → ClearC f n rnds κ ((idx, ⟨w, .meas .measurement⟩) :: p) s ε ε' δ

/-- the element holds the gate with rounded entries, or is the same element -/
inductive ElemAsC {f : Format} {fl : ℝ → ℝ} (A : f.Arith fl) : ElemC A.Num → List ℕ × CObj → Prop
  | gate (op : MatrixOp A.Num) (U : MatrixOp ℂ) (idx : List ℕ) (w : ℕ) (g : UObj) : unitaryOp idx g = .ok U →
      StoresIn A.fin A.val f.relErr f.absErr op U → ElemAsC A (.op op) (idx, ⟨w, .unitary g⟩)
  | phase (idx : List ℕ) (w : ℕ) (ρ : Rot) : ElemAsC A .globalPhase (idx, ⟨w, .unitary (.GlobalPhase ρ)⟩)
  | measurement (idx : List ℕ) (w : ℕ) : ElemAsC A (.measurement idx) (idx, ⟨w, .meas .measurement⟩)
  | stochastic (idx : List ℕ) (w : ℕ) : ElemAsC A (.stochastic idx) (idx, ⟨w, .meas .stochastic⟩)

/-- the element holds the gate itself, or is the same element -/
inductive ElemIs : ElemC ℂ → List ℕ × CObj → Prop
  | gate (U : MatrixOp ℂ) (idx : List ℕ) (w : ℕ) (g : UObj) : (∀ ρ, g ≠ .GlobalPhase ρ) → unitaryOp idx g = .ok U →
      ElemIs (.op U) (idx, ⟨w, .unitary g⟩)
  | phase (idx : List ℕ) (w : ℕ) (ρ : Rot) : ElemIs .globalPhase (idx, ⟨w, .unitary (.GlobalPhase ρ)⟩)
  | measurement (idx : List ℕ) (w : ℕ) : ElemIs (.measurement idx) (idx, ⟨w, .meas .measurement⟩)
  | stochastic (idx : List ℕ) (w : ℕ) : ElemIs (.stochastic idx) (idx, ⟨w, .meas .stochastic⟩)

/-- a gate (with a unitary matrix, if it is given by a matrix), a measurement, a global phase or a stochastic measurement, of distinct qubits below `n` -/
def AnyElem (n : ℕ) (e : List ℕ × CObj) : Prop := GateOrMeasure n e ∨ (IdleE e ∧ EntryOK n e)

/-- a finite number from zero on that differs by at most `κ` -/
def NearProb (f : Format) (κ : ℝ) (p : f.Part) (P : ℝ) : Prop := ∃ y : f.Fin, p = some y ∧ 0 ≤ y.1 ∧ |y.1 - P| ≤ κ

/-- the same kind of result: the same outcome, with a finite positive probability that differs by at most `κ`, or as many probabilities, all
finite and different by at most `κ` -/
inductive SameResult (f : Format) (κ : ℝ) : MeasC f.Part → MeasResult → Prop
  | single (m : ℕ) (y : f.Fin) (Q : ℝ) : 0 < y.1 → |y.1 - Q| ≤ κ → SameResult f κ (.single m (some y)) (.single m Q)
  | stochastic (ps : List f.Part) (Ps : List ℝ) : List.Forall₂ (NearProb f κ) ps Ps → SameResult f κ (.stochastic ps) (.stochastic Ps)

/-- the state of the loop in exact arithmetic as one of `Verif.Model.Calc` -/
def StateC.exact (s : StateC ℂ ℝ) : CalcState :=
  ⟨s.state, s.arena, s.measurements.map fun
    | .single m p => .single m p
    | .stochastic ps => .stochastic ps⟩

end Verif
