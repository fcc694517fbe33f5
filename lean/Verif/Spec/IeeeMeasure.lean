import Verif.Spec.Ieee
import Verif.Spec.Measure
import Verif.Spec.Clean
import Verif.Model.Calc

/-!
# Specification: draws that decide a measurement in spite of rounding errors
-/

namespace Verif
open Classical

/-- probability of the basis states before `k` -/
noncomputable def cumul (a : ℕ → ℂ) (k : ℕ) : ℝ := ∑ x ∈ Finset.range k, ‖a x‖ ^ 2

/-- the state after outcome `m` of a measurement of the qubits `idx` in the state `φ` -/
noncomputable def collapsed (n : ℕ) (idx : List ℕ) (m : ℕ) (φ : ℕ → ℂ) (r : ℕ) : ℂ :=
  if Spells n idx m r then φ r * ((1 / Real.sqrt (bornProb n idx m φ) : ℝ) : ℂ) else 0

/-- the most entries that a row of a gate on `k` qubits has: two, or `2^k` for a matrix given by the user -/
def rowEntries (k : ℕ) : UObj → ℕ
  | .MAT _ => 2 ^ k
  | _ => 2

/-- bound for what a gate adds to the error of the state, in units of `2^-p`: 64, or `16·4^k` for a matrix given by the user -/
def gateCost (k : ℕ) (g : UObj) : ℕ := 16 * rowEntries k g ^ 2

/-- ... an element of a circuit (a global phase changes nothing, and measurements have their own bounds) -/
def elemCost (e : List ℕ × CObj) : ℕ :=
  match e.2.object with
  | .unitary (.GlobalPhase _) => 0
  | .unitary g => gateCost e.1.length g
  | .meas _ => 0

/-- ... a circuit -/
def circuitCost (p : Pipeline) : ℕ := (p.map elemCost).sum

/-- Along the exact run of the circuit `p` from `s`, an error `ε` before the first element becomes at most `δ` after the last one, and at every
measurement the draw is further than `κ` from all sums at which `soft_measure` changes its outcome, where `κ` covers the error that far. -/
inductive Clear (f : Format) (n : ℕ) (rnds : ℕ → ℝ) (κ : ℝ) : Pipeline → CalcState → ℝ → ℝ → Prop
  | nil (s : CalcState) (ε : ℝ) : Clear f n rnds κ [] s ε ε
  | gate (idx : List ℕ) (w : ℕ) (g : UObj) (p : Pipeline) (s s' : CalcState) (ε δ : ℝ) : calcStep n rnds s (idx, ⟨w, .unitary g⟩) = some s' → ε ≤ 1 →
      Clear f n rnds κ p s' (ε + gateCost idx.length g * f.eps) δ → Clear f n rnds κ ((idx, ⟨w, .unitary g⟩) :: p) s ε δ
  | measurement (idx : List ℕ) (w : ℕ) (p : Pipeline) (s s' : CalcState) (m : ℕ) (Q ε δ : ℝ) :
      calcStep n rnds s (idx, ⟨w, .meas .measurement⟩) = some s' → s'.measurements = s.measurements ++ [.single m Q] →
      ε ≤ 1 → ε * (2 + ε) + 24 * (2 ^ n * f.eps) ≤ κ → (∀ k, 1 ≤ k → k ≤ 2 ^ n → κ < |rnds s.measurements.length - cumul (vals id s.state) k|) →
      Clear f n rnds κ p s' (2 * ε / Real.sqrt Q + 13 * (2 ^ n * f.eps)) δ → Clear f n rnds κ ((idx, ⟨w, .meas .measurement⟩) :: p) s ε δ

/-- the element of the circuit holds the gate with rounded entries, or is the same measurement -/
inductive ElemAs {f : Format} {fl : ℝ → ℝ} (A : f.Arith fl) : ElemP A.Num → List ℕ × CObj → Prop
  | gate (op : MatrixOp A.Num) (U : MatrixOp ℂ) (idx : List ℕ) (w : ℕ) (g : UObj) : unitaryOp idx g = .ok U →
      StoresIn A.fin A.val f.relErr f.absErr op U → ElemAs A (.op op) (idx, ⟨w, .unitary g⟩)
  | measurement (idx : List ℕ) (w : ℕ) : ElemAs A (.measurement idx) (idx, ⟨w, .meas .measurement⟩)

/-- a gate (with a unitary matrix, if it is given by a matrix) or a measurement of distinct qubits below `n` -/
def GateOrMeasure (n : ℕ) (e : List ℕ × CObj) : Prop :=
  SegU n e ∨ (e.2.object = .meas .measurement ∧ e.1.Nodup ∧ ∀ i ∈ e.1, i < n)

/-- the same outcome, with a finite positive probability that differs by at most `κ` -/
def SameOutcome (f : Format) (κ : ℝ) (a : ℕ × f.Part) (b : MeasResult) : Prop :=
  ∃ m Q, ∃ y : f.Fin, a = (m, some y) ∧ b = .single m Q ∧ 0 < y.1 ∧ |y.1 - Q| ≤ κ

end Verif
