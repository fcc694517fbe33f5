import Verif.Spec.Matrix
import Mathlib.Data.Complex.Basic

/-! Specification: outcomes and their Born probabilities. -/

namespace Verif

/-- the qubits `indices` of basis state `x` (of `n` qubits) spell `m`: bit `i` of `m` is qubit `indices[i]` -/
def Spells (n : ℕ) (indices : List ℕ) (m x : ℕ) : Prop :=
  ∀ i (h : i < indices.length), x.testBit (n - 1 - indices[i]) = m.testBit i

open Classical in
/-- Born probability of outcome `m` for the state with amplitudes `amp` -/
noncomputable def bornProb (n : ℕ) (indices : List ℕ) (m : ℕ) (amp : ℕ → ℂ) : ℝ :=
  ∑ x ∈ (Finset.range (2 ^ n)).filter (Spells n indices m), Complex.normSq (amp x)

end Verif
