import Verif.Model.Builder
import Mathlib.LinearAlgebra.Finsupp.LSum
import Mathlib.LinearAlgebra.Finsupp.Supported
import Mathlib.Analysis.SpecialFunctions.Complex.Circle
import Mathlib.Data.Real.Sqrt

/-!
# Specification: quantum states and gates

Independent of the state-vector code: a basis state assigns a bit to every qubit number, a state is a finite
combination of basis states, and a gate is the linear map given on basis states by its matrix.
-/

namespace Verif
open Complex Classical

/-- a computational basis state: the value of every qubit -/
abbrev Asg := ℕ → Bool

/-- a quantum state: finitely many basis states with amplitudes -/
abbrev Wave := Asg →₀ ℂ

/-- the basis state `|x⟩` -/
noncomputable def ket (x : Asg) : Wave := Finsupp.single x 1

/-- the number spelled by the qubits `idx` of `x`, first one most significant -/
def readQ (idx : List ℕ) (x : Asg) : ℕ := idx.foldl (fun a q => 2 * a + (x q).toNat) 0

/-- `x` with the qubits `idx` set to spell `c`, first one most significant -/
def writeQ (idx : List ℕ) (c : ℕ) (x : Asg) : Asg := fun q =>
  if q ∈ idx then c.testBit (idx.length - 1 - idx.idxOf q) else x q

/-- `x` with qubit `q` set to `v` -/
abbrev setQ (q : ℕ) (v : Bool) (x : Asg) : Asg := Function.update x q v

/-- flip qubit `q` -/
def flipQ (q : ℕ) (x : Asg) : Asg := Function.update x q (!x q)

/-- all qubits of `r` flipped -/
def flipAll (r : List ℕ) (x : Asg) : Asg := fun p => if p ∈ r then !x p else x p

/-- the matrix `m` applied to the qubits `idx`: column `readQ idx x` on `|x⟩` -/
noncomputable def gateW (idx : List ℕ) (m : ℕ → ℕ → ℂ) : Wave →ₗ[ℂ] Wave :=
  Finsupp.linearCombination ℂ fun x => ∑ r ∈ Finset.range (2 ^ idx.length), m r (readQ idx x) • ket (writeQ idx r x)

/-- a 2×2 matrix by rows -/
def mat2 (a b c d : ℂ) : ℕ → ℕ → ℂ := fun i j => if i = 0 then (if j = 0 then a else b) else (if j = 0 then c else d)

/-- rotation by `θ` about the z axis -/
noncomputable def rzMat (θ : ℝ) : ℕ → ℕ → ℂ := mat2 (exp (-(θ / 2) * I)) 0 0 (exp ((θ / 2) * I))

/-- rotation by `θ` about the x axis -/
noncomputable def rxMat (θ : ℝ) : ℕ → ℕ → ℂ := mat2 (cos (θ / 2)) (-I * sin (θ / 2)) (-I * sin (θ / 2)) (cos (θ / 2))

/-- rotation by `θ` about the y axis -/
noncomputable def ryMat (θ : ℝ) : ℕ → ℕ → ℂ := mat2 (cos (θ / 2)) (-sin (θ / 2)) (sin (θ / 2)) (cos (θ / 2))

/-- the textbook matrix of a gate on `k` qubits; `angle` gives the angle of a rotation object -/
noncomputable def uMat (angle : Rot → ℝ) (k : ℕ) : UObj → ℕ → ℕ → ℂ
  | .X => mat2 0 1 1 0
  | .Y => mat2 0 (-I) I 0
  | .Z => mat2 1 0 0 (-1)
  | .H => mat2 (1 / Real.sqrt 2) (1 / Real.sqrt 2) (1 / Real.sqrt 2) (-(1 / Real.sqrt 2))
  | .S => mat2 1 0 0 I
  | .T => mat2 1 0 0 (exp (Real.pi / 4 * I))
  | .CNOT => fun i j => if i = (if j < 2 then j else 5 - j) then 1 else 0
  | .SWAP => fun i j => if i = (j % 2 ^ (k / 2)) * 2 ^ (k / 2) + j / 2 ^ (k / 2) then 1 else 0
  | .Rz r => rzMat (angle r)
  | .MAT data => fun i j => (data[i * 2 ^ k + j]?).getD 0
  | .GlobalPhase _ => fun i j => if i = j then 1 else 0

/-- the action of one circuit element (measurements have no unitary action; circuits with measurements are treated
separately) -/
noncomputable def entryW (angle : Rot → ℝ) (e : List ℕ × CObj) : Wave →ₗ[ℂ] Wave :=
  match e.2.object with
  | .unitary u => gateW e.1 (uMat angle e.1.length u)
  | .meas _ => LinearMap.id

/-- the action of a circuit: its elements one after the other -/
noncomputable def runW (angle : Rot → ℝ) : Pipeline → Wave →ₗ[ℂ] Wave
  | [] => LinearMap.id
  | e :: p => runW angle p ∘ₗ entryW angle e

/-- the size of data a unitary object needs -/
def UObj.Shape (k : ℕ) : UObj → Prop
  | .CNOT => k = 2
  | .SWAP => k % 2 = 0 ∧ 0 < k
  | .MAT data => data.length = 4 ^ k ∧ 0 < k
  | .GlobalPhase _ => 0 < k
  | _ => k = 1

/-- a circuit element that `calculate_state` can execute: distinct qubits below `n`, sizes fitting -/
def EntryOK (n : ℕ) (e : List ℕ × CObj) : Prop :=
  e.1.Nodup ∧ (∀ q ∈ e.1, q < n) ∧ ∀ u, e.2.object = .unitary u → u.Shape e.1.length

/-- the basis state with index `i` in an `n`-qubit state vector (qubit 0 is the most significant bit) -/
def asg (n i : ℕ) : Asg := fun q => decide (q < n) && i.testBit (n - 1 - q)

/-- the vector `v` holds the amplitudes of `ψ` -/
def Rep (n : ℕ) (v : List ℂ) (ψ : Wave) : Prop :=
  v.length = 2 ^ n ∧ ∀ i, i < 2 ^ n → v[i]? = some (ψ (asg n i))

end Verif
