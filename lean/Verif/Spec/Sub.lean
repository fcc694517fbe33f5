import Verif.Spec.Clean
import Verif.Spec.Value
import Verif.Spec.Registers
import Verif.Model.Sub

/-!
# Specification: subcircuits
-/

namespace Verif
open Complex Classical

/-- an element of a circuit without measurements: distinct qubits below `n`, sizes fitting -/
def SubOK (n : ℕ) (e : List ℕ × CObj) : Prop := EntryOK n e ∧ e.2.n = e.1.length ∧ ∃ u, e.2.object = .unitary u

/-- the product of the global phases of a circuit -/
noncomputable def phases (ang : Rot → ℝ) : Pipeline → ℂ
  | [] => 1
  | e :: p => (match e.2.object with
    | .unitary (.GlobalPhase ρ) => exp (ang ρ * I)
    | _ => 1) * phases ang p

/-- the circuit with qubit `k` renamed to `R[k]` -/
def rename (R : Reg) (sc : Pipeline) : Pipeline := sc.map fun e => (at' R e.1, e.2)

/-- the values of the qubits `R` of `x` as the values of qubits `0, 1, …` -/
def pull (R : Reg) (x : Asg) : Asg := fun i => if i < R.length then x (R.getD i 0) else false

/-- `x` with the qubits `R` set to the values of the qubits `0, 1, …` of `y` -/
def emb (R : Reg) (x y : Asg) : Asg := fun q => if q ∈ R then y (R.idxOf q) else x q

/-- an action `V` on the qubits `0, 1, …`, carried out on the qubits `R` -/
noncomputable def moveW (R : Reg) (V : Asg → Wave) (x : Asg) : Wave := (V (pull R x)).mapDomain (emb R x)

/-- Objects which are conditioned as a controlled gate, though not always that of the object (see `condObj`). -/
def Condable (e : List ℕ × CObj) : Prop :=
  e.1.Nodup ∧ ((e.1.length = 1 ∧ (e.2.object = .unitary .X ∨ e.2.object = .unitary .Y ∨ e.2.object = .unitary .Z ∨
    e.2.object = .unitary .H ∨ e.2.object = .unitary .S ∨ e.2.object = .unitary .T)) ∨
  (e.1.length = 2 ∧ e.2.object = .unitary .CNOT))

/-- What a conditioned object really is the controlled version of: `-Y` in place of `Y`, and in place of `H` the matrix with
angle 1/4 instead of π/4 (C36). -/
noncomputable def condObj (o : CObj) : CObj :=
  match o.object with
  | .unitary .H => ⟨o.n, .unitary (.MAT [sin (1 / 4), cos (1 / 4), cos (1 / 4), -sin (1 / 4)])⟩
  | .unitary .Y => ⟨o.n, .unitary (.MAT [0, I, -I, 0])⟩
  | _ => o

/-- a circuit with every object replaced by `f` of it -/
def objects (f : CObj → CObj) (sc : Pipeline) : Pipeline := sc.map fun e => (e.1, f e.2)

end Verif
