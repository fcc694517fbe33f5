import Verif.Spec.Wave
import Verif.Spec.Matrix

/-! # Specification: the number held by a register -/

namespace Verif

/-- the number held by a register in a basis state: qubit `k` of the register is bit `k` -/
def valQ : Reg → Asg → ℕ
  | [], _ => 0
  | q :: r, x => (x q).toNat + 2 * valQ r x

/-- `x` with the register `r` holding `v` -/
def putVal (r : Reg) (v : ℕ) (x : Asg) : Asg := fun q => if q ∈ r then v.testBit (r.idxOf q) else x q

/-- the basis state in which the registers are initialised: qubit `k` of a register is bit `k` of its value, all
other qubits are 0 -/
noncomputable def initAsg (it : List (Reg × ℕ)) : Asg := fun q =>
  open Classical in decide (∃ p ∈ it, ∃ k, p.1[k]? = some q ∧ p.2.testBit k = true)

/-- the `MAT` objects of a circuit hold unitary matrices -/
def UnitaryMats (p : Pipeline) : Prop :=
  ∀ e ∈ p, ∀ data, e.2.object = .unitary (.MAT data) →
    IsUnitary e.1.length fun i j => (data[i * 2 ^ e.1.length + j]?).getD 0

end Verif
