import Verif.Spec.Born
import Verif.Spec.Program

/-!
# Specification: exchanging two registers, flipping registers under conditions
-/

namespace Verif

/-- the basis state `x` with the values of the registers `ra` and `rb` exchanged -/
def exch (ra rb : Reg) (x : Asg) : Asg := fun q =>
  if q ∈ ra then x (rb.getD (ra.idxOf q) 0) else if q ∈ rb then x (ra.getD (rb.idxOf q) 0) else x q

/-- ... for superpositions -/
noncomputable def exchW (ra rb : Reg) : Wave →ₗ[ℂ] Wave := Finsupp.lmapDomain ℂ ℂ (exch ra rb)

/-- flip the qubits of `r` and multiply by `c`, if all qubits of `cr` are 1 -/
noncomputable def flipIf (c : ℂ) (cr r : Reg) (x : Asg) : Wave :=
  if ∀ q ∈ cr, x q = true then c • ket (flipAll r x) else ket x

/-- what a `toffoli` call with two controls on a builder with conditions does in place of flipping `q` -/
noncomputable def turnIf (cr : Reg) (q : ℕ) (x : Asg) : Wave :=
  if ∀ c ∈ cr, x c = true then
    gateW [q] (mat2 (-Complex.cos (1 / 2)) (Complex.sin (1 / 2)) (Complex.sin (1 / 2)) (Complex.cos (1 / 2))) (ket x)
  else ket x

/-- the condition of a line `control` or `control(m)`, as documented: all qubits are 1, or the register has the value of the mask -/
def Holds (m : Option ℕ) (cr : Reg) (x : Asg) : Prop :=
  match m with
  | none => ∀ c ∈ cr, x c = true
  | some m => valQ cr x = m % 2 ^ cr.length

end Verif
