import Verif.Spec.Clean
import Verif.Model.Cond

/-!
# Specification: controlled gates
-/

namespace Verif
open Classical

/-- the gate `W` applied to `|x⟩` if all qubits of `cs` are 1 in it, and nothing otherwise -/
noncomputable def ctlW (cs : List ℕ) (W : Wave →ₗ[ℂ] Wave) (x : Asg) : Wave :=
  if ∀ c ∈ cs, x c = true then W (ket x) else ket x

/-- the condition registers of a conditioned builder are its own (never empty, see `Model/Builder`) and those of its
parent -/
instance {β : Type} [Rooted β] : Rooted (Conditioned β) where
  root s := Rooted.root s.parent
  ctl s :=
    match s.cr, Rooted.ctl s.parent with
    | some (c :: cr), some cs => some ((c :: cr) :: cs)
    | _, _ => none

end Verif
