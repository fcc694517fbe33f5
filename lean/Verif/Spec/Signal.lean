import Verif.Spec.Commute
import Verif.Spec.Main

/-!
# Specification: steps that have nothing to do with each other

Read off the text of the main program.
-/

namespace Verif

/-- two steps of a main program have nothing to do with each other, except for registers that both leave as they are; measurements leave the register as it is -/
def Act.Apart : Act → Act → Prop
  | .run p, .run q => Verif.Apart p q
  | .run p, .measure k => p.Uses k → p.Spares k
  | .measure k, .run p => p.Uses k → p.Spares k
  | .measure _, .measure _ => True

/-- the sum over all possible outcomes of the measurements among the steps -/
noncomputable def overOutcomes (rs : List Reg) : List Act → (List ℕ → ENNReal) → ENNReal
  | [], f => f []
  | .run _ :: as, f => overOutcomes rs as f
  | .measure i :: as, f => ∑ m ∈ Finset.range (2 ^ (rs.getD i []).length), overOutcomes rs as fun ms => f (m :: ms)

end Verif
