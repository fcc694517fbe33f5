import Verif.Spec.Commute
import Verif.Spec.Main

/-!
# Specification: copies of registers

Read off the text of the main program.
-/

namespace Verif

/-- the `program!` line that copies register `i` to register `j` -/
def copyTo (i j : ℕ) : Prog := .prog (.plain (.call .copy) [[(i, none)], [(j, none)]] .nil)

/-- the step has nothing to do with register `j`, or leaves it as it is -/
def Act.Spares (j : ℕ) : Act → Prop
  | .run p => p.Uses j → p.Spares j
  | .measure _ => True

/-- the step has nothing to do with register `j` -/
def Act.Ignores (j : ℕ) : Act → Prop
  | .run p => ¬ p.Uses j
  | .measure k => k ≠ j

end Verif
