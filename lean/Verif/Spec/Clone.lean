import Verif.Spec.Main

/-!
# Specification: what a cloning program would have to do
-/

namespace Verif

/-- `program!` with one line: a named gate on the first qubit of register `k`, or no line -/
def clonePrep (k : ℕ) : Option Named → Prog
  | none => .prog .nil
  | some g => .prog (.plain (.call (.named g)) [[(k, some [0])]] .nil)

/-- the test of a cloning program `c`: a gate that undoes itself prepares the first register, `c` runs, the gate undoes the preparation in the first two registers, which are measured. A
clone of the state in the second register gives 0 and 0. -/
def cloneActs (c : Prog) (g : Option Named) : List Act :=
  [.run (clonePrep 0 g), .run c, .run (clonePrep 0 g), .run (clonePrep 1 g), .measure 0, .measure 1]

end Verif
