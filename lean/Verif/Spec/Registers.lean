import Verif.Model.Builder

/-! # Specification: positions in registers -/

namespace Verif

/-- the qubits at the given positions -/
def at' (r : Reg) (is : List ℕ) : Reg := is.map fun i => r.getD i 0

end Verif
