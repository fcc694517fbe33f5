import Verif.Spec.Wave

/-!
# Specification: gates that leave a register alone
-/

namespace Verif

/-- The element is not on qubits of `r`, or a phase gate, or a CNOT whose target is not in `r` (its control may be). -/
inductive LeavesAlone (r : Reg) : List ℕ × CObj → Prop
  | apart (e : List ℕ × CObj) : List.Disjoint e.1 r → LeavesAlone r e
  | phase (q w : ℕ) (g : UObj) : (g = .Z ∨ g = .S ∨ g = .T ∨ ∃ ρ, g = .Rz ρ) → LeavesAlone r ([q], ⟨w, .unitary g⟩)
  | cnot (c t w : ℕ) : c ≠ t → t ∉ r → LeavesAlone r ([c, t], ⟨w, .unitary .CNOT⟩)

end Verif
