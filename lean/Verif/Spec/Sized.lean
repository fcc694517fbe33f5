import Verif.Model.Builder

/-! ## Circuit elements that the memory of the machine can hold -/

namespace Verif

/-- the matrix of a gate, if it is one of the user, fits into a `Vec` -/
def UObj.Fits : UObj → Prop
  | .MAT data => data.length < 2 ^ 63
  | _ => True

/-- a circuit element on distinct qubits below `n` whose matrix, if it has one, fits into a `Vec` -/
def Sized (n : ℕ) (e : List ℕ × CObj) : Prop := e.1.Nodup ∧ (∀ q ∈ e.1, q < n) ∧ ∀ u, e.2.object = .unitary u → u.Fits

end Verif
