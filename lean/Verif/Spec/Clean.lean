import Verif.Spec.Wave
import Verif.Model.Builder
import Verif.Spec.Matrix

/-!
# Specification: ownership of qubits and clean temporaries
-/

namespace Verif

/-- the caller holds exactly the qubits `L` of the builder: they and the qubits in the pool of temporaries are
distinct and allocated; the pool holds single qubits -/
structure Own (b : LocalBuilder) (L : List ℕ) : Prop where
  pool : ∀ r ∈ b.zeroedQubits, r.length = 1
  nodup : (L ++ b.zeroedQubits.flatten).Nodup
  lt : ∀ q ∈ L ++ b.zeroedQubits.flatten, q < b.n

/-- in the basis state `x` all qubits of the pool are 0, and so are those not yet allocated -/
def Clean (b : LocalBuilder) (x : Asg) : Prop := ∀ q, (q ∈ b.zeroedQubits.flatten ∨ b.n ≤ q) → x q = false

/-- a unitary circuit element fit for execution on `n` qubits and for being applied again as a subcircuit -/
def SegOK (n : ℕ) (e : List ℕ × CObj) : Prop :=
  EntryOK n e ∧ e.2.n = e.1.length ∧ ∃ u, e.2.object = .unitary u ∧ ∀ ρ, u ≠ .GlobalPhase ρ

/-- ... with a unitary matrix, if it is given by a matrix -/
def SegU (n : ℕ) (e : List ℕ × CObj) : Prop :=
  SegOK n e ∧ ∀ data, e.2.object = .unitary (.MAT data) → IsUnitary e.1.length fun i j => (data[i * 2 ^ e.1.length + j]?).getD 0

/-- `b'` arises from `b` by adding unitary circuit elements which send every basis state `x` with clean temporaries to
`U x`, again with clean temporaries; measurements are not affected -/
structure Evolves (ang : Rot → ℝ) (b b' : LocalBuilder) (U : Asg → Wave) : Prop where
  n_le : b.n ≤ b'.n
  meas : b'.measurements = b.measurements
  seg : ∃ seg, b'.pipeline = b.pipeline ++ seg ∧ (∀ e ∈ seg, SegU b'.n e) ∧
    ∀ x, Clean b x → runW ang seg (ket x) = U x ∧ ∀ y ∈ (U x).support, Clean b' y

/-- the underlying `LocalBuilder` and the list of condition registers (`none`: a condition register is lost) -/
class Rooted (β : Type) where
  root : β → LocalBuilder
  ctl : β → Option (List Reg)

open Rooted

instance : Rooted LocalBuilder where
  root b := b
  ctl _ := some []

/-- the method `m` called in state `s` returns `a`, the caller then holds `L`, and the circuit evolves by `U` -/
def Does (ang : Rot → ℝ) {β α : Type} [Rooted β] (m : M β α) (s : β) (a : α) (L : List ℕ) (U : Asg → Wave) : Prop :=
  ∃ s', m s = .ok a s' ∧ ctl s' = ctl s ∧ Own (root s') L ∧ Evolves ang (root s) (root s') U

/-- the one-qubit gate `m` on every qubit of `r` -/
noncomputable def eachW (m : ℕ → ℕ → ℂ) : Reg → Wave →ₗ[ℂ] Wave
  | [] => LinearMap.id
  | q :: r => eachW m r ∘ₗ gateW [q] m

end Verif
