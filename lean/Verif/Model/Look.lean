import Verif.Model.Calc
import Verif.Model.Cond

/-!
# Calculations on any builder

Models `CircuitBuilder::calculate_state_with_init` for `LocalBuilder` and `Conditioned` (`qip/src/conditioning.rs` L87-93), and the functions that
call it for any builder (`qip/src/builder_traits.rs` L211-213, L656-665). `none` is a panic; the draws as in `Model/Calc`.
-/

namespace Verif

/-- `CircuitBuilder::calculate_state_with_init`, builder_traits.rs L216-221, with `StateCalculation = (Vec<Complex<P>>, Measurements<P>)` -/
class Calculates (β : Type) where
  calculateWithInit : β → List (Reg × ℕ) → (ℕ → ℝ) → Option (List ℂ × List MeasResult)

/-- builder.rs L388-507 -/
noncomputable instance : Calculates LocalBuilder where
  calculateWithInit b it rnds := b.calculateStateWithInit it rnds

/-- conditioning.rs L87-93: the parent calculates; the condition register is not looked at -/
instance {β : Type} [Calculates β] : Calculates (Conditioned β) where
  calculateWithInit s it rnds := Calculates.calculateWithInit s.parent it rnds

/-- `calculate_state`, builder_traits.rs L211-213 (the default method: neither builder has its own) -/
def calculateOn {β : Type} [Calculates β] (b : β) (rnds : ℕ → ℝ) : Option (List ℂ × List MeasResult) := Calculates.calculateWithInit b [] rnds

/-- `make_circuit_matrix`, builder_traits.rs L656-665, for any builder (see `makeCircuitMatrix`) -/
def circuitMatrixOn {β : Type} [Calculates β] (b : β) (r : Reg) (f : List ℂ × List MeasResult → List ℂ) (rnds : ℕ → ℕ → ℝ) : Option (List (List ℂ)) :=
  (List.range (1 <<< r.length)).mapM fun indx => do
    let c ← Calculates.calculateWithInit b [(r, indx)] (rnds indx)
    some (f c)

end Verif
