import Verif.Model.Sub
import Verif.Model.Wide

/-!
# Rational angles on machine words

`Model/Builder` has the ratios of `RotationObject::PiRational` (builder.rs L147-153) as rational numbers. In Rust they are `Ratio<i64>` of the crate `num-rational`
(0.4, of which no source is in the repository; `Ratio::new`, `Ratio::reduce`, `Neg` and `Div<T>` are modelled after its documentation and source as published), a
numerator and a denominator of 64 bits. Here a word is an integer, and the result of each operation goes through `i64`: if it does not fit, a checked build panics and an
unchecked one wraps. The conversion of a ratio to a float (`P::from(theta)`) is the exact quotient, as in `Model/Gates`.
-/

namespace Verif
open RegOps CircuitBuilder TempBuilder

/-- the result of an operation on `i64` whose exact result is `x`: none is a panic (arithmetic in `Ratio<i64>`, builder.rs L5, L55, L161, L643, L767) -/
def i64 (checked : Bool) (x : ℤ) : Option ℤ :=
  if -2 ^ 63 ≤ x ∧ x < 2 ^ 63 then some x else if checked then none else some (x.bmod (2 ^ 64))

/-- `x / y` for `i64`: panics for `y = 0` and on overflow in both kinds of build (used in `Ratio::new(1, m)` and `r / 2`, builder.rs L55, L643, L767) -/
def quot64 (x y : ℤ) : Option ℤ := if y = 0 then none else if x = -2 ^ 63 ∧ y = -1 then none else some (x.tdiv y)

/-- `gcd` of `i64` in `num-integer` (the absolute value of the result overflows if it is `2^63`), used in builder.rs L55, L643, L767 -/
def gcdWord (checked : Bool) (x y : ℤ) : Option ℤ := i64 checked (Int.gcd x y)

/-- `Ratio<i64>` (`Rational64`), builder.rs L5 and L152 -/
structure Ratio64 where
  num : ℤ
  den : ℤ
deriving DecidableEq

/-- `Ratio::new` with `Ratio::reduce` of `num-rational`, called in builder.rs L55 and L643, builder_traits.rs L609-617 -/
def Ratio64.new (checked : Bool) (n d : ℤ) : Option Ratio64 :=
  if d = 0 then none
  else if n = 0 then some ⟨0, 1⟩
  else if n = d then some ⟨1, 1⟩
  else do
    let g ← gcdWord checked n d
    let n ← quot64 n g
    let d ← quot64 d g
    if d < 0 then do
      let n ← i64 checked (0 - n)
      let d ← i64 checked (0 - d)
      some ⟨n, d⟩
    else some ⟨n, d⟩

/-- `-r`, builder.rs L161 and builder_traits.rs L603 -/
def Ratio64.neg (checked : Bool) (r : Ratio64) : Option Ratio64 := do
  let n ← i64 checked (-r.num)
  some ⟨n, r.den⟩

/-- `r / 2`, builder.rs L767 (`Div<T>` of `num-rational`) -/
def Ratio64.half (checked : Bool) (r : Ratio64) : Option Ratio64 := do
  let g ← gcdWord checked r.num 2
  let n ← quot64 r.num g
  let k ← quot64 2 g
  let d ← i64 checked (r.den * k)
  Ratio64.new checked n d

/-- `P::from(r)`, builder_traits.rs L591, builder.rs L471 -/
def Ratio64.val (r : Ratio64) : ℚ := r.num / r.den

/-- `rx_ratio` (default method), builder_traits.rs L594-598 -/
noncomputable def rxRatio64 (r : Reg) (q : Ratio64) : M LocalBuilder Reg := rxRatioDefault LocalBuilder.rzRatio r q.val

/-- `ry_ratio` (default method), builder_traits.rs L600-606 -/
noncomputable def ryRatio64 (checked : Bool) (r : Reg) (q : Ratio64) : M LocalBuilder Reg := do
  let r ← Gate.s r
  let r ← Gate.h r
  let q ← unwrapO (q.neg checked)
  let r ← LocalBuilder.rzRatio r q.val
  let r ← Gate.h r
  sDagger r

/-- `rx_pi_by` (default method), builder_traits.rs L612-614 -/
noncomputable def rxPiBy64 (checked : Bool) (r : Reg) (m : ℤ) : M LocalBuilder Reg := do
  let q ← unwrapO (Ratio64.new checked 1 m)
  rxRatio64 r q

/-- `ry_pi_by` (default method), builder_traits.rs L616-618 -/
noncomputable def ryPiBy64 (checked : Bool) (r : Reg) (m : ℤ) : M LocalBuilder Reg := do
  let q ← unwrapO (Ratio64.new checked 1 m)
  ryRatio64 checked r q

/-- `apply_global_phase_pi_by`, builder.rs L54-56 -/
def globalPhasePiBy64 (checked : Bool) (r : Reg) (m : ℤ) : M LocalBuilder Reg := do
  let q ← unwrapO (Ratio64.new checked 1 m)
  LocalBuilder.applyGlobalPhaseRatio r q.val

/-- `invert_circuit_object` of an `Rz` with a ratio on `n` qubits, builder.rs L155-164 and L911-955 -/
def invertRz64 (checked : Bool) (n : ℕ) (q : Ratio64) : Except Fail (List CObj) :=
  match q.neg checked with
  | none => .error .panic
  | some q => .ok [⟨n, .unitary (.Rz (.piRational q.val))⟩]

/-- `try_apply_with_condition` of a `GlobalPhase` with a ratio, builder.rs L753-776 -/
noncomputable def condGlobalPhase64 (checked : Bool) (cr r : Reg) (q : Ratio64) : M LocalBuilder (Reg × Reg) := do
  let tq ← TempBuilder.makeTempQubit
  let (cr, tq) ← toffoli cr tq
  let half ← unwrapO (q.half checked)
  let tq ← LocalBuilder.rzRatio tq half.val
  let tq ← LocalBuilder.applyGlobalPhaseRatio tq half.val
  let (cr, tq) ← toffoli cr tq
  TempBuilder.returnTemp tq
  pure (cr, r)

end Verif
