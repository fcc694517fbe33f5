import Verif.Model.Builder

/-!
# Equality and hashing of circuit objects

Models the `PartialEq` and `Hash` implementations of `qip/src/builder.rs` L166-268. Here floats matter, so this file has
its own copies of the object types with floats instead of real numbers.

* `Flt` is an IEEE float (`f32` or `f64`): a finite non-zero one is its rational value.
* A hasher is the list of the data it was fed.
* `Display` of a finite non-zero float is some text `dec x` depending on the value only (which text does not matter);
  zero prints as `0` or `-0` (Rust 1.53 and later), the others as `NaN`, `inf`, `-inf`.
-/

namespace Verif

/-- an IEEE float -/
inductive Flt where
  | nan
  | inf (neg : Bool)
  | zero (neg : Bool)
  | fin (x : ℚ)
deriving DecidableEq

/-- `==` of floats (`P::eq`, used in builder.rs L198): NaN differs from everything, the two zeros are equal -/
def Flt.eq : Flt → Flt → Bool
  | .inf a, .inf b => a == b
  | .zero _, .zero _ => true
  | .fin x, .fin y => x == y
  | _, _ => false

/-- `format!("{}", f)`, builder.rs L212 -/
def Flt.display (dec : ℚ → String) : Flt → String
  | .nan => "NaN"
  | .inf neg => if neg then "-inf" else "inf"
  | .zero neg => if neg then "-0" else "0"
  | .fin x => dec x

/-- `RotationObject`, builder.rs L147-153 -/
inductive RotF where
  | floating (f : Flt)
  | piRational (q : ℚ)

/-- `UnitaryMatrixObject`, builder.rs L119-144; a complex number is a pair of floats -/
inductive UObjF where
  | X | Y | Z | H | S | T | CNOT | SWAP
  | Rz (r : RotF)
  | MAT (data : List (Flt × Flt))
  | GlobalPhase (r : RotF)

/-- `BuilderCircuitObjectType`, builder.rs L109-116 -/
inductive ObjTypeF where
  | unitary (u : UObjF)
  | meas (m : MObj)

/-- `PartialEq for RotationObject`, builder.rs L195-203 -/
def RotF.eq : RotF → RotF → Bool
  | .floating a, .floating b => a.eq b
  | .piRational a, .piRational b => a == b
  | _, _ => false

/-- `Complex::eq` (derived, num-complex): both parts -/
def cplxEq (a b : Flt × Flt) : Bool := a.1.eq b.1 && a.2.eq b.2

/-- `Vec::eq` (standard library): same length and equal elements -/
def matEq : List (Flt × Flt) → List (Flt × Flt) → Bool
  | [], [] => true
  | a :: as, b :: bs => cplxEq a b && matEq as bs
  | _, _ => false

/-- `PartialEq for UnitaryMatrixObject`, builder.rs L166-183 -/
def UObjF.eq : UObjF → UObjF → Bool
  | .X, .X => true
  | .Y, .Y => true
  | .Z, .Z => true
  | .H, .H => true
  | .S, .S => true
  | .T, .T => true
  | .CNOT, .CNOT => true
  | .SWAP, .SWAP => true
  | .Rz a, .Rz b => a.eq b
  | .MAT a, .MAT b => matEq a b
  | .GlobalPhase a, .GlobalPhase b => a.eq b
  | _, _ => false

/-- `PartialEq for BuilderCircuitObjectType`, builder.rs L185-193 (`MeasurementObject` derives it, L272) -/
def ObjTypeF.eq : ObjTypeF → ObjTypeF → Bool
  | .unitary a, .unitary b => a.eq b
  | .meas a, .meas b => a == b
  | _, _ => false

/-- one piece of data fed to a hasher -/
inductive Fed where
  | i8 (n : ℤ)
  | i64 (n : ℤ)
  | isize (n : ℤ)
  | str (s : String)
deriving DecidableEq

/-- `hash_p`, builder.rs L211-213 -/
def hashP (dec : ℚ → String) (f : Flt) : List Fed := [.str (f.display dec)]

/-- `Hash for Ratio` (num-rational): the quotients of Euclid's algorithm on numerator and denominator, then 0 -/
def hashRatio : ℕ → ℤ → ℤ → List Fed
  | 0, _, _ => []
  | k + 1, num, den => if den = 0 then [.i64 den] else .i64 (num.fdiv den) :: hashRatio k den (num.fmod den)

/-- `Hash for RotationObject`, builder.rs L260-268; the remainders of Euclid's algorithm decrease, so the bound on the
number of rounds is never reached -/
def RotF.hash (dec : ℚ → String) : RotF → List Fed
  | .floating f => hashP dec f
  | .piRational q => hashRatio (q.den + 2) q.num q.den

/-- `Hash for UnitaryMatrixObject`, builder.rs L230-258 -/
def UObjF.hash (dec : ℚ → String) : UObjF → List Fed
  | .X => [.i8 0]
  | .Y => [.i8 1]
  | .Z => [.i8 2]
  | .H => [.i8 3]
  | .S => [.i8 4]
  | .T => [.i8 5]
  | .CNOT => [.i8 6]
  | .SWAP => [.i8 7]
  | .Rz rot => .i8 8 :: rot.hash dec
  | .GlobalPhase rot => .i8 9 :: rot.hash dec
  | .MAT data => .i8 10 :: data.flatMap fun c => hashP dec c.1 ++ hashP dec c.2

/-- the derived `Hash for MeasurementObject`, builder.rs L272: the discriminant -/
def MObj.hash : MObj → List Fed
  | .measurement => [.isize 0]
  | .stochastic => [.isize 1]

/-- `Hash for BuilderCircuitObjectType`, builder.rs L215-228 -/
def ObjTypeF.hash (dec : ℚ → String) : ObjTypeF → List Fed
  | .meas m => .i8 0 :: m.hash
  | .unitary u => .i8 1 :: u.hash dec

end Verif
