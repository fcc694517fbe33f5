import Verif.Spec.Float
import Verif.Model.FloatMeasure

/-!
# Specification: floating point numbers with limited exponents

Numbers of a binary format with gradual underflow, infinities and NaN, as in IEEE 754 (binary64 is the `f64` of Rust). The two zeros are
not told apart: their sign changes nothing but the sign of other zeros, and they compare equal.
-/

namespace Verif

/-- Machine numbers `F` of which some are finite, with values `val`. As long as the exact result is at most `M` in size, sums and products
of finite numbers are finite and correct up to the relative error `u` plus `η`. -/
structure Limits {F : Type} [Zero F] [One F] [Add F] [Mul F] (fin : F → Prop) (val : F → ℂ) (u η M : ℝ) : Prop where
  u_nonneg : 0 ≤ u
  u_le_one : u ≤ 1
  η_nonneg : 0 ≤ η
  η_le_one : η ≤ 1
  fin_zero : fin 0
  fin_one : fin 1
  val_zero : val 0 = 0
  val_one : val 1 = 1
  add : ∀ a b, fin a → fin b → ‖val a + val b‖ ≤ M → fin (a + b) ∧ ‖val (a + b) - (val a + val b)‖ ≤ u * ‖val a + val b‖ + η
  mul : ∀ a b, fin a → fin b → ‖val a‖ * ‖val b‖ ≤ M → fin (a * b) ∧ ‖val (a * b) - val a * val b‖ ≤ u * (‖val a‖ * ‖val b‖) + η

/-- the finite number `a` is stored for `z`: with relative error at most `u` plus `η`, and zero as zero -/
def StoredAs {F : Type} [Zero F] (fin : F → Prop) (val : F → ℂ) (u η : ℝ) (a : F) (z : ℂ) : Prop :=
  fin a ∧ ‖val a - z‖ ≤ u * ‖z‖ + η ∧ (z = 0 → a = 0)

/-- `op` is the op `U` with its entries stored so -/
inductive StoresIn {F : Type} [Zero F] (fin : F → Prop) (val : F → ℂ) (u η : ℝ) : MatrixOp F → MatrixOp ℂ → Prop
  | matrix (idx : List ℕ) (d : List F) (d' : List ℂ) : List.Forall₂ (StoredAs fin val u η) d d' →
      StoresIn fin val u η (.matrix idx d) (.matrix idx d')
  | sparse (idx : List ℕ) (rows : List (List (ℕ × F))) (rows' : List (List (ℕ × ℂ))) :
      List.Forall₂ (List.Forall₂ fun e e' => e.1 = e'.1 ∧ StoredAs fin val u η e.2 e'.2) rows rows' →
      StoresIn fin val u η (.sparse idx rows) (.sparse idx rows')
  | swap (a : ℕ) (idx : List ℕ) : StoresIn fin val u η (.swap a idx) (.swap a idx)
  | control (nc : ℕ) (idx : List ℕ) (op : MatrixOp F) (U : MatrixOp ℂ) : StoresIn fin val u η op U →
      StoresIn fin val u η (.control nc idx op) (.control nc idx U)

/-- relative error of one op with at most `w` entries in a row on `n` qubits -/
noncomputable def stepErr (u η : ℝ) (n w : ℕ) : ℝ :=
  ((1 + u) ^ (w + 2) - 1) * Real.sqrt w + Real.sqrt (2 ^ n) * ((1 + u) ^ w * (w * (6 * η)))

/-! ### The format -/

/-- a binary format: number of digits, exponent of the last digit of the smallest and of the largest numbers -/
structure Format where
  p : ℕ
  emin : ℤ
  emax : ℤ

/-- binary64, the `f64` of Rust: 53 digits, least positive number `2^-1074`, largest number `(2^53 - 1) 2^971` -/
def binary64 : Format := ⟨53, -1074, 971⟩

/-- binary32, the `f32` of Rust: 24 digits, least positive number `2^-149`, largest number `(2^24 - 1) 2^104` -/
def binary32 : Format := ⟨24, -149, 104⟩

/-- a number of the format if exponents were not limited above -/
def Format.Fits (f : Format) (x : ℝ) : Prop := ∃ m e : ℤ, |m| < 2 ^ f.p ∧ f.emin ≤ e ∧ x = m * (2 : ℝ) ^ e

/-- the largest finite number -/
noncomputable def Format.top (f : Format) : ℝ := (2 ^ f.p - 1) * (2 : ℝ) ^ f.emax

/-- `fl` rounds to a nearest number, ties in any way -/
structure Format.Rounding (f : Format) (fl : ℝ → ℝ) : Prop where
  fits : ∀ x, f.Fits (fl x)
  nearest : ∀ x y, f.Fits y → |fl x - x| ≤ |y - x|

/-- a finite number -/
def Format.Fin (f : Format) : Type := { x : ℝ // f.Fits x ∧ |x| ≤ f.top }

/-- an arithmetic for the format -/
structure Format.Arith (f : Format) (fl : ℝ → ℝ) where
  near : f.Rounding fl
  hp : 2 ≤ f.p
  lo : f.emin ≤ -f.p
  hi : 1 ≤ f.emax

variable {f : Format} {fl : ℝ → ℝ}

/-- A part of a complex number; `none` is any infinity or NaN. Sums and products with one of these are never finite. -/
abbrev Format.Part (f : Format) : Type := Option f.Fin

open Classical in
/-- the rounded number, infinite if it is too large -/
noncomputable def Format.Arith.round (A : f.Arith fl) (x : ℝ) : f.Part :=
  if h : |fl x| ≤ f.top then some ⟨fl x, A.near.fits x, h⟩ else none

/-- sum of parts -/
noncomputable def Format.Arith.add (A : f.Arith fl) (a b : f.Part) : f.Part := do A.round ((← a).1 + (← b).1)
/-- difference of parts -/
noncomputable def Format.Arith.sub (A : f.Arith fl) (a b : f.Part) : f.Part := do A.round ((← a).1 - (← b).1)
/-- product of parts -/
noncomputable def Format.Arith.mul (A : f.Arith fl) (a b : f.Part) : f.Part := do A.round ((← a).1 * (← b).1)

/-- the complex numbers of the arithmetic -/
def Format.Arith.Num (_ : f.Arith fl) : Type := f.Part × f.Part

/-- both parts are finite -/
def Format.Arith.fin (A : f.Arith fl) (a : A.Num) : Prop := a.1.isSome = true ∧ a.2.isSome = true

/-- the value of a part -/
noncomputable def Format.partVal (f : Format) (a : f.Part) : ℝ := (a.map Subtype.val).getD 0

/-- the value -/
noncomputable def Format.Arith.val (A : f.Arith fl) (a : A.Num) : ℂ := ⟨f.partVal a.1, f.partVal a.2⟩

/-- the part stored for a number -/
noncomputable instance (A : f.Arith fl) : Zero A.Num := ⟨(A.round 0, A.round 0)⟩
noncomputable instance (A : f.Arith fl) : One A.Num := ⟨(A.round 1, A.round 0)⟩
/-- `num_complex::Complex`: sums part by part -/
noncomputable instance (A : f.Arith fl) : Add A.Num := ⟨fun a b => (A.add a.1 b.1, A.add a.2 b.2)⟩
/-- `num_complex::Complex`: `(ac - bd, ad + bc)` -/
noncomputable instance (A : f.Arith fl) : Mul A.Num :=
  ⟨fun a b => (A.sub (A.mul a.1 b.1) (A.mul a.2 b.2), A.add (A.mul a.1 b.2) (A.mul a.2 b.1))⟩
noncomputable instance (A : f.Arith fl) : DecidableEq A.Num := Classical.decEq _

open Classical in
/-- the arithmetic as the code uses it: quotients by zero and roots of negative numbers are not finite, and a number that is not finite
compares with nothing -/
noncomputable def Format.Arith.prec (A : f.Arith fl) : Prec f.Part where
  zero := A.round 0
  one := A.round 1
  add := A.add
  sub := A.sub
  mul := A.mul
  div a b := do
    let x ← a
    let y ← b
    if y.1 = 0 then none else A.round (x.1 / y.1)
  sqrt a := do
    let x ← a
    if x.1 < 0 then none else A.round (Real.sqrt x.1)
  le a b := match a, b with
    | some x, some y => decide (x.1 ≤ y.1)
    | _, _ => false
  beq a b := match a, b with
    | some x, some y => decide (x.1 = y.1)
    | _, _ => false

/-- relative error of a rounding -/
noncomputable def Format.eps (f : Format) : ℝ := (2 : ℝ)⁻¹ ^ f.p

/-- absolute error of a rounding by underflow -/
noncomputable def Format.tiny (f : Format) : ℝ := (2 : ℝ) ^ f.emin / 2

/-- relative error of a product of complex numbers -/
noncomputable def Format.relErr (f : Format) : ℝ := binErr f.p

/-- absolute error by underflow -/
noncomputable def Format.absErr (f : Format) : ℝ := 6 * (2 : ℝ) ^ f.emin

end Verif
