import Verif.Model.Calc
import Verif.Spec.FloatLoop

/-!
# The entries of the gates in floating point arithmetic

`calculate_state_with_init` (`qip/src/builder.rs` L424-486) computes the entries of the gates in the number type `P` of the builder, with constants and with
the cosine and sine of the standard library. Here this is done with the numbers of a binary format. The functions of the standard library are parameters.
-/

namespace Verif

variable {f : Format} {fl : ℝ → ℝ}

/-- `RotationObject`, builder.rs L148-153, over the numbers of a format -/
inductive RotP (f : Format) where
  | floating (θ : f.Part)
  | piRational (q : ℚ)

/-- `UnitaryMatrixObject`, builder.rs L119-144, over the numbers of a format -/
inductive UObjP (f : Format) where
  | X | Y | Z | H | S | T | CNOT | SWAP
  | Rz (r : RotP f)
  | MAT (data : List (f.Part × f.Part))
  | GlobalPhase (r : RotP f)

/-- `BuilderCircuitObjectType`, builder.rs L110-115, over the numbers of a format -/
inductive ObjTypeP (f : Format) where
  | unitary (u : UObjP f)
  | meas (m : MObj)

/-- What the code takes from elsewhere: cosine and sine of `P` (`num_complex` calls them in `from_polar`), `P::from(FRAC_1_SQRT_2)` (builder.rs L437),
`P::from(FRAC_PI_4)` (L444) and `r.to_f64().and_then(|f| P::from(f))` (L473), whose `unwrap` does not fail: both conversions always give a number. -/
structure StdLib (f : Format) where
  cos : f.Part → f.Part
  sin : f.Part → f.Part
  invSqrt2 : f.Part
  piQuarter : f.Part
  ofRatio : ℚ → f.Part

/-- `-x` for a number of the format; changes no digits -/
def negP : f.Part → f.Part :=
  Option.map fun x => ⟨-x.1, by obtain ⟨m, e, h1, h2, h3⟩ := x.2.1; exact ⟨-m, e, by rwa [abs_neg], h2, by rw [h3]; push_cast; ring⟩, by rw [abs_neg]; exact x.2.2⟩

/-- `-z` for `num_complex::Complex` -/
def Format.Arith.negC (A : f.Arith fl) (z : A.Num) : A.Num := (negP z.1, negP z.2)

/-- `z * c` for a `num_complex::Complex` and a number -/
noncomputable def Format.Arith.scaleC (A : f.Arith fl) (z : A.Num) (c : f.Part) : A.Num := (A.mul z.1 c, A.mul z.2 c)

/-- `Complex::i()` -/
noncomputable def Format.Arith.iC (A : f.Arith fl) : A.Num := (A.round 0, A.round 1)

/-- `Complex::from_polar(r, theta)` of num-complex 0.4: `(r * cos(theta), r * sin(theta))` -/
noncomputable def Format.Arith.fromPolar (A : f.Arith fl) (L : StdLib f) (r θ : f.Part) : A.Num := (A.mul r (L.cos θ), A.mul r (L.sin θ))

/-- the angle of a rotation, builder.rs L470-475 -/
def angleP (L : StdLib f) : RotP f → f.Part
  | .floating p => p
  | .piRational r => L.ofRatio r

/-- the op made for a unitary object, builder.rs L424-486 (`GlobalPhase` is handled before, L420) -/
noncomputable def unitaryOpP (A : f.Arith fl) (L : StdLib f) (indices : List ℕ) : UObjP f → Except Fail (MatrixOp A.Num)
  | .X => makeMatrixOp indices [0, 1, 1, 0]
  | .Y => makeMatrixOp indices [0, A.negC A.iC, A.iC, 0]
  | .Z => makeMatrixOp indices [1, 0, 0, A.negC 1]
  | .H =>
    let nl := A.scaleC 1 L.invSqrt2
    makeMatrixOp indices [nl, nl, nl, A.negC nl]
  | .S => makeMatrixOp indices [1, 0, 0, A.iC]
  | .T => makeMatrixOp indices [1, 0, 0, A.fromPolar L (A.round 1) L.piQuarter]
  | .CNOT =>
    match indices with
    | [] => .error .panic
    | c :: rest => do
      let inner ← makeMatrixOp rest [0, 1, 1, 0]
      makeControlOp [c] inner
  | .MAT data => makeMatrixOp indices (data : List A.Num)
  | .SWAP =>
    let n := indices.length
    if n % 2 ≠ 0 then .error .panic
    else makeSwapOp (indices.take (n / 2)) (indices.drop (n / 2))
  | .Rz theta =>
    let hTheta := A.mul (angleP L theta) (A.round (1 / 2))
    makeMatrixOp indices [A.fromPolar L (A.round 1) (negP hTheta), 0, 0, A.fromPolar L (A.round 1) hTheta]
  | .GlobalPhase _ => .error .panic

/-- an entry of the pipeline as an element of the loop, builder.rs L416-500; an error of the op is a panic (L505) -/
noncomputable def elemP (A : f.Arith fl) (L : StdLib f) (e : List ℕ × ObjTypeP f) : Except Fail (ElemC A.Num) :=
  match e.2 with
  | .unitary (.GlobalPhase _) => .ok .globalPhase
  | .unitary g =>
    match unitaryOpP A L e.1 g with
    | .ok op => .ok (.op op)
    | .error _ => .error .panic
  | .meas .measurement => .ok (.measurement e.1)
  | .meas .stochastic => .ok (.stochastic e.1)

end Verif
