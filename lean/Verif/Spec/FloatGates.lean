import Verif.Model.FloatGates
import Mathlib.Analysis.SpecialFunctions.Trigonometric.Basic

/-!
# Specification: gates whose entries are computed in floating point arithmetic
-/

namespace Verif

variable {f : Format} {fl : ℝ → ℝ}

/-- Cosine, sine and the constants are correct up to `u`, ratios up to the relative error `2 u` and one unit of the least exponent. With `u = 2^-p` this allows an error
of one unit in the last place and, for `f32`, the two roundings of a conversion by way of `f64`. -/
structure StdLib.Accurate (L : StdLib f) (u : ℝ) : Prop where
  cos : ∀ x : f.Fin, ∃ y : f.Fin, L.cos (some x) = some y ∧ |y.1 - Real.cos x.1| ≤ u
  sin : ∀ x : f.Fin, ∃ y : f.Fin, L.sin (some x) = some y ∧ |y.1 - Real.sin x.1| ≤ u
  invSqrt2 : ∃ y : f.Fin, L.invSqrt2 = some y ∧ |y.1 - 1 / Real.sqrt 2| ≤ u
  piQuarter : ∃ y : f.Fin, L.piQuarter = some y ∧ |y.1 - Real.pi / 4| ≤ u
  ofRatio : ∀ q : ℚ, |(q : ℝ)| ≤ f.top / 4 → ∃ y : f.Fin, L.ofRatio q = some y ∧ |y.1 - q| ≤ 2 * u * |(q : ℝ)| + (2 : ℝ) ^ f.emin

/-- the angle meant -/
noncomputable def RotP.exact : RotP f → Rot
  | .floating θ => .floating (f.partVal θ)
  | .piRational q => .piRational q

/-- the gate meant, with the exact values of its floating point numbers -/
noncomputable def UObjP.exact : UObjP f → UObj
  | .X => .X | .Y => .Y | .Z => .Z | .H => .H | .S => .S | .T => .T | .CNOT => .CNOT | .SWAP => .SWAP
  | .Rz r => .Rz r.exact
  | .MAT data => .MAT (data.map fun a => ⟨f.partVal a.1, f.partVal a.2⟩)
  | .GlobalPhase r => .GlobalPhase r.exact

/-- the element meant -/
noncomputable def ObjTypeP.exact : ObjTypeP f → ObjType
  | .unitary g => .unitary g.exact
  | .meas m => .meas m

/-- no number of the gate is infinite or NaN, and a rational angle is at most `Θ` -/
def UObjP.Within (Θ : ℝ) : UObjP f → Prop
  | .Rz (.floating θ) => θ.isSome = true
  | .Rz (.piRational q) => |(q : ℝ)| ≤ Θ
  | .MAT data => ∀ a ∈ data, a.1.isSome = true ∧ a.2.isSome = true
  | _ => True

/-- ... for an element of the pipeline -/
def ObjTypeP.Within (Θ : ℝ) : ObjTypeP f → Prop
  | .unitary g => g.Within Θ
  | .meas _ => True

/-- the entry of a user matrix that is meant by two floating point numbers: any complex number of which they are the parts up to the relative error of C87, and zero as zero -/
def EntryMeant (a : f.Part × f.Part) (z : ℂ) : Prop :=
  a.1.isSome = true ∧ a.2.isSome = true ∧ ‖(⟨f.partVal a.1, f.partVal a.2⟩ : ℂ) - z‖ ≤ f.relErr * ‖z‖ + f.absErr ∧
    (z = 0 → f.partVal a.1 = 0 ∧ f.partVal a.2 = 0)

/-- the entry of the pipeline of the model with exact numbers that is meant: the same qubits, and the exact values of all numbers, or for a user matrix a matrix with
entries near them (such as the unitary matrix whose entries the user has rounded), or for a rotation an angle near that given (such as a rounded one) -/
def Meant (c : List ℕ × ObjTypeP f) (e : List ℕ × CObj) : Prop :=
  e.1 = c.1 ∧ (e.2.object = c.2.exact ∨
    (∃ data d, c.2 = .unitary (.MAT data) ∧ e.2.object = .unitary (.MAT d) ∧ List.Forall₂ EntryMeant data d) ∨
    ∃ (x : f.Fin) (θ : ℝ), c.2 = .unitary (.Rz (.floating (some x))) ∧ e.2.object = .unitary (.Rz (.floating θ)) ∧ |x.1 - θ| ≤ 2 * f.eps + (2 : ℝ) ^ f.emin)

/-- the same error, or an op and another one that stores it with the relative error `u` and the absolute error `η` -/
def SameOp (A : f.Arith fl) (u η : ℝ) : Except Fail (MatrixOp A.Num) → Except Fail (MatrixOp ℂ) → Prop
  | .ok op, .ok U => StoresIn A.fin A.val u η op U
  | .error a, .error b => a = b
  | _, _ => False

end Verif
