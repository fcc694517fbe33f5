import Verif.Model.Builder
import Mathlib.Data.Real.Sqrt
import Mathlib.Analysis.SpecialFunctions.Complex.Circle

/-!
# Gates, temporaries, Toffoli and rotations

Models the traits `UnitaryBuilder`, `CliffordTBuilder`, `TemporaryRegisterBuilder`, `AdvancedCircuitBuilder` and
`RotationsBuilder` of `qip/src/builder_traits.rs` and their implementations for `LocalBuilder` in
`qip/src/builder.rs`.
-/

namespace Verif
open Complex RegOps CircuitBuilder

/-- `UnitaryBuilder` and `CliffordTBuilder`, builder_traits.rs L242-375 (methods overridden somewhere) -/
class CliffordT (β : Type) extends CircuitBuilder β where
  vecMatrixToCO : ℕ → List ℂ → CObj
  makeX : β → CObj
  makeY : β → CObj
  makeZ : β → CObj
  makeH : β → CObj
  makeS : β → CObj
  makeT : β → CObj
  makeCnot : β → CObj

section CliffordT
variable {β : Type} [CliffordT β]
open CliffordT

/-- `apply_vec_matrix`, builder_traits.rs L244-251 -/
def applyVecMatrix (r : Reg) (data : List ℂ) : M β Reg :=
  applyCO r (vecMatrixToCO β r.length data)

/-- `apply_matrix`, builder_traits.rs L254-261 (through `matrix_to_circuitobject`, L277-282) -/
def applyMatrix (r : Reg) (data : List ℂ) : M β Reg :=
  applyCO r (vecMatrixToCO β r.length data)

/-- `broadcast_single_qubit_matrix`, builder_traits.rs L265-273: the object gets `n = r.n()` -/
def broadcastSingleQubitMatrix (r : Reg) (data : List ℂ) : M β Reg :=
  unwrapM (applyCO r (vecMatrixToCO β r.length data))

/-- `self.apply_circuit_object(r, self.make_?()).unwrap()`, builder_traits.rs L383-421 -/
def gate (mk : β → CObj) (r : Reg) : M β Reg := do
  let b ← get
  unwrapM (applyCO r (mk b))

/-- `x`, builder_traits.rs L383-385 -/
def Gate.x (r : Reg) : M β Reg := gate makeX r
/-- `not`, builder_traits.rs L378-380 -/
def Gate.not (r : Reg) : M β Reg := Gate.x r
/-- `y`, builder_traits.rs L388-390 -/
def Gate.y (r : Reg) : M β Reg := gate makeY r
/-- `z`, builder_traits.rs L393-395 -/
def Gate.z (r : Reg) : M β Reg := gate makeZ r
/-- `h`, builder_traits.rs L398-400 -/
def Gate.h (r : Reg) : M β Reg := gate makeH r
/-- `t`, builder_traits.rs L403-405 -/
def Gate.t (r : Reg) : M β Reg := gate makeT r
/-- `s`, builder_traits.rs L414-416 -/
def Gate.s (r : Reg) : M β Reg := gate makeS r

/-- `s_dagger`, builder_traits.rs L419-422 -/
def sDagger (r : Reg) : M β Reg := do
  let r ← Gate.z r
  Gate.s r

/-- `t_dagger`, builder_traits.rs L408-411 -/
def tDagger (r : Reg) : M β Reg := do
  let r ← sDagger r
  Gate.t r

/-- one round of the fold in `cnot`, builder_traits.rs L437-447 -/
def cnotStep (p : Reg × List Reg) (r : Reg) : M β (Reg × List Reg) := do
  let r ← mergeTwo p.1 r
  let b ← get
  let r ← applyCO r (makeCnot b)
  match ← splitRel r [0] with
  | .split cr r => pure (cr, p.2 ++ [r])
  | .selected _ => throw .panic
  | .unselected _ => throw .panic

/-- `cnot`, builder_traits.rs L425-451 -/
def cnot (cr r : Reg) : M β (Reg × Reg) := do
  if cr.length > 1 then throw .error
  else
    let rs ← splitAll r
    let p ← rs.foldlM cnotStep (cr, [])
    let m ← mergeRegisters p.2
    let r ← unwrapO m
    pure (p.1, r)

/-- the body of the `map` in `swap`, builder_traits.rs L464-471 -/
def swapPair (ra rb : Reg) : M β (Reg × Reg) := do
  if ra.length ≠ 1 ∨ rb.length ≠ 1 then throw .panic
  unwrapM do
    let (ra, rb) ← cnot ra rb
    let (rb, ra) ← cnot rb ra
    cnot ra rb

/-- `swap`, builder_traits.rs L454-482 -/
def swap (ra rb : Reg) : M β (Reg × Reg) := do
  if ra.length = rb.length then
    let ras ← splitAll ra
    let rbs ← splitAll rb
    let ps ← (ras.zip rbs).mapM fun p => swapPair p.1 p.2
    let ma ← mergeRegisters (ps.map Prod.fst)
    let ra ← unwrapO ma
    let mb ← mergeRegisters (ps.map Prod.snd)
    let rb ← unwrapO mb
    pure (ra, rb)
  else throw .error

end CliffordT

/-! ### default gate objects (overridden by `LocalBuilder`) -/

/-- default `make_x` data, builder_traits.rs L293-303 -/
def defaultX : List ℂ := [0, 1, 1, 0]
/-- default `make_y` data, builder_traits.rs L307-317 -/
noncomputable def defaultY : List ℂ := [0, -I, I, 0]
/-- default `make_z` data, builder_traits.rs L321-331 -/
def defaultZ : List ℂ := [1, 0, 0, -1]
/-- default `make_h` data, builder_traits.rs L335-338 -/
noncomputable def defaultH : List ℂ :=
  let l : ℂ := ((1 / Real.sqrt 2 : ℝ) : ℂ)
  [l, l, l, -l]
/-- default `make_s` data, builder_traits.rs L342-352 -/
noncomputable def defaultS : List ℂ := [1, 0, 0, I]
/-- default `make_t` data, builder_traits.rs L356-366 -/
noncomputable def defaultT : List ℂ := [1, 0, 0, exp ((Real.pi / 4 : ℝ) * I)]
/-- default `make_cnot` data, builder_traits.rs L371-375 -/
def defaultCnot : List ℂ := [1, 0, 0, 0, 0, 1, 0, 0, 0, 0, 0, 1, 0, 0, 1, 0]

section Defaults
variable {β : Type} [CliffordT β]
open CliffordT

/-- `matrix_to_circuitobject`, builder_traits.rs L277-282 -/
def matrixToCO (β : Type) [CliffordT β] (n : ℕ) (data : List ℂ) : CObj := vecMatrixToCO β n data
/-- default `make_x`, builder_traits.rs L293-303 -/
def defaultMakeX (_ : β) : CObj := matrixToCO β 1 defaultX
/-- default `make_y`, builder_traits.rs L307-317 -/
noncomputable def defaultMakeY (_ : β) : CObj := matrixToCO β 1 defaultY
/-- default `make_z`, builder_traits.rs L321-331 -/
def defaultMakeZ (_ : β) : CObj := matrixToCO β 1 defaultZ
/-- default `make_h`, builder_traits.rs L335-338 -/
noncomputable def defaultMakeH (_ : β) : CObj := matrixToCO β 1 defaultH
/-- default `make_s`, builder_traits.rs L342-352 -/
noncomputable def defaultMakeS (_ : β) : CObj := matrixToCO β 1 defaultS
/-- default `make_t`, builder_traits.rs L356-366 -/
noncomputable def defaultMakeT (_ : β) : CObj := matrixToCO β 1 defaultT
/-- default `make_cnot`, builder_traits.rs L371-375 -/
def defaultMakeCnot (_ : β) : CObj := matrixToCO β 2 defaultCnot

end Defaults

namespace LocalBuilder

/-- builder.rs L510-562 -/
instance : CliffordT LocalBuilder where
  vecMatrixToCO n data := ⟨n, .unitary (.MAT data)⟩
  makeX _ := ⟨1, .unitary .X⟩
  makeY _ := ⟨1, .unitary .Y⟩
  makeZ _ := ⟨1, .unitary .Z⟩
  makeH _ := ⟨1, .unitary .H⟩
  makeS _ := ⟨1, .unitary .S⟩
  makeT _ := ⟨1, .unitary .T⟩
  makeCnot _ := ⟨2, .unitary .CNOT⟩

end LocalBuilder

/-! ## Temporaries -/

/-- `TemporaryRegisterBuilder`, builder_traits.rs L486-498 -/
class TempBuilder (β : Type) extends CliffordT β where
  makeTempQubit : M β Reg
  returnTemp : Reg → M β Unit

open TempBuilder

/-- `make_zeroed_temp_register`, builder_traits.rs L490-495 (`n ≥ 1`) -/
def makeTempRegister {β : Type} [TempBuilder β] (n : ℕ) : M β Reg := do
  let rs ← (List.range n).mapM fun _ => makeTempQubit (β := β)
  let m ← mergeRegisters rs
  unwrapO m

namespace LocalBuilder

/-- `make_zeroed_temp_qubit`, builder.rs L565-571 (`Vec::pop` takes the last one) -/
def makeTempQubit : M LocalBuilder Reg := do
  let b ← get
  match b.zeroedQubits.getLast? with
  | some r =>
    set { b with zeroedQubits := b.zeroedQubits.dropLast }
    pure r
  | none => qubit

/-- `return_zeroed_temp_register`, builder.rs L573-576 -/
def returnTemp (r : Reg) : M LocalBuilder Unit := do
  let rs ← splitAll r
  modify fun b => { b with zeroedQubits := b.zeroedQubits ++ rs }

instance : TempBuilder LocalBuilder where
  makeTempQubit := makeTempQubit
  returnTemp := returnTemp

end LocalBuilder

/-! ## Toffoli -/

section Advanced
variable {β : Type} [TempBuilder β]

/-- `basic_toffoli`, builder_traits.rs L505-538 -/
def basicToffoli (cr r : Reg) : M β (Reg × Reg) := do
  if cr.length = 2 then
    match ← splitRel cr [0] with
    | .split cra crb =>
      let r ← Gate.h r
      let (crb, r) ← unwrapM (cnot crb r)
      let r ← tDagger r
      let (cra, r) ← unwrapM (cnot cra r)
      let r ← Gate.t r
      let (crb, r) ← unwrapM (cnot crb r)
      let r ← tDagger r
      let (cra, r) ← unwrapM (cnot cra r)
      let crb ← Gate.t crb
      let r ← Gate.t r
      let (cra, crb) ← unwrapM (cnot cra crb)
      let r ← Gate.h r
      let cra ← Gate.t cra
      let crb ← tDagger crb
      let (cra, crb) ← unwrapM (cnot cra crb)
      let cr ← mergeTwo cra crb
      pure (cr, r)
    | _ => throw .panic
  else throw .error

/-- `toffoli`, builder_traits.rs L541-568. The first argument bounds the recursion depth (the number of control
qubits suffices, see `toffoli_spec`). -/
def toffoliF : ℕ → Reg → Reg → M β (Reg × Reg)
  | 0, _, _ => throw .panic
  | k + 1, cr, r => do
    if cr.length = 1 then cnot cr r
    else if cr.length = 2 then basicToffoli cr r
    else
      match ← splitRel cr [0, 1] with
      | .split crhead crtail =>
        let tr ← makeTempQubit
        let (crhead, tr) ← unwrapM (toffoliF k crhead tr)
        let cr ← mergeTwo crtail tr
        let (cr, r) ← unwrapM (toffoliF k cr r)
        let (crtail, tr) ← splitLast cr
        let tr ← unwrapO tr
        let (crhead, tr) ← unwrapM (toffoliF k crhead tr)
        returnTemp tr
        let cr ← mergeTwo crhead crtail
        pure (cr, r)
      | _ => throw .panic

/-- `toffoli`, builder_traits.rs L541-568 -/
def toffoli (cr r : Reg) : M β (Reg × Reg) := toffoliF (cr.length + 1) cr r

end Advanced

/-! ## Rotations -/

/-- `RotationsBuilder`, builder_traits.rs L572-619: all methods (`Conditioned` overrides every one) -/
class Rotations (β : Type) extends TempBuilder β where
  rz : Reg → ℝ → M β Reg
  rx : Reg → ℝ → M β Reg
  ry : Reg → ℝ → M β Reg
  rzRatio : Reg → ℚ → M β Reg
  rxRatio : Reg → ℚ → M β Reg
  ryRatio : Reg → ℚ → M β Reg
  rzPiBy : Reg → ℤ → M β Reg
  rxPiBy : Reg → ℤ → M β Reg
  ryPiBy : Reg → ℤ → M β Reg

section Defaults
variable {β : Type} [CliffordT β]

/-- default `rx`, builder_traits.rs L576-580 -/
def rxDefault (rz : Reg → ℝ → M β Reg) (r : Reg) (θ : ℝ) : M β Reg := do
  let r ← Gate.h r
  let r ← rz r θ
  Gate.h r

/-- default `ry`, builder_traits.rs L582-588 -/
noncomputable def ryDefault (rz : Reg → ℝ → M β Reg) (r : Reg) (θ : ℝ) : M β Reg := do
  let r ← sDagger r
  let r ← Gate.h r
  let r ← rz r (-θ)
  let r ← Gate.h r
  Gate.s r

/-- default `rz_ratio`, builder_traits.rs L590-592: the ratio itself is used as the angle -/
noncomputable def rzRatioDefault (rz : Reg → ℝ → M β Reg) (r : Reg) (q : ℚ) : M β Reg := rz r (q : ℝ)

/-- default `rx_ratio`, builder_traits.rs L594-598 -/
def rxRatioDefault (rzRatio : Reg → ℚ → M β Reg) (r : Reg) (q : ℚ) : M β Reg := do
  let r ← Gate.h r
  let r ← rzRatio r q
  Gate.h r

/-- default `ry_ratio`, builder_traits.rs L600-606 -/
def ryRatioDefault (rzRatio : Reg → ℚ → M β Reg) (r : Reg) (q : ℚ) : M β Reg := do
  let r ← Gate.s r
  let r ← Gate.h r
  let r ← rzRatio r (-q)
  let r ← Gate.h r
  sDagger r

/-- `Rational64::new(1, m)`: panics for `m = 0` -/
def ratio1 (m : ℤ) : M β ℚ := if m = 0 then throw .panic else pure (1 / (m : ℚ))

/-- default `rx_pi_by` and `ry_pi_by`, builder_traits.rs L612-618 -/
def piByDefault (ratio : Reg → ℚ → M β Reg) (r : Reg) (m : ℤ) : M β Reg := do
  let q ← ratio1 m
  ratio r q

end Defaults

namespace LocalBuilder

/-- `rz`, builder.rs L627-635 -/
noncomputable def rz (r : Reg) (θ : ℝ) : M LocalBuilder Reg :=
  unwrapM (applyCO r ⟨r.length, .unitary (.Rz (.floating θ))⟩)

/-- `rz_pi_by`, builder.rs L636-648 -/
def rzPiBy (r : Reg) (m : ℤ) : M LocalBuilder Reg :=
  if m = 0 then throw .error
  else applyCO r ⟨r.length, .unitary (.Rz (.piRational (1 / (m : ℚ))))⟩

/-- `rz_ratio` (default method), builder_traits.rs L590-592 -/
noncomputable def rzRatio : Reg → ℚ → M LocalBuilder Reg := rzRatioDefault rz

noncomputable instance : Rotations LocalBuilder where
  rz := rz
  rx := rxDefault rz
  ry := ryDefault rz
  rzRatio := rzRatio
  rxRatio := rxRatioDefault rzRatio
  ryRatio := ryRatioDefault rzRatio
  rzPiBy := rzPiBy
  rxPiBy := piByDefault (rxRatioDefault rzRatio)
  ryPiBy := piByDefault (ryRatioDefault rzRatio)

/-- `apply_global_phase`, builder.rs L32-40 -/
def applyGlobalPhase (r : Reg) (θ : ℝ) : M LocalBuilder Reg :=
  unwrapM (applyCO r ⟨r.length, .unitary (.GlobalPhase (.floating θ))⟩)

/-- `apply_global_phase_ratio`, builder.rs L43-51 -/
def applyGlobalPhaseRatio (r : Reg) (q : ℚ) : M LocalBuilder Reg :=
  unwrapM (applyCO r ⟨r.length, .unitary (.GlobalPhase (.piRational q))⟩)

/-- `apply_global_phase_pi_by`, builder.rs L54-56 -/
def applyGlobalPhasePiBy (r : Reg) (m : ℤ) : M LocalBuilder Reg := do
  let q ← ratio1 m
  applyGlobalPhaseRatio r q

/-! ## Measurements -/

/-- `measure`, builder.rs L590-600: returns the register and the handle's id -/
def measure (r : Reg) : M LocalBuilder (Reg × ℕ) := do
  push r ⟨r.length, .meas .measurement⟩
  let b ← get
  set { b with measurements := b.measurements + 1 }
  pure (r, b.measurements)

/-- `measure_stochastic`, builder.rs L611-623 -/
def measureStochastic (r : Reg) : M LocalBuilder (Reg × ℕ) := do
  push r ⟨r.length, .meas .stochastic⟩
  let b ← get
  set { b with measurements := b.measurements + 1 }
  pure (r, b.measurements)

end LocalBuilder

end Verif
