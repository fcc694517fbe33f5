import Verif.Model.Gates
import Verif.Model.Ops
import Verif.Model.Measure

/-!
# Calculating the state of a circuit

Models `calculate_state_with_init` and `Measurements` (`qip/src/builder.rs` L280-311, L388-507) and
`make_circuit_matrix` (`qip/src/builder_traits.rs` L656-665). `none` is a panic. `FRAC_1_SQRT_2`, `FRAC_PI_4` and
`from_polar` are the exact numbers. Random numbers come from a supply `rnds`: the draw of the `k`-th measurement of
the run is `rnds k`.
-/

namespace Verif
open Complex Classical

/-- `MeasurementResults`, builder.rs L282-288 -/
inductive MeasResult where
  | single (val : ℕ) (prob : ℝ)
  | stochastic (probs : List ℝ)

/-- `Measurements::get_measurement`, builder.rs L298-303; `none` is a panic (index out of range, `unreachable!`) -/
def getMeasurement (ms : List MeasResult) (id : ℕ) : Option (ℕ × ℝ) :=
  match ms[id]? with
  | some (.single val prob) => some (val, prob)
  | some (.stochastic _) => none
  | none => none

/-- `Measurements::get_stochastic_measurement`, builder.rs L305-310 -/
def getStochasticMeasurement (ms : List MeasResult) (id : ℕ) : Option (List ℝ) :=
  match ms[id]? with
  | some (.single _ _) => none
  | some (.stochastic probs) => some probs
  | none => none

/-- the bits set in `initial_index`, builder.rs L398-408: position `k` of the register takes bit `k` of the value -/
def initBits (n : ℕ) (r : Reg) (x : ℕ) : Option (List (ℕ × ℕ)) :=
  let rn := r.length
  r.reverse.zipIdx.mapM fun (p : ℕ × ℕ) => do
    let m ← bitPos n p.1
    some (m, (x >>> (rn - 1 - p.2)) &&& 1)

/-- `initial_index`, builder.rs L397-408 -/
def initialIndex (n : ℕ) (it : List (Reg × ℕ)) : Option ℕ := do
  let bits ← it.mapM fun p => initBits n p.1 p.2
  some (bits.flatten.foldl (fun acc p => acc ||| (p.2 <<< p.1)) 0)

/-- `theta` of builder.rs L468-473: for a `PiRational` the ratio itself, without the factor π -/
noncomputable def rotAngle : Rot → ℝ
  | .floating p => p
  | .piRational r => (r : ℝ)

/-- the op made for a unitary object, builder.rs L424-486 (`GlobalPhase` is handled before, L420) -/
noncomputable def unitaryOp (indices : List ℕ) : UObj → Except Fail (MatrixOp ℂ)
  | .X => makeMatrixOp indices [0, 1, 1, 0]
  | .Y => makeMatrixOp indices [0, -I, I, 0]
  | .Z => makeMatrixOp indices [1, 0, 0, -1]
  | .H =>
    let nl : ℂ := ((1 / Real.sqrt 2 : ℝ) : ℂ)
    makeMatrixOp indices [nl, nl, nl, -nl]
  | .S => makeMatrixOp indices [1, 0, 0, I]
  | .T => makeMatrixOp indices [1, 0, 0, exp ((Real.pi / 4 : ℝ) * I)]
  | .CNOT =>
    match indices with
    | [] => .error .panic
    | c :: rest => do
      let inner ← makeMatrixOp rest [0, 1, 1, 0]
      makeControlOp [c] inner
  | .MAT data => makeMatrixOp indices data
  | .SWAP =>
    let n := indices.length
    if n % 2 ≠ 0 then .error .panic
    else makeSwapOp (indices.take (n / 2)) (indices.drop (n / 2))
  | .Rz theta =>
    let hTheta := rotAngle theta * (1 / 2)
    makeMatrixOp indices [exp ((-hTheta : ℝ) * I), 0, 0, exp ((hTheta : ℝ) * I)]
  | .GlobalPhase _ => .error .panic

/-- state of the fold in `calculate_state_with_init`, builder.rs L411-415 -/
structure CalcState where
  state : List ℂ
  arena : List ℂ
  measurements : List MeasResult

/-- one step of the fold, builder.rs L416-503. The buffers are exchanged at the end of every step (L502), also when
nothing was written to `arena`. An `Err` is unwrapped to a panic (L505). -/
noncomputable def calcStep (n : ℕ) (rnds : ℕ → ℝ) (s : CalcState) (e : List ℕ × CObj) : Option CalcState :=
  match e.2.object with
  | .unitary (.GlobalPhase _) =>
    some { state := s.arena, arena := s.state, measurements := s.measurements }
  | .unitary u =>
    match unitaryOp e.1 u with
    | .error _ => none
    | .ok uop => do
      let arena ← applyOpOverwrite n uop s.state s.arena 0 0
      some { state := arena, arena := s.state, measurements := s.measurements }
  | .meas .measurement => do
    let ((measured, p), arena) ← measure n e.1 s.state s.arena none none (rnds s.measurements.length)
    some { state := arena, arena := s.state, measurements := s.measurements ++ [.single measured p] }
  | .meas .stochastic => do
    let ps ← measureProbs n e.1 s.state none
    some { state := s.arena, arena := s.state, measurements := s.measurements ++ [.stochastic ps] }

/-- the fold over a pipeline -/
noncomputable def calcFold (n : ℕ) (rnds : ℕ → ℝ) (p : Pipeline) (s : CalcState) : Option CalcState :=
  p.foldlM (calcStep n rnds) s

/-- `calculate_state_with_init`, builder.rs L388-507; it leaves the builder as it is (the pipeline is only read).
The number of qubits `n` gives `1 << n` entries (panics for `n ≥ 64` are not modelled). -/
noncomputable def LocalBuilder.calculateStateWithInit (b : LocalBuilder) (it : List (Reg × ℕ)) (rnds : ℕ → ℝ) :
    Option (List ℂ × List MeasResult) := do
  let zeros : List ℂ := List.replicate (1 <<< b.n) 0
  let initialIndex ← initialIndex b.n it
  if initialIndex < zeros.length then
    let r ← calcFold b.n rnds b.pipeline
      { state := zeros.set initialIndex 1, arena := zeros, measurements := [] }
    some (r.state, r.measurements)
  else none

/-- `calculate_state`, builder_traits.rs L211-213 -/
noncomputable def LocalBuilder.calculateState (b : LocalBuilder) (rnds : ℕ → ℝ) :
    Option (List ℂ × List MeasResult) := b.calculateStateWithInit [] rnds

/-- `make_circuit_matrix`, builder_traits.rs L656-665, with `f` selecting the state vector of a calculation; the
`k`-th calculation draws from `rnds k` -/
noncomputable def makeCircuitMatrix (b : LocalBuilder) (r : Reg) (f : List ℂ × List MeasResult → List ℂ)
    (rnds : ℕ → ℕ → ℝ) : Option (List (List ℂ)) :=
  (List.range (1 <<< r.length)).mapM fun indx => do
    let c ← b.calculateStateWithInit [(r, indx)] (rnds indx)
    some (f c)

end Verif
