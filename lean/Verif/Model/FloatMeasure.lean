import Verif.Model.Measure

/-!
# Measurement for any arithmetic

Models `qip/src/state_ops/measurement_ops.rs` for an arbitrary type `P` of machine numbers (`Precision`, types.rs L6-13), and the
loop of `calculate_state_with_init` (`qip/src/builder.rs` L411-505) on circuits of gates and measurements. `Complex<P>` is `P × P`.
`none` is a panic. The order of the additions of a sum over a parallel iterator is left open.
-/

namespace Verif

/-- what the code uses of `P: Precision`, types.rs L6-13 -/
structure Prec (P : Type) where
  zero : P
  one : P
  add : P → P → P
  sub : P → P → P
  mul : P → P → P
  div : P → P → P
  sqrt : P → P
  /-- `<=` -/
  le : P → P → Bool
  /-- `==` -/
  beq : P → P → Bool

section
variable {P : Type} (R : Prec P)

/-- `Complex::norm_sqr`, used in measurement_ops.rs L12, L106, L168 -/
def normSqrP (c : P × P) : P := R.add (R.mul c.1 c.1) (R.mul c.2 c.2)

/-- `amp == Complex::zero()`, measurement_ops.rs L103 -/
def isZeroP (c : P × P) : Bool := R.beq c.1 R.zero && R.beq c.2 R.zero

/-- `sum` of an iterator or parallel iterator, measurement_ops.rs L12, L112: parts of the list are summed up one by one from zero, and the
sums of neighbouring parts are added up in the same way -/
inductive SumsP : List P → P → Prop
  | nil : SumsP [] R.zero
  | snoc (l : List P) (s x : P) : SumsP l s → SumsP (l ++ [x]) (R.add s x)
  | join (a b : List P) (s t : P) : SumsP a s → SumsP b t → SumsP (a ++ b) (R.add (R.add R.zero s) t)

/-- the numbers summed up in `measure_prob`, measurement_ops.rs L44-112 (see `measureProbFn`, `measureProb`) -/
def measureTermsP (n measured : ℕ) (indices : List ℕ) (input : List (P × P)) (inputOffset : Option ℕ) : Option (List P) := do
  let inputOffset := inputOffset.getD 0
  let template ← scatterBits n measured indices
  let remaining := (List.range n).filter (fun i => !indices.contains i)
  let vals ← (List.range (1 <<< remaining.length)).mapM fun bits => do
    let tmp ← scatterBits n bits remaining
    let index := tmp + template
    if index < inputOffset then some (none : Option P)
    else
      let amp := if h : index - inputOffset ≥ input.length then (R.zero, R.zero) else input[index - inputOffset]'(by omega)
      if isZeroP R amp then some none else some (some (normSqrP R amp))
  some (vals.filterMap id)

/-- the sampling loop of `soft_measure`, measurement_ops.rs L166-173 -/
def softLoopP : List (P × P) → (i : ℕ) → (r : P) → Option ℕ
  | [], _, _ => none
  | c :: cs, i, r =>
    let r := R.sub r (normSqrP R c)
    if R.le r R.zero then some i else softLoopP cs (i + 1) r

/-- `soft_measure`, measurement_ops.rs L153-176, on an input of full size; `rnd` is `P::from(rand::random::<f64>())` -/
def softMeasureP (n : ℕ) (indices : List ℕ) (input : List (P × P)) (inputOffset : Option ℕ) (rnd : P) : Option ℕ := do
  let inputOffset := inputOffset.getD 0
  let r := R.mul rnd R.one
  let measuredIndx := match softLoopP R input 0 r with
    | some i => i + inputOffset
    | none => 0
  let indices ← indices.mapM (bitPos n)
  some (extractBits measuredIndx indices)

/-- the per-row closure of `measure_state`, measurement_ops.rs L250-263 -/
def measureRowP (rowMask measuredMask : ℕ) (pMult : P) (row : ℕ) (input : P × P) : P × P :=
  let measuredBits := row &&& rowMask
  if (measuredBits ^^^ measuredMask) ≠ 0 then (R.zero, R.zero) else (R.mul input.1 pMult, R.mul input.2 pMult)

/-- `measure_state`, measurement_ops.rs L220-269 -/
def measureStateP (n : ℕ) (indices : List ℕ) (measured : ℕ × P) (input output : List (P × P)) (offsets : Option (ℕ × ℕ)) :
    Option (List (P × P)) := do
  let (measured, measuredProb) := measured
  let (inputOffset, outputOffset) := offsets.getD (0, 0)
  if !R.beq measuredProb R.zero then
    let pMult := R.div R.one (R.sqrt measuredProb)
    let rm ← rowMask n indices
    let mm ← measuredMask n measured indices
    let lower := max inputOffset outputOffset
    let upper := min (inputOffset + input.length) (outputOffset + output.length)
    if upper < inputOffset ∨ upper < outputOffset then none
    else
      let src ← slice input (lower - inputOffset) (upper - inputOffset)
      let _dst ← slice output (lower - outputOffset) (upper - outputOffset)
      some (overlay output (src.zipIdx.map fun p => measureRowP R rm mm pMult (p.2 + lower) p.1) (lower - outputOffset))
  else some output

/-- `measure` with no offsets and no condition, measurement_ops.rs L190-214: what it can give back and write -/
def MeasureP (n : ℕ) (indices : List ℕ) (input output : List (P × P)) (rnd : P) (m : ℕ) (p : P) (out : List (P × P)) : Prop :=
  softMeasureP R n indices input none rnd = some m ∧
  (∃ terms, measureTermsP R n m indices input none = some terms ∧ SumsP R terms p) ∧
  measureStateP R n indices (m, p) input output none = some out

end

/-- an element of a circuit whose numbers have the type `K` -/
inductive ElemP (K : Type) where
  | op (o : MatrixOp K)
  | measurement (indices : List ℕ)

/-- the accumulator of builder.rs L416 -/
structure StateP (K P : Type) where
  state : List K
  arena : List K
  measurements : List (ℕ × P)

/-- the fold of builder.rs L411-505 for gates and measurements, with all results it can have; `parts` takes a complex number apart and
`mk` puts it together -/
inductive RunsP {K P : Type} [Zero K] [One K] [Add K] [Mul K] [DecidableEq K] (R : Prec P) (parts : K → P × P) (mk : P × P → K) (n : ℕ)
    (rnds : ℕ → P) : List (ElemP K) → StateP K P → StateP K P → Prop
  | nil (s : StateP K P) : RunsP R parts mk n rnds [] s s
  | op (o : MatrixOp K) (es : List (ElemP K)) (s t : StateP K P) (arena : List K) : applyOpOverwrite n o s.state s.arena 0 0 = some arena →
      RunsP R parts mk n rnds es ⟨arena, s.state, s.measurements⟩ t → RunsP R parts mk n rnds (.op o :: es) s t
  | measurement (indices : List ℕ) (es : List (ElemP K)) (s t : StateP K P) (m : ℕ) (p : P) (out : List (P × P)) :
      MeasureP R n indices (s.state.map parts) (s.arena.map parts) (rnds s.measurements.length) m p out →
      RunsP R parts mk n rnds es ⟨out.map mk, s.state, s.measurements ++ [(m, p)]⟩ t →
      RunsP R parts mk n rnds (.measurement indices :: es) s t

end Verif
