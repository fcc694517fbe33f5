import Verif.Model.Apply
import Mathlib.Data.Complex.Basic
import Mathlib.Analysis.Complex.Norm

/-!
# Measurement

Models `qip/src/state_ops/measurement_ops.rs` over exact complex numbers. `none` is a panic. The sums run
sequentially (over exact numbers the parallel order does not matter).
-/

namespace Verif
open Classical

/-- `prob_magnitude`, measurement_ops.rs L11-13 -/
noncomputable def probMagnitude (input : List ℂ) : ℝ := (input.map Complex.normSq).sum

/-- the folds of measurement_ops.rs L76-83 and L87-95: bit `i` of `bits` goes to the position of qubit
`indices[i]` -/
def scatterBits (n bits : ℕ) (indices : List ℕ) : Option ℕ :=
  indices.zipIdx.foldlM (fun acc (p : ℕ × ℕ) => do
    let selBit := (bits >>> p.2) &&& 1
    let m ← bitPos n p.1
    some (acc ||| (selBit <<< m))) 0

/-- `measure_prob_fn`, measurement_ops.rs L65-112 -/
noncomputable def measureProbFn (n measured : ℕ) (indices : List ℕ) (inputOffset : Option ℕ) (f : ℕ → ℂ) : Option ℝ := do
  let inputOffset := inputOffset.getD 0
  let template ← scatterBits n measured indices
  let remaining := (List.range n).filter (fun i => !indices.contains i)
  let vals ← (List.range (1 <<< remaining.length)).mapM fun bits => do
    let tmp ← scatterBits n bits remaining
    let index := tmp + template
    if index < inputOffset then some (none : Option ℝ)
    else
      let amp := f (index - inputOffset)
      if amp = 0 then some none else some (some (Complex.normSq amp))
  some (vals.filterMap id).sum

/-- `measure_prob`, measurement_ops.rs L44-58 -/
noncomputable def measureProb (n measured : ℕ) (indices : List ℕ) (input : List ℂ) (inputOffset : Option ℕ) : Option ℝ :=
  measureProbFn n measured indices inputOffset fun index =>
    if h : index ≥ input.length then 0 else input[index]'(by omega)

/-- `measure_probs`, measurement_ops.rs L115-127 -/
noncomputable def measureProbs (n : ℕ) (indices : List ℕ) (input : List ℂ) (inputOffset : Option ℕ) :
    Option (List ℝ) :=
  (List.range (1 <<< indices.length)).mapM fun measured => measureProb n measured indices input inputOffset

/-- the sampling loop of `soft_measure`, measurement_ops.rs L166-173: the position at which `r` drops to zero or
below, if any -/
noncomputable def softLoop : List ℂ → (i : ℕ) → (r : ℝ) → Option ℕ
  | [], _, _ => none
  | c :: cs, i, r =>
    let r := r - Complex.normSq c
    if r ≤ 0 then some i else softLoop cs (i + 1) r

/-- `soft_measure`, measurement_ops.rs L153-176; `rnd` is the value of `rand::random::<f64>()` -/
noncomputable def softMeasure (n : ℕ) (indices : List ℕ) (input : List ℂ) (inputOffset : Option ℕ) (rnd : ℝ) :
    Option ℕ := do
  let inputOffset := inputOffset.getD 0
  let r := rnd * (if input.length < 1 <<< n then probMagnitude input else 1)
  let measuredIndx := match softLoop input 0 r with
    | some i => i + inputOffset
    | none => 0
  let indices ← indices.mapM (bitPos n)
  some (extractBits measuredIndx indices)

/-- `MeasuredCondition`, measurement_ops.rs L181-186 -/
structure MeasuredCondition where
  measured : ℕ
  prob : Option ℝ

/-- the masks of measurement_ops.rs L233-241 -/
def rowMask (n : ℕ) (indices : List ℕ) : Option ℕ := do
  let ps ← indices.mapM fun index => do
    let m ← bitPos n index
    some (1 <<< m)
  some ps.sum

/-- see `rowMask` -/
def measuredMask (n measured : ℕ) (indices : List ℕ) : Option ℕ := do
  let ps ← indices.zipIdx.mapM fun (p : ℕ × ℕ) => do
    let selBit := (measured >>> p.2) &&& 1
    let m ← bitPos n p.1
    some (selBit <<< m)
  some ps.sum

/-- the per-row closure of `measure_state`, measurement_ops.rs L250-263 -/
noncomputable def measureRow (rowMask measuredMask : ℕ) (pMult : ℝ) (row : ℕ) (input : ℂ) : ℂ :=
  let measuredBits := row &&& rowMask
  if (measuredBits ^^^ measuredMask) ≠ 0 then 0 else input * pMult

/-- `measure_state`, measurement_ops.rs L220-269 -/
noncomputable def measureState (n : ℕ) (indices : List ℕ) (measured : ℕ × ℝ) (input output : List ℂ)
    (offsets : Option (ℕ × ℕ)) : Option (List ℂ) := do
  let (measured, measuredProb) := measured
  let (inputOffset, outputOffset) := offsets.getD (0, 0)
  if measuredProb ≠ 0 then
    let pMult := 1 / Real.sqrt measuredProb
    let rm ← rowMask n indices
    let mm ← measuredMask n measured indices
    let lower := max inputOffset outputOffset
    let upper := min (inputOffset + input.length) (outputOffset + output.length)
    -- `upper - input_offset` and `upper - output_offset` panic on underflow
    if upper < inputOffset ∨ upper < outputOffset then none
    else
      let src ← slice input (lower - inputOffset) (upper - inputOffset)
      let _dst ← slice output (lower - outputOffset) (upper - outputOffset)
      some (overlay output (src.zipIdx.map fun p => measureRow rm mm pMult (p.2 + lower) p.1) (lower - outputOffset))
  else some output

/-- `measure`, measurement_ops.rs L190-214 -/
noncomputable def measure (n : ℕ) (indices : List ℕ) (input output : List ℂ) (offsets : Option (ℕ × ℕ))
    (measured : Option MeasuredCondition) (rnd : ℝ) : Option ((ℕ × ℝ) × List ℂ) := do
  let inputOffset := offsets.map Prod.fst
  let m ← match measured with
    | some c => some c.measured
    | none => softMeasure n indices input inputOffset rnd
  let p ← match measured.bind MeasuredCondition.prob with
    | some p => some p
    | none => measureProb n m indices input inputOffset
  let out ← measureState n indices (m, p) input output offsets
  some ((m, p), out)

end Verif
