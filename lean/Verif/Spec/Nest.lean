import Verif.Spec.Cond
import Verif.Model.Sub
import Verif.Spec.History

/-!
# Specification: conditioned builders nested to any depth
-/

namespace Verif
open Complex

/-- a builder inside `k` conditions -/
def NB : ℕ → Type
  | 0 => LocalBuilder
  | k + 1 => Conditioned (NB k)

noncomputable instance NB.recursive : (k : ℕ) → Recursive (NB k)
  | 0 => inferInstanceAs (Recursive LocalBuilder)
  | k + 1 => letI := NB.recursive k; inferInstanceAs (Recursive (Conditioned (NB k)))

instance NB.rooted : (k : ℕ) → Rooted (NB k)
  | 0 => inferInstanceAs (Rooted LocalBuilder)
  | k + 1 => letI := NB.rooted k; inferInstanceAs (Rooted (Conditioned (NB k)))

/-- `b.condition_with(crs.last)….condition_with(crs[0])`, then `m`, then `dissolve` at every level; the registers
given back are returned as a list -/
def under {α : Type} : (crs : List Reg) → M (NB crs.length) α → M LocalBuilder (α × List Reg)
  | [], m => (show M LocalBuilder α from m) >>= fun a => pure (a, [])
  | c :: cs, m => do
    let p ← under cs (Conditioned.conditioned (β := NB cs.length) c m)
    pure (p.1.1, p.1.2 :: p.2)

/-- the gate methods, for any builder -/
def Named.runOn {β : Type} [CliffordT β] : Named → Reg → M β Reg
  | .x => Gate.x | .y => Gate.y | .z => Gate.z | .h => Gate.h | .s => Gate.s | .t => Gate.t
  | .sDagger => Verif.sDagger | .tDagger => Verif.tDagger

/-- a gate on one qubit, or a CNOT -/
inductive Step where
  | one (g : Named) (q : ℕ)
  | cnot (c t : ℕ)

def Step.run {β : Type} [CliffordT β] : Step → M β Unit
  | .one g q => g.runOn [q] >>= fun _ => pure ()
  | .cnot c t => Verif.cnot [c] [t] >>= fun _ => pure ()

/-- textbook matrices of the named gates -/
noncomputable def Named.mat : Named → ℕ → ℕ → ℂ
  | .x => mat2 0 1 1 0
  | .y => mat2 0 (-I) I 0
  | .z => mat2 1 0 0 (-1)
  | .h => mat2 (1 / Real.sqrt 2) (1 / Real.sqrt 2) (1 / Real.sqrt 2) (-(1 / Real.sqrt 2))
  | .s => mat2 1 0 0 I
  | .t => mat2 1 0 0 (exp (Real.pi / 4 * I))
  | .sDagger => mat2 1 0 0 (-I)
  | .tDagger => mat2 1 0 0 (exp (-(Real.pi / 4) * I))

/-- what the named gates become on a builder with conditions: H with angles of 1/4 in place of π/4, Y with the opposite
sign (see C36), the others as they are -/
noncomputable def Named.condMat : Named → ℕ → ℕ → ℂ
  | .h => mat2 (sin (1 / 4)) (cos (1 / 4)) (cos (1 / 4)) (-sin (1 / 4))
  | .y => mat2 0 I (-I) 0
  | g => g.mat

/-- the action of a step -/
noncomputable def Step.wave : Step → Wave →ₗ[ℂ] Wave
  | .one g q => gateW [q] g.mat
  | .cnot c t => Finsupp.linearCombination ℂ fun x => ket (if x c = true then flipQ t x else x)

/-- the action of a step on a builder with conditions, if they hold -/
noncomputable def Step.condWave : Step → Wave →ₗ[ℂ] Wave
  | .one g q => gateW [q] g.condMat
  | st => st.wave

/-- the qubits of a step are different ones of `Q` -/
def Step.In (Q : List ℕ) : Step → Prop
  | .one _ q => q ∈ Q
  | .cnot c t => c ∈ Q ∧ t ∈ Q ∧ c ≠ t

/-- not Y or H -/
def Step.Plain : Step → Prop
  | .one g _ => g ≠ .y ∧ g ≠ .h
  | .cnot _ _ => True

/-- steps one after the other -/
noncomputable def stepsW (l : List Step) : Wave →ₗ[ℂ] Wave := l.foldl (fun W st => st.wave ∘ₗ W) LinearMap.id

/-- steps one after the other, on a builder with conditions -/
noncomputable def condStepsW (l : List Step) : Wave →ₗ[ℂ] Wave := l.foldl (fun W st => st.condWave ∘ₗ W) LinearMap.id

end Verif
