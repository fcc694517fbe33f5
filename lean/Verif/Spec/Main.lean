import Verif.Spec.Struct
import Verif.Spec.Born

/-!
# Specification: main programs

A main program makes a new builder, allocates registers, runs structured programs (C105) and measures registers.
-/

namespace Verif

/-- a step of a main program -/
inductive Act where
  /-- a structured program on all registers -/
  | run (p : Prog)
  /-- `measure` of register `i` -/
  | measure (i : ℕ)

/-- the step in Rust, with the registers and the measurement handles it has so far; `measure`: builder.rs L590-600 -/
noncomputable def Act.exec : Act → List Reg × List ℕ → M LocalBuilder (List Reg × List ℕ)
  | .run p, (rs, hs) => do
    let rs ← p.run rs
    pure (rs, hs)
  | .measure i, (rs, hs) =>
    match rs[i]? with
    | none => throw .panic
    | some r => do
      let (r, h) ← LocalBuilder.measure r
      pure (rs.set i r, hs ++ [h])

/-- the main program: registers of the given sizes, then the steps -/
noncomputable def mainProg (sizes : List ℕ) (acts : List Act) : M LocalBuilder (List Reg × List ℕ) := do
  let rs ← sizes.mapM LocalBuilder.register
  acts.foldlM (fun s a => a.exec s) (rs, [])

/-- registers of the given sizes next to each other -/
def blocks : ℕ → List ℕ → List Reg
  | _, [] => []
  | n, k :: ks => List.range' n k :: blocks (n + k) ks

/-- the steps can be carried out with the registers -/
def Act.Takes (rs : List Reg) : Act → Prop
  | .run p => p.Takes false rs
  | .measure i => i < rs.length

/-- the number of measurements -/
def measures : List Act → ℕ
  | [] => 0
  | .run _ :: as => measures as
  | .measure _ :: as => measures as + 1

/-- what is left of a state, not scaled, if the measurements give the outcomes `ms` -/
noncomputable def actsW (rs : List Reg) : List Act → List ℕ → Wave → Wave
  | [], _, ψ => ψ
  | .run p :: as, ms, ψ => actsW rs as ms (Finsupp.linearCombination ℂ (p.wave false rs) ψ)
  | .measure _ :: _, [], _ => 0
  | .measure i :: as, m :: ms, ψ => actsW rs as ms (projW (rs.getD i []) m ψ)

/-- the probability of each outcome, given the earlier ones -/
noncomputable def actsP (rs : List Reg) : List Act → List ℕ → Wave → List ℝ
  | [], _, _ => []
  | .run p :: as, ms, ψ => actsP rs as ms (Finsupp.linearCombination ℂ (p.wave false rs) ψ)
  | .measure _ :: _, [], _ => []
  | .measure i :: as, m :: ms, ψ => normW (projW (rs.getD i []) m ψ) / normW ψ :: actsP rs as ms (projW (rs.getD i []) m ψ)

end Verif
