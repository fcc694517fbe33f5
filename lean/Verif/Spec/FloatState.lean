import Verif.Spec.FloatGates
import Verif.Spec.FloatLoop
import Verif.Spec.Wave
import Verif.Spec.Main
import Verif.Spec.Stale

/-!
# Specification: state vectors and reported probabilities of floating point runs
-/

namespace Verif

variable {f : Format} {fl : ℝ → ℝ}

/-- Runs of the elements `els` on `n` qubits from the basis state `x`: whatever is drawn, there is a run without a panic, and every run, whatever the order of the
additions, reports no measurement and ends with a state vector of finite numbers that differs from `ψ` by at most `B` (as vectors). -/
def StateNear (A : f.Arith fl) (n : ℕ) (els : List (ElemC A.Num)) (x : ℕ) (ψ : Wave) (B : ℝ) : Prop :=
  ∀ rnds : ℕ → f.Fin,
    (∃ t, RunsC A.prec (fun c : A.Num => c) (fun c => c) n (fun k => some (rnds k)) els
      ⟨(List.replicate (2 ^ n) 0).set x 1, List.replicate (2 ^ n) 0, []⟩ t) ∧
    ∀ t, RunsC A.prec (fun c : A.Num => c) (fun c => c) n (fun k => some (rnds k)) els
      ⟨(List.replicate (2 ^ n) 0).set x 1, List.replicate (2 ^ n) 0, []⟩ t →
      t.measurements = [] ∧ t.state.length = 2 ^ n ∧ (∀ c ∈ t.state, A.fin c) ∧ nrm n (fun r => vals A.val t.state r - ψ (asg n r)) ≤ B

/-- ... and every run reports one list of probabilities, finite and not negative, each within `B` of the one in `P`. -/
def ProbsNear (A : f.Arith fl) (n : ℕ) (els : List (ElemC A.Num)) (x : ℕ) (P : List ℝ) (B : ℝ) : Prop :=
  ∀ rnds : ℕ → f.Fin,
    (∃ t, RunsC A.prec (fun c : A.Num => c) (fun c => c) n (fun k => some (rnds k)) els
      ⟨(List.replicate (2 ^ n) 0).set x 1, List.replicate (2 ^ n) 0, []⟩ t) ∧
    ∀ t, RunsC A.prec (fun c : A.Num => c) (fun c => c) n (fun k => some (rnds k)) els
      ⟨(List.replicate (2 ^ n) 0).set x 1, List.replicate (2 ^ n) 0, []⟩ t →
      ∃ ps, t.measurements = [.stochastic ps] ∧ List.Forall₂ (NearProb f B) ps P

/-- what programs one after the other make of a state -/
noncomputable def progsW (rs : List Reg) (ps : List Prog) (ψ : Wave) : Wave :=
  ps.foldl (fun ψ p => Finsupp.linearCombination ℂ (p.wave false rs) ψ) ψ

/-- a main program that ends with `measure_stochastic` of its register number `i`, builder.rs L611-623 -/
noncomputable def stochasticMain (sizes : List ℕ) (ps : List Prog) (i : ℕ) : M LocalBuilder (Reg × ℕ) := do
  let (rs, _) ← mainProg sizes (ps.map .run)
  match rs[i]? with
  | some r => LocalBuilder.measureStochastic r
  | none => throw .panic

end Verif
