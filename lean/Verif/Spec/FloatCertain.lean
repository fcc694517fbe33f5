import Verif.Spec.FloatMain
import Verif.Spec.FloatLoop
import Verif.Spec.Main
import Verif.Spec.Wave

/-!
# Specification: programs that are certain of their outcomes
-/

namespace Verif

/-- A circuit of which quantum mechanics predicts every outcome with certainty, in exact arithmetic: at each measurement the register holds the same number `m` in all basis
states of the superposition, so that the measurement changes nothing. It starts with the state `ψ`, the measurements give `ms`, and it ends with the state `χ`. The set `D`
has all the sums of squared amplitudes `|ψ_0|² + … + |ψ_(k-1)|²`, however many qubits are counted, of the states that are measured. -/
inductive SureRun (D : Set ℝ) : Pipeline → Wave → List ℕ → Wave → Prop
  | nil (ψ : Wave) : SureRun D [] ψ [] ψ
  | gate (e : List ℕ × CObj) (g : UObj) (p : Pipeline) (ψ : Wave) (ms : List ℕ) (χ : Wave) : e.2.object = .unitary g →
      SureRun D p (entryW rotAngle e ψ) ms χ → SureRun D (e :: p) ψ ms χ
  | meas (r : List ℕ) (w : ℕ) (p : Pipeline) (ψ : Wave) (m : ℕ) (ms : List ℕ) (χ : Wave) : (∀ y ∈ ψ.support, valQ r y = m) →
      (∀ n k, k ≤ 2 ^ n → ∑ i ∈ Finset.range k, Complex.normSq (ψ (asg n i)) ∈ D) →
      SureRun D p ψ ms χ → SureRun D ((r, ⟨w, .meas .measurement⟩) :: p) ψ (m :: ms) χ

/-- ... the same for the steps of a main program with the registers `rs` -/
inductive ActsSure (D : Set ℝ) (rs : List Reg) : List Act → Wave → List ℕ → Wave → Prop
  | nil (ψ : Wave) : ActsSure D rs [] ψ [] ψ
  | run (p : Prog) (as : List Act) (ψ : Wave) (ms : List ℕ) (χ : Wave) :
      ActsSure D rs as (Finsupp.linearCombination ℂ (p.wave false rs) ψ) ms χ → ActsSure D rs (.run p :: as) ψ ms χ
  | measure (i : ℕ) (as : List Act) (ψ : Wave) (m : ℕ) (ms : List ℕ) (χ : Wave) : (∀ y ∈ ψ.support, valQ (rs.getD i []) y = m) →
      (∀ n k, k ≤ 2 ^ n → ∑ i ∈ Finset.range k, Complex.normSq (ψ (asg n i)) ∈ D) →
      ActsSure D rs as ψ ms χ → ActsSure D rs (.measure i :: as) ψ (m :: ms) χ

variable {f : Format} {fl : ℝ → ℝ}

/-- Runs of the elements `els` on `n` qubits from the basis state `x`, with draws between 0 and 1 that are further than `δ` from all numbers of `D`: whatever is drawn, there is
a run without a panic, and every run, whatever the order of the additions, reports exactly the outcomes `ms`, each with a probability that is finite and within `κ` of one, and ends
with a state vector of finite numbers that differs from `χ` by at most `B` (as vectors). -/
def CertainRuns (A : f.Arith fl) (n : ℕ) (els : List (ElemP A.Num)) (x : ℕ) (D : Set ℝ) (ms : List ℕ) (χ : Wave) (δ κ B : ℝ) : Prop :=
  ∀ (rnds : ℕ → f.Fin) (_ : ∀ k, 0 < (rnds k).1 ∧ (rnds k).1 < 1 ∧ ∀ d ∈ D, δ < |(rnds k).1 - d|),
    (∃ t, RunsP A.prec (fun c : A.Num => c) (fun c => c) n (fun k => some (rnds k)) els ⟨(List.replicate (2 ^ n) 0).set x 1, List.replicate (2 ^ n) 0, []⟩ t) ∧
    ∀ t, RunsP A.prec (fun c : A.Num => c) (fun c => c) n (fun k => some (rnds k)) els ⟨(List.replicate (2 ^ n) 0).set x 1, List.replicate (2 ^ n) 0, []⟩ t →
      List.Forall₂ (fun r m => r.1 = m ∧ NearProb f κ r.2 1) t.measurements ms ∧ t.state.length = 2 ^ n ∧ (∀ c ∈ t.state, A.fin c) ∧
        nrm n (fun r => vals A.val t.state r - χ (asg n r)) ≤ B

end Verif
