import Verif.Spec.FloatMain
import Verif.Spec.Born

/-!
# Specification: shares of sequences of draws
-/

namespace Verif

open Classical in
/-- the share of the `N ^ J` sequences of `J` draws out of `N` that have a property -/
noncomputable def shareOf (N J : ℕ) (S : (Fin J → Fin N) → Prop) : ℝ := ((Finset.univ.filter S).card : ℝ) / (N : ℝ) ^ J

/-- what one measurement of a state within `ε` of the exact one adds to the error of a share: the draws that are too near to a sum at which `soft_measure`
changes its outcome, and the rounding of the boundaries to multiples of `1/N` -/
noncomputable def measLoss (f : Format) (n N : ℕ) (τ ε : ℝ) : ℝ :=
  (2 ^ n + 1) * (2 * (ε * (2 + ε) + 20 * (2 ^ n * f.eps) + τ) + 1 / N) + 2 * 2 ^ n / N

/-- Bound for the error of a joint frequency, for a circuit and an error `ε` of the state before it. A gate adds its cost to the error of the state. A measurement
divides it by the square root of the probability of the outcome: outcomes rarer than `θ` are given up. -/
noncomputable def jointBound (f : Format) (n N : ℕ) (τ θ : ℝ) : Pipeline → ℝ → ℝ
  | [], _ => 0
  | e :: p, ε =>
    match e.2.object with
    | .unitary _ => jointBound f n N τ θ p (ε + (elemCost e : ℝ) * f.eps)
    | .meas _ => if ε ≤ 1 then min 1 (measLoss f n N τ ε + max θ (jointBound f n N τ θ p (2 * ε / Real.sqrt θ + 13 * (2 ^ n * f.eps)))) else 1

variable {f : Format} {fl : ℝ → ℝ}

/-- Runs of the elements `els` on `n` qubits from the basis state `x`, with `J` measurements. Whatever is drawn, there is a run without a panic. Over all `N ^ J`
sequences of draws out of `N` draws that differ by at most `τ` from `0, 1/N, 2/N, …`, whatever the order of the additions in each of the runs, the share of the runs that
report the outcomes `ms` is `P ms` up to `B N τ`, for all lists `ms` of `J` numbers. -/
def JointFrequencies (A : f.Arith fl) (n : ℕ) (els : List (ElemP A.Num)) (x J : ℕ) (P : List ℕ → ℝ) (B : ℕ → ℝ → ℝ) : Prop :=
  (∀ rnds : ℕ → f.Part, ∃ t, RunsP A.prec (fun c : A.Num => c) (fun c => c) n rnds els
    ⟨(List.replicate (2 ^ n) 0).set x 1, List.replicate (2 ^ n) 0, []⟩ t) ∧
  ∀ (N : ℕ) (_ : 0 < N) (τ : ℝ) (d : ℕ → f.Fin) (_ : ∀ j, j < N → |(d j).1 - (j : ℝ) / N| ≤ τ) (rnds : (Fin J → Fin N) → ℕ → f.Part)
    (_ : ∀ js (i : Fin J), rnds js i = some (d (js i))) (run : (Fin J → Fin N) → StateP A.Num f.Part)
    (_ : ∀ js, RunsP A.prec (fun c : A.Num => c) (fun c => c) n (rnds js) els
      ⟨(List.replicate (2 ^ n) 0).set x 1, List.replicate (2 ^ n) 0, []⟩ (run js)) (ms : List ℕ) (_ : ms.length = J),
    |shareOf N J (fun js => (run js).measurements.map Prod.fst = ms) - P ms| ≤ B N τ

end Verif
