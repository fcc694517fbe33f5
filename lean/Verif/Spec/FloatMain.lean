import Verif.Spec.FloatGates
import Verif.Spec.IeeeMeasure
import Verif.Spec.Born

/-!
# Specification: frequencies over many runs
-/

namespace Verif
open Finset

variable {f : Format} {fl : ℝ → ℝ}

open Classical in
/-- Runs of the elements `els` on `n` qubits from the basis state `x`, with one draw each: every draw has a run without a panic, and over `N` draws that differ by at most
`τ` from `0, 1/N, 2/N, …`, whatever the order of the additions in each of the runs, the share of the runs that report `m` is `P m` up to `B N τ`, for all numbers `m`
of `k` bits. -/
def Frequencies (A : f.Arith fl) (n : ℕ) (els : List (ElemP A.Num)) (x k : ℕ) (P : ℕ → ℝ) (B : ℕ → ℝ → ℝ) : Prop :=
  (∀ r : f.Fin, ∃ t, RunsP A.prec (fun c : A.Num => c) (fun c => c) n (fun _ => some r) els
    ⟨(List.replicate (2 ^ n) 0).set x 1, List.replicate (2 ^ n) 0, []⟩ t) ∧
  ∀ (N : ℕ) (_ : 0 < N) (τ : ℝ) (d : ℕ → f.Fin) (_ : ∀ j, j < N → |(d j).1 - (j : ℝ) / N| ≤ τ) (run : ℕ → StateP A.Num f.Part)
    (_ : ∀ j, j < N → RunsP A.prec (fun c : A.Num => c) (fun c => c) n (fun _ => some (d j)) els
      ⟨(List.replicate (2 ^ n) 0).set x 1, List.replicate (2 ^ n) 0, []⟩ (run j)) (m : ℕ) (_ : m < 2 ^ k),
    |(((range N).filter fun j => ∃ p, (run j).measurements = [(m, p)]).card : ℝ) / N - P m| ≤ B N τ

/-- the bound of C121 for `n` qubits and a circuit of the given cost, with `N` draws -/
noncomputable def freqBound (f : Format) (n cost N : ℕ) (τ : ℝ) : ℝ :=
  (2 ^ n + 1) * (2 * ((cost : ℝ) * f.eps * (2 + (cost : ℝ) * f.eps) + 20 * (2 ^ n * f.eps) + τ) + 1 / N) + 2 ^ n / N

/-- the angle of a rotation can be given in the format: it is a number of the format, or at most 2 (and is rounded), or a ratio that is at most one -/
def AngleFits (f : Format) (e : List ℕ × CObj) : Prop :=
  match e.2.object with
  | .unitary (.Rz (.floating θ)) => |θ| ≤ 2 ∨ ∃ x : f.Fin, x.1 = θ
  | .unitary (.Rz (.piRational q)) => |(q : ℝ)| ≤ 1
  | _ => True

end Verif
