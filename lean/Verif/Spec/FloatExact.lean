import Verif.Spec.FloatMain
import Verif.Spec.Main

/-!
# Specification: circuits that are calculated without rounding
-/

namespace Verif

/-- zero or a power of `i` -/
def Quarter (z : ℂ) : Prop := z = 0 ∨ z = 1 ∨ z = -1 ∨ z = Complex.I ∨ z = -Complex.I

/-- gates that send basis states to basis states, up to powers of `i` -/
def UObj.plain : UObj → Bool
  | .X | .Y | .Z | .S | .CNOT | .SWAP => true
  | _ => false

/-- ... or a measurement -/
def PlainStep (e : List ℕ × CObj) : Prop :=
  match e.2.object with
  | .unitary g => g.plain = true
  | .meas _ => True

instance (e : List ℕ × CObj) : Decidable (PlainStep e) := by
  unfold PlainStep
  split <;> infer_instance

/-- library functions that add such gates only -/
def Method.plain : Method → Bool
  | .named .x | .named .y | .named .z | .named .s | .named .sDagger | .cnot | .swap => true
  | _ => false

mutual
/-- programs of these functions without conditions and inverses -/
def Prog.Plain : Prog → Prop
  | .call m => m.plain = true
  | .seq p q => p.Plain ∧ q.Plain
  | .prog ls => ls.Plain
  | .sized F => ∀ sizes, (F sizes).Plain
  | .cond _ => False
  | .inv _ _ => False

def Lines.Plain : Lines → Prop
  | .nil => True
  | .plain p _ ls => p.Plain ∧ ls.Plain
  | .control _ _ _ _ _ => False
end

def Act.Plain : Act → Prop
  | .run p => p.Plain
  | .measure _ => True

variable {f : Format} {fl : ℝ → ℝ}

/-- the floating point number for a complex number -/
noncomputable def Format.Arith.stored (A : f.Arith fl) (z : ℂ) : A.Num := (A.round z.re, A.round z.im)

/-- The calculation from the basis state `x` with draws above zero: whatever is drawn, and whatever the order of the additions in the measurements, it runs without a panic,
ends with exactly `u` at the basis state `z` and exactly zero elsewhere, and reports the outcomes `ms`, each with a probability of exactly one. -/
def ExactRuns (A : f.Arith fl) (n : ℕ) (els : List (ElemP A.Num)) (x z : ℕ) (u : ℂ) (ms : List ℕ) : Prop :=
  ∀ (rnds : ℕ → f.Fin) (_ : ∀ k, 0 < (rnds k).1 ∧ (rnds k).1 ≤ 1),
    (∃ t, RunsP A.prec (fun c : A.Num => c) (fun c => c) n (fun k => some (rnds k)) els ⟨(List.replicate (2 ^ n) 0).set x 1, List.replicate (2 ^ n) 0, []⟩ t) ∧
    ∀ t, RunsP A.prec (fun c : A.Num => c) (fun c => c) n (fun k => some (rnds k)) els ⟨(List.replicate (2 ^ n) 0).set x 1, List.replicate (2 ^ n) 0, []⟩ t →
      t.state = (List.replicate (2 ^ n) 0).set z (A.stored u) ∧ t.measurements = ms.map fun m => (m, A.round 1)

end Verif
