import Verif.Spec.Defer

/-!
# Specification: the registers a program has to do with

Read off the text of the program.
-/

namespace Verif

mutual
/-- the program has to do with its `k`-th register: library functions with all of theirs, `program!` with those named in one of its lines -/
def Prog.Uses : Prog → ℕ → Prop
  | .call _, _ => True
  | .seq p q, k => p.Uses k ∨ q.Uses k
  | .cond _, 0 => True
  | .cond p, k + 1 => p.Uses k
  | .prog ls, k => ls.Uses k
  | .sized F, k => ∃ n, (F n).Uses k
  | .inv _ p, k => p.Uses k

/-- one of the lines names the register -/
def Lines.Uses : Lines → ℕ → Prop
  | .nil, _ => False
  | .plain _ gs ls, k => (∃ g ∈ gs, ∃ s ∈ g, s.1 = k) ∨ ls.Uses k
  | .control _ _ g gs ls, k => (∃ g' ∈ g :: gs, ∃ s ∈ g', s.1 = k) ∨ ls.Uses k
end

/-- two programs have nothing to do with each other, except for registers that both leave as they are -/
def Apart (p q : Prog) : Prop := ∀ k, p.Uses k → q.Uses k → p.Spares k ∧ q.Spares k

end Verif
