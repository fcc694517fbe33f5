import Verif.Spec.Main

/-!
# Specification: programs that leave a register as it is

Read off the text of the program: the register is only used for conditions, as the control of a gate, as the source of a copy, or for gates that change nothing but phases.
-/

namespace Verif

/-- the library function leaves the values of its `k`-th register as they are: gates with diagonal matrices, the controls of `cnot` and `toffoli`, the source of `copy`, the summands of `sum` and `carry` that it does not write -/
def Method.Spares : Method → ℕ → Prop
  | .named g, k => k = 0 ∧ (g = .z ∨ g = .s ∨ g = .t ∨ g = .sDagger ∨ g = .tDagger)
  | .rz _, k => k = 0
  | .rzRatio _, k => k = 0
  | .rzPiBy _, k => k = 0
  | .cnot, k => k = 0
  | .toffoli, k => k = 0
  | .copy, k => k = 0
  | .copyInv, k => k = 0
  | .sum, k => k < 2
  | .carry, k => k < 3
  | .carryInv, k => k < 3
  | _, _ => False

mutual
/-- the program leaves the values of its `k`-th register as they are -/
def Prog.Spares : Prog → ℕ → Prop
  | .call m, k => m.Spares k
  | .seq p q, k => p.Spares k ∧ q.Spares k
  | .cond _, 0 => True
  | .cond p, k + 1 => p.Spares k
  | .prog ls, k => ls.Spares k
  | .sized F, k => ∀ n, (F n).Spares k
  | .inv _ p, k => p.Spares k

/-- wherever the register is named, except for conditions, the function called leaves what it gets there as it is -/
def Lines.Spares : Lines → ℕ → Prop
  | .nil, _ => True
  | .plain p gs ls, k => (∀ (j : ℕ) (g : List Sel), gs[j]? = some g → (∃ s ∈ g, s.1 = k) → p.Spares j) ∧ ls.Spares k
  | .control _ p _ gs ls, k => (∀ (j : ℕ) (g : List Sel), gs[j]? = some g → (∃ s ∈ g, s.1 = k) → p.Spares j) ∧ ls.Spares k
end

end Verif
