import Verif.Spec.Commute

/-!
# Specification: classical programs and uncomputing

Read off the text of the program.
-/

namespace Verif

/-- the library function takes basis states to basis states, up to a factor; inside conditions not `toffoli`, which uses another matrix there (see C83) -/
def Method.Classical (inside : Bool) : Method → Prop
  | .named g => g ≠ .h
  | .cnot => True
  | .swap => True
  | .toffoli => inside = false
  | .negateBitmask _ => True
  | .sum => True
  | .carry => True
  | .copy => True
  | .rshift => True
  | .rz _ => True
  | .rzRatio _ => True
  | .rzPiBy _ => True
  | .carryInv => True
  | .add => True
  | .addInv => True
  | .lshift => True
  | .copyInv => True
  | _ => False

mutual
/-- all library functions of the program are classical -/
def Prog.Classical : Bool → Prog → Prop
  | inside, .call m => m.Classical inside
  | inside, .seq p q => p.Classical inside ∧ q.Classical inside
  | _, .cond p => p.Classical true
  | inside, .prog ls => ls.Classical inside
  | inside, .sized F => ∀ n, (F n).Classical inside
  | inside, .inv _ p => p.Classical inside

/-- the same for the lines -/
def Lines.Classical : Bool → Lines → Prop
  | _, .nil => True
  | inside, .plain p _ ls => p.Classical inside ∧ ls.Classical inside
  | inside, .control _ p _ _ ls => p.Classical true ∧ ls.Classical inside
end

/-- compute with `p`, use the result with `q`, uncompute with the inverse of `p`: `program!` with three lines -/
def computeUse (attr : Bool) (p q : Prog) (gs hs : List (List Sel)) : Prog :=
  .prog (.plain p gs (.plain q hs (.plain (.inv attr p) gs .nil)))

/-- the groups name register `k` -/
def NamesReg (gs : List (List Sel)) (k : ℕ) : Prop := ∃ g ∈ gs, ∃ s ∈ g, s.1 = k

end Verif
