import Verif.Spec.Nest
import Verif.Model.Arith

/-!
# Specification: the arithmetic circuits and the sizes of their registers
-/

namespace Verif

/-- the arithmetic circuits on whole registers -/
inductive Circ where
  | copy | copyInv | rshift | lshift | add | addInv | addMod | addModInv | timesMod | timesModInv | squareMod | squareModInv | expMod | expModInv

namespace Circ

/-- the function called -/
noncomputable def run {β : Type} [Recursive β] : Circ → List Reg → M β (List Reg)
  | copy => Arith.copy | copyInv => Arith.copyInv | rshift => Arith.rshift | lshift => Arith.lshift
  | add => Arith.add | addInv => Arith.addInv | addMod => Arith.addMod | addModInv => Arith.addModInv
  | timesMod => Arith.timesMod | timesModInv => Arith.timesModInv | squareMod => Arith.squareMod | squareModInv => Arith.squareModInv
  | expMod => Arith.expMod | expModInv => Arith.expModInv

/-- the number of registers -/
def args : Circ → ℕ
  | rshift | lshift => 1
  | copy | copyInv => 2
  | add | addInv | addMod | addModInv | squareMod | squareModInv => 3
  | timesMod | timesModInv => 4
  | expMod | expModInv => 5

/-- the sizes of the registers fit -/
def Fits : Circ → List ℕ → Prop
  | copy, [a, b] | copyInv, [a, b] => a = b
  | rshift, [_] => True
  | lshift, [r] => 2 ≤ r
  | add, [c, a, b] | addInv, [c, a, b] => a = c ∧ b = c + 1
  | addMod, [a, b, m] | addModInv, [a, b, m] => m = a ∧ b = a + 1
  | timesMod, [a, _, m, p] | timesModInv, [a, _, m, p] => a = m + 1 ∧ p = m + 1
  | squareMod, [a, m, s] | squareModInv, [a, m, s] => a = m + 1 ∧ s = m + 1
  | expMod, [a, _, m, p, e] | expModInv, [a, _, m, p, e] => a = m + 1 ∧ p = m + 1 ∧ e = m + 1
  | _, _ => False

end Circ

end Verif
