import Verif.Model.Arith
import Verif.Spec.Nest
import Verif.Spec.Value
import Verif.Spec.Clean

/-! # Specification: arithmetic -/

namespace Verif

/-- majority of three bits -/
def maj (a b c : Bool) : Bool := (a && b) || (b && c) || (a && c)

/-- `rb := ra ⊕ rb ⊕ rc` -/
def sumMap (c a b : ℕ) (x : Asg) : Asg := Function.update x b (xor (x a) (xor (x b) (x c)))

/-- `rc' := rc' ⊕ maj(rc, ra, rb)` -/
def carryMap (c a b d : ℕ) (x : Asg) : Asg := Function.update x d (xor (x d) (maj (x c) (x a) (x b)))

/-- what `add` does to basis states, the carries not all 0 as well: from the lowest place on, compute the carry into the next place, add the
higher places, compute the carry again (which takes it back) and add this place; the last carry goes to the last qubit of `b` -/
def addMap : Reg → Reg → Reg → Asg → Asg
  | [c], [a], [b, b'], x => sumMap c a b (carryMap c a b b' x)
  | c :: c' :: cs, a :: as, b :: bs, x => sumMap c a b (carryMap c a b c' (addMap (c' :: cs) as bs (carryMap c a b c' x)))
  | _, _, _, x => x

/-- ... what `add_inv` does: the same the other way round -/
def subMap : Reg → Reg → Reg → Asg → Asg
  | [c], [a], [b, b'], x => carryMap c a b b' (sumMap c a b x)
  | c :: c' :: cs, a :: as, b :: bs, x => carryMap c a b c' (subMap (c' :: cs) as bs (carryMap c a b c' (sumMap c a b x)))
  | _, _, _, x => x

/-- every qubit of `r` gets the value of the one `k` places before it, cyclically -/
def rotate (k : ℕ) (r : Reg) (x : Asg) : Asg := fun q =>
  if q ∈ r then x (r.getD ((r.idxOf q + (r.length - k % r.length)) % r.length) 0) else x q

/-- `m` succeeds with `a` and the circuit elements it adds send the basis state `x` to the basis state `y` -/
def Sends {α : Type} (ang : Rot → ℝ) (m : M LocalBuilder α) (s : LocalBuilder) (a : α) (x y : Asg) : Prop :=
  ∃ s' seg, m s = .ok a s' ∧ s'.pipeline = s.pipeline ++ seg ∧ runW ang seg (ket x) = ket y

end Verif
