import Verif.Spec.Clean
import Verif.Spec.Circuits
import Mathlib.Data.Fintype.Basic
import Mathlib.Algebra.BigOperators.Group.Finset.Basic

/-!
# Specification: counting circuit elements and qubits
-/

namespace Verif

/-- the kinds of circuit elements that the arithmetic circuits consist of -/
inductive Kind where
  | x | z | s | t | h | cnot | rz | other
  deriving DecidableEq

instance : Fintype Kind where
  elems := {.x, .z, .s, .t, .h, .cnot, .rz, .other}
  complete := by intro k; cases k <;> simp

/-- the kind of a circuit element -/
def kindOf (e : List ℕ × CObj) : Kind :=
  match e.2.object with
  | .unitary .X => if e.1.length = 1 then .x else .other
  | .unitary .Z => if e.1.length = 1 then .z else .other
  | .unitary .S => if e.1.length = 1 then .s else .other
  | .unitary .T => if e.1.length = 1 then .t else .other
  | .unitary .H => if e.1.length = 1 then .h else .other
  | .unitary .CNOT => if e.1.length = 2 then .cnot else .other
  | .unitary (.Rz _) => if e.1.length = 1 then .rz else .other
  | _ => .other

/-- a number for each kind -/
abbrev Profile := Kind → ℕ

/-- how many elements of each kind a circuit has -/
def prof (p : Pipeline) : Profile := fun k => p.countP fun e => kindOf e = k

/-- the number of elements altogether -/
def Profile.total (P : Profile) : ℕ := ∑ k, P k

/-- the qubits of a builder that are not in its pool of temporaries -/
def inUse (b : LocalBuilder) : ℕ := b.n - b.zeroedQubits.length

/-- one element -/
def one (k : Kind) : Profile := Pi.single k 1

/-- the elements of a Toffoli gate with two controls and `t` targets -/
def tof2 (t : ℕ) : Profile
  | .h => 2 * t | .cnot => 4 * t + 2 | .t => 4 * t + 3 | .z => 2 * t + 1 | .s => 2 * t + 1 | _ => 0

/-- the elements of X gates on `t` qubits with `c` controls -/
def tofN : ℕ → ℕ → Profile
  | 0, t => t • one .x
  | 1, t => t • one .cnot
  | c + 2, t => (2 * c) • tof2 1 + tof2 t

/-- ... on one qubit -/
abbrev tofP (c : ℕ) : Profile := tofN c 1

/-- the elements that a conditioned builder with `c` control qubits makes of an element -/
def condK (c : ℕ) (k : Kind) : Profile :=
  if c = 0 then one k else match k with
    | .x => tofP c
    | .z => 2 • one .h + tofP c
    | .s => one .s + 2 • tofP (c + 1)
    | .t => one .t + 2 • tofP (c + 1)
    | .h => 4 • one .s + 4 • one .h + 2 • one .rz + 2 • one .z + tofP c
    | .cnot => tofP (c + 1)
    | .rz => one .rz + 2 • tofP (c + 1)
    | .other => 0

/-- ... of a circuit -/
def condP (c : ℕ) (P : Profile) : Profile := ∑ k, P k • condK c k

/-- the elements of the inverse of an element -/
def invK : Kind → Profile
  | .s => one .z + one .s
  | .t => one .z + one .s + one .t
  | k => one k

/-- ... of a circuit -/
def invP (P : Profile) : Profile := ∑ k, P k • invK k

/-! ## the arithmetic circuits, inside `c` control qubits -/

namespace Count

/-- `sum` -/
def sum (c : ℕ) : Profile := 2 • tofP (c + 1)
/-- `carry` -/
def carry (c : ℕ) : Profile := 2 • tofP (c + 2) + 2 • tofP (c + 1)
/-- an inverse -/
def inv (P : Profile) (c : ℕ) : Profile := condP c (invP P)
/-- `copy` of `n` qubits -/
def copy (n c : ℕ) : Profile := n • tofP (c + 1)
/-- `rshift` of `n` qubits -/
def rshift (n c : ℕ) : Profile := (3 * (n - 1)) • tofP (c + 1)
/-- `add` of `n`-qubit numbers -/
def add (n c : ℕ) : Profile := n • (carry c + sum c) + (n - 1) • inv (carry 0) c
/-- `add_mod` -/
def addMod (n c : ℕ) : Profile :=
  2 • add n c + 2 • inv (add n 0) c + 2 • tofP (c + 1) + 2 • tofP c + add n (c + 1)
/-- `times_mod`: a number below an `n`-qubit modulus times a `k`-qubit number -/
def timesMod (n k c : ℕ) : Profile :=
  k • (inv (add n 0) c + tofP (c + 1) + add n (c + 1) + addMod n (c + 1) + rshift (n + 1) c) +
  k • (inv (rshift (n + 1) 0) c + inv (add n 0) (c + 1) + tofP (c + 1) + add n c)
/-- `square_mod` -/
def squareMod (n c : ℕ) : Profile := copy n c + timesMod n n c + inv (copy n 0) c
/-- the last step of `exp_mod` -/
def expLast (n c : ℕ) : Profile := 2 • tofP c + copy (n + 1) (c + 1) + timesMod n (n + 1) (c + 1)
/-- another step of `exp_mod` -/
def expStep (n c : ℕ) : Profile :=
  expLast n c + squareMod n c + inv (squareMod n 0) c + inv (timesMod n (n + 1) 0) (c + 1) + 2 • tofP c + inv (copy (n + 1) 0) (c + 1)
/-- `exp_mod` with a `k`-qubit exponent -/
def expMod (n k c : ℕ) : Profile := (k - 1) • expStep n c + expLast n c
/-- the temporary qubits of `exp_mod` -/
def expTemps (n k c : ℕ) : ℕ := if k ≤ 1 then 3 * n + c + 5 else 2 * (n + 1) * (k - 1) + c + max (3 * n + 5) (4 * n + 3)
/-- `qfft` of `n` qubits; its rotations do not depend on the control qubits -/
def qfft (n c : ℕ) : Profile := n • condK c .h + (n * (n - 1) / 2) • one .rz + (3 * (n / 2)) • tofP (c + 1)
/-- the temporary qubits of `qfft` -/
def qfftTemps (n c : ℕ) : ℕ := if n = 1 then c - 2 else c - 1

end Count

namespace Circ

/-- built by inverting another one -/
def isInverse : Circ → Prop
  | copyInv | lshift | addInv | addModInv | timesModInv | squareModInv | expModInv => True
  | _ => False

/-- the elements of an arithmetic circuit on registers of these sizes, inside `c` control qubits -/
def elements : Circ → List ℕ → ℕ → Profile
  | copy, [a, _], c => Count.copy a c
  | copyInv, [a, _], c => Count.inv (Count.copy a 0) c
  | rshift, [r], c => Count.rshift r c
  | lshift, [r], c => Count.inv (Count.rshift r 0) c
  | add, [n, _, _], c => Count.add n c
  | addInv, [n, _, _], c => Count.inv (Count.add n 0) c
  | addMod, [n, _, _], c => Count.addMod n c
  | addModInv, [n, _, _], c => Count.inv (Count.addMod n 0) c
  | timesMod, [_, k, n, _], c => Count.timesMod n k c
  | timesModInv, [_, k, n, _], c => Count.inv (Count.timesMod n k 0) c
  | squareMod, [_, n, _], c => Count.squareMod n c
  | squareModInv, [_, n, _], c => Count.inv (Count.squareMod n 0) c
  | expMod, [_, k, n, _, _], c => Count.expMod n k c
  | expModInv, [_, k, n, _, _], c => Count.inv (Count.expMod n k 0) c
  | _, _, _ => 0

/-- the temporary qubits that it has at once (an inverse: at most) -/
def temps : Circ → List ℕ → ℕ → ℕ
  | copy, [_, _], c => c - 1
  | rshift, [r], c => if r = 1 then 0 else c - 1
  | add, [_, _, _], c => c
  | addMod, [n, _, _], c => n + c + 2
  | timesMod, [_, k, n, _], c => 2 * n + k + c + 3
  | squareMod, [_, n, _], c => 4 * n + c + 3
  | expMod, [_, k, n, _, _], c => Count.expTemps n k c
  | copyInv, [_, _], c => c
  | lshift, [_], c => c
  | addInv, [_, _, _], c => c
  | addModInv, [n, _, _], c => n + 2 + c
  | timesModInv, [_, k, n, _], c => 2 * n + k + 3 + c
  | squareModInv, [_, n, _], c => 4 * n + 3 + c
  | expModInv, [_, k, n, _, _], c => Count.expTemps n k 0 + c
  | _, _, _ => 0

end Circ

/-- the call succeeds and returns `a`; it appends the elements `P` to the circuit, leaves no more and no fewer qubits in use, and adds exactly
the qubits that are needed to have `t` temporary ones at once beside those in use -/
def Costs {α : Type} (m : M LocalBuilder α) (b : LocalBuilder) (a : α) (P : Profile) (t : ℕ) : Prop :=
  ∃ b' seg, m b = .ok a b' ∧ b'.pipeline = b.pipeline ++ seg ∧ prof seg = P ∧ inUse b' = inUse b ∧ b'.n = max b.n (inUse b + t)

/-- the same with at most the qubits that are needed to have `t` temporary ones at once -/
def CostsAtMost {α : Type} (m : M LocalBuilder α) (b : LocalBuilder) (a : α) (P : Profile) (t : ℕ) : Prop :=
  ∃ b' seg, m b = .ok a b' ∧ b'.pipeline = b.pipeline ++ seg ∧ prof seg = P ∧ inUse b' = inUse b ∧ b.n ≤ b'.n ∧ b'.n ≤ max b.n (inUse b + t)

end Verif
