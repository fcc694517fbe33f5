import Verif.Spec.Oracle

/-!
# Specification: Simon's program

An oracle for a function with several bits of output, with the input register in a superposition of all numbers.
-/

namespace Verif

/-- the bits of `w` added to the qubits of a register -/
def addVal (r : Reg) (w : ℕ) (x : Asg) : Asg := fun q => if q ∈ r then xor (x q) (w.testBit (r.idxOf q)) else x q

/-- the oracle adds `f` of the value of the first `n` qubits to the `m` qubits that follow, and can be called with these registers -/
structure ComputesWide (n m : ℕ) (f : ℕ → ℕ) (o : Prog) : Prop where
  takes : o.Takes false [List.range n, List.range' n m]
  wave : ∀ x : Asg, o.wave false [List.range n, List.range' n m] x = ket (addVal (List.range' n m) (f (valQ (List.range n) x)) x)

/-- a line `control(v) negate_bitmask(…)` for every number of the list; `negate_bitmask` negates the qubits at which its mask has a 0 -/
def wideLines (m : ℕ) (f : ℕ → ℕ) : List ℕ → Lines
  | [] => .nil
  | v :: vs => .control (some v) (.call (.negateBitmask (2 ^ m - (f v % 2 ^ m + 1)))) [(0, none)] [[(1, none)]] (wideLines m f vs)

/-- an oracle for any function from `n` bits to `m` bits -/
def wideOracle (n m : ℕ) (f : ℕ → ℕ) : Prog := .prog (wideLines m f (List.range (2 ^ n)))

/-- `program!` with an input and an output register of any sizes: H on the input, the oracle on both, H on the input -/
def simonProg (o : Prog) : Prog :=
  .prog (.plain (.call (.named .h)) [[(0, none)]] (.plain o [[(0, none)], [(1, none)]] (.plain (.call (.named .h)) [[(0, none)]] .nil)))

end Verif
