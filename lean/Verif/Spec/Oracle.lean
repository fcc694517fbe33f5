import Verif.Spec.Main

/-!
# Specification: programs that query an oracle

The programs of Deutsch and Jozsa and of Bernstein and Vazirani, with a structured program as the oracle.
-/

namespace Verif

/-- at how many of the lowest `n` places both numbers have a 1 -/
def dot (n u v : ℕ) : ℕ := ((List.range n).filter fun i => u.testBit i && v.testBit i).length

/-- `program!` with an input register of any size and an output of one qubit: X and H on the output, H on the input, the oracle on both, H on
the input -/
def queryProg (o : Prog) : Prog :=
  .prog (.plain (.call (.named .x)) [[(1, none)]] (.plain (.call (.named .h)) [[(1, none)]] (.plain (.call (.named .h)) [[(0, none)]]
    (.plain o [[(0, none)], [(1, none)]] (.plain (.call (.named .h)) [[(0, none)]] .nil)))))

/-- the oracle adds `f` of the value of the first `n` qubits to the qubit that follows, and can be called with these registers -/
structure Computes (n : ℕ) (f : ℕ → Bool) (o : Prog) : Prop where
  takes : o.Takes false [List.range n, [n]]
  wave : ∀ x : Asg, o.wave false [List.range n, [n]] x = ket (setQ n (xor (x n) (f (valQ (List.range n) x))) x)

/-- a line `control(v) x` for every number of the list at which the function is 1 -/
def tableLines (f : ℕ → Bool) : List ℕ → Lines
  | [] => .nil
  | v :: vs => if f v then .control (some v) (.call (.named .x)) [(0, none)] [[(1, none)]] (tableLines f vs) else tableLines f vs

/-- an oracle for any function of `n` bits -/
def tableOracle (n : ℕ) (f : ℕ → Bool) : Prog := .prog (tableLines f (List.range (2 ^ n)))

/-- `cnot` to the output from every qubit of the input at which `a` has a 1 -/
def parityLines (a : ℕ) : List ℕ → Lines
  | [] => .nil
  | i :: is => if a.testBit i then .plain (.call .cnot) [[(0, some [i])], [(1, none)]] (parityLines a is) else parityLines a is

/-- an oracle for the parity of the common ones of the input and `a` -/
def parityOracle (n a : ℕ) : Prog := .prog (parityLines a (List.range n))

/-- `k` rounds of Grover's search: the oracle, H on the input, X on the output if the input is 0, H on the input -/
def groverLines (o : Prog) : ℕ → Lines
  | 0 => .nil
  | k + 1 => .plain o [[(0, none)], [(1, none)]] (.plain (.call (.named .h)) [[(0, none)]] (.control (some 0) (.call (.named .x)) [(0, none)] [[(1, none)]]
    (.plain (.call (.named .h)) [[(0, none)]] (groverLines o k))))

/-- Grover's search: X and H on the output, H on the input, then `k` rounds -/
def groverProg (o : Prog) (k : ℕ) : Prog :=
  .prog (.plain (.call (.named .x)) [[(1, none)]] (.plain (.call (.named .h)) [[(1, none)]] (.plain (.call (.named .h)) [[(0, none)]] (groverLines o k))))

/-- how many of the numbers below `2^n` are looked for -/
def marked (n : ℕ) (f : ℕ → Bool) : ℕ := ((Finset.range (2 ^ n)).filter fun u => f u = true).card

end Verif
