import Verif.Spec.Main

/-!
# Specification: teleportation of a register

The classical messages of the usual protocol are qubits here, and the corrections are controlled by them: a calculation has no classical control.
-/

namespace Verif

/-- the sender, `program!` with three registers of the same size: `p` prepares the first. H on the second and `copy` to the third entangle these two. `copy` from the first to
the second and H on the first are the change of basis before the measurements of the sender. -/
def telePrep (p : Prog) : Prog :=
  .prog (.plain p [[(0, none)]] (.plain (.call (.named .h)) [[(1, none)]] (.plain (.call .copy) [[(1, none)], [(2, none)]]
    (.plain (.call .copy) [[(0, none)], [(1, none)]] (.plain (.call (.named .h)) [[(0, none)]] .nil)))))

/-- the receiver, `program!` with the three registers: the corrections are `copy` from the second to the third, and `copy` from the first to the third between two H.
Then `q` works on the third register. -/
def teleFix (q : Prog) : Prog :=
  .prog (.plain (.call .copy) [[(1, none)], [(2, none)]] (.plain (.call (.named .h)) [[(2, none)]] (.plain (.call .copy) [[(0, none)], [(2, none)]]
    (.plain (.call (.named .h)) [[(2, none)]] (.plain q [[(2, none)]] .nil)))))

/-- the values of the qubits when the three registers of `n` qubits hold `u`, `t`, `w` -/
def triAsg (n u t w : ℕ) : Asg := putVal (List.range n) u (putVal (List.range' n n) t (putVal (List.range' (n + n) n) w fun _ => false))

end Verif
