import Verif.Spec.Main

/-!
# Specification: dense coding

Two registers of `n` qubits; the sender has the first, the receiver gets it and has the second.
-/

namespace Verif

/-- the entangled pair: H on the first register and `copy` to the second -/
def densePair : Prog := .prog (.plain (.call (.named .h)) [[(0, none)]] (.plain (.call .copy) [[(0, none)], [(1, none)]] .nil))

/-- the sender works on the first register only: the qubits of the ones of `u` are negated, and between H those of the ones of `v`. `negate_bitmask` negates the qubits of
the zeros of its mask. -/
def denseSend (n u v : ℕ) : Prog :=
  .prog (.plain (.call (.negateBitmask (2 ^ n - 1 - u))) [[(0, none)]] (.plain (.call (.named .h)) [[(0, none)]]
    (.plain (.call (.negateBitmask (2 ^ n - 1 - v))) [[(0, none)]] (.plain (.call (.named .h)) [[(0, none)]] .nil))))

/-- the receiver: `copy` from the first to the second and H on the first -/
def denseRead : Prog := .prog (.plain (.call .copy) [[(0, none)], [(1, none)]] (.plain (.call (.named .h)) [[(0, none)]] .nil))

end Verif
