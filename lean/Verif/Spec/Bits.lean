import Mathlib.Data.Nat.Bitwise

/-! Specification vocabulary for the bit properties (independent of the model). -/

namespace Verif.Spec

/-- number of set bits of `s` strictly below position `m` -/
def onesBelow (s m : ℕ) : ℕ := ((List.range m).filter (fun i => s.testBit i)).length

/-- number of clear bits of `s` strictly below position `m` -/
def zerosBelow (s m : ℕ) : ℕ := ((List.range m).filter (fun i => !s.testBit i)).length

/-- positions below `n` whose bit in `s` is `v`, in increasing order -/
def positions (n s : ℕ) (v : Bool) : List ℕ := (List.range n).filter (fun i => s.testBit i == v)

end Verif.Spec
