import Verif.Model.Calc
import Verif.Model.Wide

/-!
# The start of a calculation on machine words

`Model/Calc` uses unbounded numbers for the length of the state vector and for the initial index. Here they are `usize` (64 bits) as in Rust, in a build with overflow
checks or without. Whether the machine has the memory is not modelled, only the limit of `Vec` itself.
-/

namespace Verif

/-- `vec![Complex::zero(); len]`, builder.rs L394: a vector of more than `isize::MAX` bytes is refused with a panic ("capacity overflow"). `bytes` is the size of
`Complex<P>`: 16 for `f64`, 8 for `f32`. -/
def zeros64 (bytes : ℕ) (len : BitVec 64) : Option (List ℂ) := if len.toNat * bytes < 2 ^ 63 then some (List.replicate len.toNat 0) else none

/-- `a >> k` for `usize`; the amount is taken modulo 64 in an unchecked build -/
def shr64 (checked : Bool) (a : BitVec 64) (k : ℕ) : Option (BitVec 64) := if k < 64 then some (a >>> k) else if checked then none else some (a >>> (k % 64))

/-- `a << k` for `usize`, likewise -/
def shl64 (checked : Bool) (a : BitVec 64) (k : ℕ) : Option (BitVec 64) := if k < 64 then some (a <<< k) else if checked then none else some (a <<< (k % 64))

/-- `n - 1 - i` for `usize`, builder.rs L406 -/
def bitPos64 (checked : Bool) (n i : ℕ) : Option ℕ := if i < n then some (n - 1 - i) else if checked then none else some ((n + 2 ^ 65 - 1 - i) % 2 ^ 64)

/-- `initial_index` after one register, builder.rs L398-408 (`x` is a `usize`) -/
def initReg64 (checked : Bool) (n : ℕ) (r : Reg) (x : BitVec 64) (acc : BitVec 64) : Option (BitVec 64) :=
  r.reverse.zipIdx.foldlM (fun acc (p : ℕ × ℕ) => do
    let index ← bitPos64 checked n p.1
    let y ← shr64 checked x (r.length - 1 - p.2)
    let v ← shl64 checked (y &&& 1#64) index
    some (acc ||| v)) acc

/-- the state vector at the start of `calculate_state_with_init`, builder.rs L393-409; `none` is a panic -/
def start64 (checked : Bool) (bytes : ℕ) (n : ℕ) (it : List (Reg × BitVec 64)) : Option (List ℂ) := do
  let len ← shlOne64 checked n
  let state ← zeros64 bytes len
  let i ← it.foldlM (fun acc p => initReg64 checked n p.1 p.2 acc) 0#64
  if i.toNat < state.length then some (state.set i.toNat 1) else none

/-- `calculate_state_with_init`, builder.rs L388-507, with the start on machine words. The loop over the circuit is that of `Model/Calc`, whose index arithmetic fits machine
words for up to 63 qubits (C57); for 64 qubits or more this function is to be used for empty circuits only. -/
noncomputable def calculate64 (checked : Bool) (bytes : ℕ) (b : LocalBuilder) (it : List (Reg × BitVec 64)) (rnds : ℕ → ℝ) : Option (List ℂ × List MeasResult) := do
  let state ← start64 checked bytes b.n it
  let r ← calcFold b.n rnds b.pipeline { state := state, arena := List.replicate state.length 0, measurements := [] }
  some (r.state, r.measurements)

end Verif
