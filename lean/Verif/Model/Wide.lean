import Verif.Model.Arith

/-!
# `qfft` and `negate_bitmask` on machine words

`Model/Arith` and `Model/Program` use unbounded numbers for the denominators of the angles and for the masks. Here they are `i64` and `u64` as in Rust. Both kinds
of build are modelled: with overflow checks (the default of `cargo build` and `cargo test`) an overflow panics, without them (`--release`) it wraps.
-/

namespace Verif
open RegOps CircuitBuilder

/-- `1 << k` for `i64`, qfft.rs L22. A shift by 64 or more panics in a checked build, otherwise the amount is taken modulo 64. -/
def shlOne64 (checked : Bool) (k : ℕ) : Option (BitVec 64) :=
  if k < 64 then some (1#64 <<< k) else if checked then none else some (1#64 <<< (k % 64))

/-- `Ratio::new(1, m)` for `i64`, called in builder.rs L643: numerator and denominator (`num-rational` 0.4, `Ratio::new` and `Ratio::reduce`: a denominator 0
panics; numerator and denominator are coprime here; if the denominator is negative both are subtracted from 0, which overflows for the smallest number) -/
def ratioOne64 (checked : Bool) (m : BitVec 64) : Option (ℤ × ℤ) :=
  if m.toInt = 0 then none
  else if m.toInt < 0 then
    if m = BitVec.intMin 64 then (if checked then none else some (-1, m.toInt))
    else some (-1, -m.toInt)
  else some (1, m.toInt)

/-- `rz_pi_by`, builder.rs L636-648 -/
def rzPiBy64 (checked : Bool) (r : Reg) (m : BitVec 64) : M LocalBuilder Reg :=
  if m.toInt = 0 then throw .error
  else do
    let q ← unwrapO (ratioOne64 checked m)
    LocalBuilder.applyCO r ⟨r.length, .unitary (.Rz (.piRational (q.1 / q.2)))⟩

/-- the inner loop of `qfft` over `j`, qfft.rs L19-25 (`rz_pi_by` of the conditioned builder calls that of its parent, conditioning.rs L157-159) -/
def qfftRow64 (checked : Bool) (i : ℕ) (p : Reg × List (Option Reg)) (j : ℕ) : M LocalBuilder (Reg × List (Option Reg)) := do
  let rj ← unwrapO (p.2[j]?.join)
  let m ← unwrapO (shlOne64 checked (j - i))
  let (ri, rj) ← Conditioned.conditioned rj (Conditioned.onParent (rzPiBy64 checked p.1 m))
  pure (ri, p.2.set j (some rj))

/-- the loop of `qfft` over `i`, qfft.rs L17-28 -/
noncomputable def qfftCol64 (checked : Bool) (rs : List (Option Reg)) (i : ℕ) : M LocalBuilder (List (Option Reg)) := do
  let ri ← unwrapO (rs[i]?.join)
  let (ri, rs) ← (List.range' (i + 1) (rs.length - (i + 1))).foldlM (qfftRow64 checked i) (ri, rs.set i none)
  let ri ← Gate.h ri
  pure (rs.set i (some ri))

/-- `qfft`, qfft.rs L7-40 -/
noncomputable def qfft64 (checked : Bool) (r : Reg) : M LocalBuilder Reg := do
  let rs ← splitAll r
  let rs ← (List.range rs.length).foldlM (qfftCol64 checked) (rs.map some)
  let rs ← (List.range (rs.length / 2)).foldlM qfftSwap rs
  let rs ← unwrapO (rs.mapM id)
  match ← mergeRegisters rs with
  | some r => pure r
  | none => throw .error

/-- `negate_bitmask`, macros/program.rs L6-22 -/
def negateBitmask64 {β : Type} [CliffordT β] (r : Reg) (mask : BitVec 64) : M β Reg := do
  let rs ← splitAll r
  let p ← rs.foldlM (fun (acc : List Reg × BitVec 64) qubit => do
    let lowest := acc.2 &&& 1#64
    let qubit ← if lowest = 0#64 then Gate.not qubit else pure qubit
    pure (acc.1 ++ [qubit], acc.2 >>> 1)) ([], mask)
  let m ← mergeRegisters p.1
  unwrapO m

end Verif
