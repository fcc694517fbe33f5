import Verif.Spec.Client
import Verif.Spec.Examples
import Verif.Spec.Arith

/-!
# Specification: structured programs

Programs made of library functions with `condition_with`, `dissolve` and `program!` lines, nested in any way, and what they do to the
state of their registers.
-/

namespace Verif

mutual
/-- a function of a program, from the registers moved in to the registers handed out -/
inductive Prog where
  /-- a library function -/
  | call (m : Method)
  /-- one function after the other -/
  | seq (p q : Prog)
  /-- `condition_with` the first register, a function on the others, `dissolve`, conditioning.rs L22-50 -/
  | cond (p : Prog)
  /-- `program!`, qip-macros/src/lib.rs L140-330 -/
  | prog (ls : Lines)
  /-- a function chosen by the sizes of the registers -/
  | sized (F : List ℕ → Prog)
  /-- the function made by `#[invert]` (qip-macros/src/lib.rs L509-528), or `inverter` called with the function (inverter.rs L86-95) -/
  | inv (attr : Bool) (p : Prog)

/-- lines of `program!` -/
inductive Lines where
  | nil
  /-- a function called with the groups `gs` of qubits -/
  | plain (p : Prog) (gs : List (List Sel)) (ls : Lines)
  /-- ... with `control` or `control(m)` on the group `g` -/
  | control (m : Option ℕ) (p : Prog) (g : List Sel) (gs : List (List Sel)) (ls : Lines)
end

mutual
/-- the program in Rust, for any builder -/
noncomputable def Prog.run : Prog → {β : Type} → [Recursive β] → List Reg → M β (List Reg)
  | .call m, _, _, rs => m.run rs
  | .seq p q, _, _, rs => do
    let rs ← p.run rs
    q.run rs
  | .cond p, β, _, rs =>
    match rs with
    | cr :: rs => do
      let out ← Conditioned.conditioned (β := β) cr (p.run rs)
      pure (out.2 :: out.1)
    | [] => throw .panic
  | .prog ls, _, _, rs => program rs ls.lines
  | .sized F, _, _, rs => (F (rs.map List.length)).run rs
  | .inv attr p, _, _, rs => if attr then invertFn (fun rs => p.run rs) rs else inverter rs (fun rs => p.run rs)

/-- the lines as given to `program!` -/
noncomputable def Lines.lines : Lines → {β : Type} → [Recursive β] → List (Line β)
  | .nil, _, _ => []
  | .plain p gs ls, _, _ => .plain (fun rs => p.run rs) gs :: ls.lines
  | .control m p g gs ls, _, _ => .control m (fun rs => p.run rs) (g :: gs) :: ls.lines
end

/-- a list of amplitudes as a matrix, row by row -/
def matOf (n : ℕ) (data : List ℂ) : ℕ → ℕ → ℂ := fun i j => data.getD (i * 2 ^ n + j) 0

/-- the registers a library function can be called with here, outside or inside conditions. Inside, gates on several qubits do something else
(see C35), rotations ignore the condition (C37), and so on. -/
def Method.Takes (inside : Bool) : Method → List Reg → Prop
  | .named _, [r] => r ≠ [] ∧ (inside = true → r.length = 1)
  | .cnot, [c, r] => c.length = 1 ∧ r ≠ []
  | .swap, [a, b] => a ≠ [] ∧ a.length = b.length
  | .toffoli, [c, r] => c ≠ [] ∧ r ≠ [] ∧ (inside = true → c.length = 1 ∨ (c.length = 2 ∧ r.length = 1))
  | .negateBitmask _, [r] => r ≠ []
  | .sum, rs => rs.map List.length = [1, 1, 1]
  | .carry, rs => rs.map List.length = [1, 1, 1, 1]
  | .copy, [a, b] => a ≠ [] ∧ a.length = b.length
  | .rshift, [r] => r ≠ []
  | .vecMatrix n data, [r] => inside = false ∧ r ≠ [] ∧ r.length = n ∧ data.length = 4 ^ n ∧ IsUnitary n (matOf n data)
  | .matrix n data, [r] => inside = false ∧ r ≠ [] ∧ r.length = n ∧ data.length = 4 ^ n ∧ IsUnitary n (matOf n data)
  | .rz _, [r] => inside = false ∧ r.length = 1
  | .rx _, [r] => inside = false ∧ r.length = 1
  | .ry _, [r] => inside = false ∧ r.length = 1
  | .rzRatio _, [r] => inside = false ∧ r.length = 1
  | .rxRatio _, [r] => inside = false ∧ r.length = 1
  | .ryRatio _, [r] => inside = false ∧ r.length = 1
  | .rzPiBy m, [r] => inside = false ∧ r.length = 1 ∧ m ≠ 0
  | .rxPiBy m, [r] => inside = false ∧ r.length = 1 ∧ m ≠ 0
  | .ryPiBy m, [r] => inside = false ∧ r.length = 1 ∧ m ≠ 0
  | .carryInv, rs => inside = false ∧ rs.map List.length = [1, 1, 1, 1]
  | .add, [c, a, b] => inside = false ∧ c ≠ [] ∧ a.length = c.length ∧ b.length = c.length + 1
  | .addInv, [c, a, b] => inside = false ∧ c ≠ [] ∧ a.length = c.length ∧ b.length = c.length + 1
  | .lshift, [r] => inside = false ∧ 2 ≤ r.length
  | .copyInv, [a, b] => inside = false ∧ a ≠ [] ∧ a.length = b.length
  | .qfft, [r] => inside = false ∧ r ≠ []
  | _, _ => False

/-- the values of the qubits of two registers exchanged -/
def swapMap (a b : Reg) (x : Asg) : Asg := fun q =>
  if q ∈ a then x (b.getD (a.idxOf q) 0) else if q ∈ b then x (a.getD (b.idxOf q) 0) else x q

/-- the qubits of `a` added to those of `b` -/
def xorMap (a b : Reg) (x : Asg) : Asg := fun q => if q ∈ b then xor (x q) (x (a.getD (b.idxOf q) 0)) else x q

/-- the values of the qubits of `r` in reverse order -/
def reverseMap (r : Reg) (x : Asg) : Asg := fun q => if q ∈ r then x (r.getD (r.length - 1 - r.idxOf q) 0) else x q

/-- what `qfft` does before reversing the register: every qubit is rotated by `1 - 2^-m` radians, where `m` qubits follow it, and gets an H gate
(see C52) -/
noncomputable def turnsW : Reg → Wave →ₗ[ℂ] Wave
  | [] => LinearMap.id
  | q :: r => turnsW r ∘ₗ gateW [q] (Named.mat .h) ∘ₗ gateW [q] (rzMat (1 - 1 / 2 ^ r.length))

/-- what a library function does to a basis state. Inside conditions H, Y and `toffoli` with two controls use other matrices (see C36, C83).
The factor of `toffoli` with several controls is that of C32, the angles and signs of the rotations those of C34. -/
noncomputable def Method.wave (inside : Bool) : Method → List Reg → Asg → Wave
  | .named g, [r], x => eachW (if inside then g.condMat else g.mat) r (ket x)
  | .cnot, [c, r], x => flipIf 1 c r x
  | .swap, [a, b], x => ket (swapMap a b x)
  | .toffoli, [c, r], x =>
    if inside = true ∧ c.length = 2 then turnIf c (r.headD 0) x else flipIf (if c.length = 1 then 1 else (-Complex.I) ^ (r.length - 1)) c r x
  | .negateBitmask m, [r], x => ket (negMask r m x)
  | .sum, [c, a, b], x => ket (sumMap (c.headD 0) (a.headD 0) (b.headD 0) x)
  | .carry, [c, a, b, d], x => ket (carryMap (c.headD 0) (a.headD 0) (b.headD 0) (d.headD 0) x)
  | .copy, [a, b], x => ket (xorMap a b x)
  | .rshift, [r], x => ket (rotate 1 r x)
  | .vecMatrix n data, [r], x => gateW r (matOf n data) (ket x)
  | .matrix n data, [r], x => gateW r (matOf n data) (ket x)
  | .rz θ, [r], x => gateW r (rzMat θ) (ket x)
  | .rx θ, [r], x => gateW r (rxMat θ) (ket x)
  | .ry θ, [r], x => gateW r (ryMat (-θ)) (ket x)
  | .rzRatio q, [r], x => gateW r (rzMat q) (ket x)
  | .rxRatio q, [r], x => gateW r (rxMat q) (ket x)
  | .ryRatio q, [r], x => gateW r (ryMat q) (ket x)
  | .rzPiBy m, [r], x => gateW r (rzMat (1 / m)) (ket x)
  | .rxPiBy m, [r], x => gateW r (rxMat (1 / m)) (ket x)
  | .ryPiBy m, [r], x => gateW r (ryMat (1 / m)) (ket x)
  | .carryInv, [c, a, b, d], x => ket (carryMap (c.headD 0) (a.headD 0) (b.headD 0) (d.headD 0) x)
  | .add, [c, a, b], x => ket (addMap c a b x)
  | .addInv, [c, a, b], x => ket (subMap c a b x)
  | .lshift, [r], x => ket (rotate (r.length - 1) r x)
  | .copyInv, [a, b], x => ket (xorMap a b x)
  | .qfft, [r], x => Finsupp.linearCombination ℂ (fun y => ket (reverseMap r y)) (turnsW r (ket x))
  | _, _, x => ket x

/-- the adjoint of an action on the qubits `Q`: the amplitude of going from `x` to `y` is the conjugate of that of going from `y` to `x` -/
noncomputable def daggerW (Q : List ℕ) (U : Asg → Wave) (x : Asg) : Wave :=
  ∑ v ∈ Finset.range (2 ^ Q.length), (starRingEnd ℂ) (U (writeQ Q v x) x) • ket (writeQ Q v x)

mutual
/-- what a program does to a basis state -/
noncomputable def Prog.wave : Prog → (inside : Bool) → List Reg → Asg → Wave
  | .call m, inside, rs, x => m.wave inside rs x
  | .seq p q, inside, rs, x => Finsupp.linearCombination ℂ (q.wave inside rs) (p.wave inside rs x)
  | .cond p, _, rs, x => match rs with
    | cr :: rs => open Classical in if ∀ c ∈ cr, x c = true then p.wave true rs x else ket x
    | [] => ket x
  | .prog ls, inside, rs, x => ls.wave inside rs x
  | .sized F, inside, rs, x => (F (rs.map List.length)).wave inside rs x
  | .inv _ p, inside, rs, x => daggerW rs.flatten (p.wave inside rs) x

noncomputable def Lines.wave : Lines → (inside : Bool) → List Reg → Asg → Wave
  | .nil, _, _, x => ket x
  | .plain p gs ls, inside, rs, x => Finsupp.linearCombination ℂ (ls.wave inside rs) (p.wave inside (gs.map (groupReg rs)) x)
  | .control m p g gs ls, inside, rs, x =>
    Finsupp.linearCombination ℂ (ls.wave inside rs) (open Classical in if Holds m (groupReg rs g) x then p.wave true (gs.map (groupReg rs)) x else ket x)
end

/-- the action changes qubit `q` or is influenced by it -/
def Touches (q : ℕ) (U : Asg → Wave) : Prop :=
  ∃ x, (∃ y ∈ (U x).support, y q ≠ x q) ∨ U (flipQ q x) ≠ Finsupp.linearCombination ℂ (fun y => ket (flipQ q y)) (U x)

mutual
/-- the registers a program can be called with, outside or inside conditions. A function can be inverted, outside, if in a new builder it has
an effect on, or is influenced by, the last qubit of its registers (if its circuit does not reach it, inverting panics, see C41). -/
def Prog.Takes : Prog → (inside : Bool) → List Reg → Prop
  | .call m, inside, rs => m.Takes inside rs
  | .seq p q, inside, rs => p.Takes inside rs ∧ q.Takes inside rs
  | .cond p, _, rs => match rs with
    | cr :: rs => cr ≠ [] ∧ p.Takes true rs
    | [] => False
  | .prog ls, inside, rs => (∀ r ∈ rs, r ≠ []) ∧ ls.Takes inside rs
  | .sized F, inside, rs => (F (rs.map List.length)).Takes inside rs
  | .inv _ p, inside, rs => inside = false ∧ rs ≠ [] ∧ (∀ r ∈ rs, r ≠ []) ∧ p.Takes false (ranges 0 (rs.map List.length)) ∧
    Touches (rs.flatten.length - 1) (p.wave false (ranges 0 (rs.map List.length)))

def Lines.Takes : Lines → (inside : Bool) → List Reg → Prop
  | .nil, _, _ => True
  | .plain p gs ls, inside, rs => ValidGroups rs gs ∧ p.Takes inside (gs.map (groupReg rs)) ∧ ls.Takes inside rs
  | .control _ p g gs ls, inside, rs => ValidGroups rs (g :: gs) ∧ p.Takes true (gs.map (groupReg rs)) ∧ ls.Takes inside rs
end

/-- the method applies no gates with other matrices inside conditions -/
def Method.Alike : Method → Prop
  | .named g => g ≠ .y ∧ g ≠ .h
  | .toffoli => False
  | _ => True

mutual
/-- every gate with another matrix inside conditions (H, Y, and the pieces of a Toffoli gate) is inside a condition already -/
def Prog.Alike : Prog → Prop
  | .call m => m.Alike
  | .seq p q => p.Alike ∧ q.Alike
  | .cond _ => True
  | .prog ls => ls.Alike
  | .sized F => ∀ n, (F n).Alike
  | .inv _ p => p.Alike

def Lines.Alike : Lines → Prop
  | .nil => True
  | .plain p _ ls => p.Alike ∧ ls.Alike
  | .control _ _ _ _ ls => ls.Alike
end

end Verif
