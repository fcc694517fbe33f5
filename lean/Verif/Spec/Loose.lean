import Verif.Spec.Struct

/-!
# Specification: structured programs with rotations inside conditions

The rotation methods, and through them `qfft`, pass their rotations on without the conditions (C37). So a part of a program inside conditions also does something when
these do not hold.
-/

namespace Verif

/-- where a part of a program is carried out: outside conditions, inside conditions that hold, or inside conditions of which some does not hold -/
inductive Mode where
  | outside
  | held
  | idle

/-- the library functions that make rotations -/
def Method.Turns : Method → Bool
  | .rz _ | .rx _ | .ry _ | .rzRatio _ | .rxRatio _ | .ryRatio _ | .rzPiBy _ | .rxPiBy _ | .ryPiBy _ | .qfft => true
  | _ => false

/-- the registers a library function can be called with: now rotations and `qfft` also inside conditions -/
def Method.TakesLoose (inside : Bool) (m : Method) (rs : List Reg) : Prop := m.Takes inside rs ∨ (m.Turns = true ∧ m.Takes false rs)

/-- the rotations of `qfft`: every qubit is rotated by `1 - 2^-m` radians, where `m` qubits follow it, and then gets the gate `d` -/
noncomputable def turnsBy (d : ℕ → ℕ → ℂ) : Reg → Wave →ₗ[ℂ] Wave
  | [] => LinearMap.id
  | q :: r => turnsBy d r ∘ₗ gateW [q] d ∘ₗ gateW [q] (rzMat (1 - 1 / 2 ^ r.length))

/-- only the rotations of `qfft` -/
noncomputable def rotsW : Reg → Wave →ₗ[ℂ] Wave
  | [] => LinearMap.id
  | q :: r => rotsW r ∘ₗ gateW [q] (rzMat (1 - 1 / 2 ^ r.length))

/-- what a library function does to a basis state: rotations are the same everywhere. `qfft` inside conditions that hold uses another matrix for H (see C36), inside
others only the rotations are left of it. -/
noncomputable def Method.looseWave : Mode → Method → List Reg → Asg → Wave
  | .outside, m, rs, x => m.wave false rs x
  | .held, .qfft, [r], x => Finsupp.linearCombination ℂ (fun y => ket (reverseMap r y)) (turnsBy (Named.condMat .h) r (ket x))
  | .idle, .qfft, [r], x => rotsW r (ket x)
  | .held, m, rs, x => if m.Turns then m.wave false rs x else m.wave true rs x
  | .idle, m, rs, x => if m.Turns then m.wave false rs x else ket x

/-- the mode of a part of the program inside one more condition -/
noncomputable def Mode.inner : Mode → Prop → Mode
  | .idle, _ => .idle
  | _, p => open Classical in if p then .held else .idle

mutual
/-- what a program does to a basis state -/
noncomputable def Prog.looseWave : Prog → Mode → List Reg → Asg → Wave
  | .call m, mode, rs, x => m.looseWave mode rs x
  | .seq p q, mode, rs, x => Finsupp.linearCombination ℂ (q.looseWave mode rs) (p.looseWave mode rs x)
  | .cond p, mode, rs, x => match rs with
    | cr :: rs => p.looseWave (mode.inner (∀ c ∈ cr, x c = true)) rs x
    | [] => ket x
  | .prog ls, mode, rs, x => ls.looseWave mode rs x
  | .sized F, mode, rs, x => (F (rs.map List.length)).looseWave mode rs x
  | .inv _ p, mode, rs, x => daggerW rs.flatten (p.looseWave mode rs) x

noncomputable def Lines.looseWave : Lines → Mode → List Reg → Asg → Wave
  | .nil, _, _, x => ket x
  | .plain p gs ls, mode, rs, x => Finsupp.linearCombination ℂ (ls.looseWave mode rs) (p.looseWave mode (gs.map (groupReg rs)) x)
  | .control m p g gs ls, mode, rs, x =>
    Finsupp.linearCombination ℂ (ls.looseWave mode rs) (p.looseWave (mode.inner (Holds m (groupReg rs g) x)) (gs.map (groupReg rs)) x)
end

mutual
/-- the registers a program can be called with, outside or inside conditions (compare `Prog.Takes`) -/
def Prog.TakesLoose : Prog → (inside : Bool) → List Reg → Prop
  | .call m, inside, rs => m.TakesLoose inside rs
  | .seq p q, inside, rs => p.TakesLoose inside rs ∧ q.TakesLoose inside rs
  | .cond p, _, rs => match rs with
    | cr :: rs => cr ≠ [] ∧ p.TakesLoose true rs
    | [] => False
  | .prog ls, inside, rs => (∀ r ∈ rs, r ≠ []) ∧ ls.TakesLoose inside rs
  | .sized F, inside, rs => (F (rs.map List.length)).TakesLoose inside rs
  | .inv _ p, inside, rs => inside = false ∧ rs ≠ [] ∧ (∀ r ∈ rs, r ≠ []) ∧ p.TakesLoose false (ranges 0 (rs.map List.length)) ∧
    Touches (rs.flatten.length - 1) (p.looseWave .outside (ranges 0 (rs.map List.length)))

def Lines.TakesLoose : Lines → (inside : Bool) → List Reg → Prop
  | .nil, _, _ => True
  | .plain p gs ls, inside, rs => ValidGroups rs gs ∧ p.TakesLoose inside (gs.map (groupReg rs)) ∧ ls.TakesLoose inside rs
  | .control _ p g gs ls, inside, rs => ValidGroups rs (g :: gs) ∧ p.TakesLoose true (gs.map (groupReg rs)) ∧ ls.TakesLoose inside rs
end

end Verif
