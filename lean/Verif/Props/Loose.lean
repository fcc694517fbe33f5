import Verif.Proofs.Loose
import Verif.Props.Struct

/-!
# Property C112: structured programs with rotations inside conditions

The programs of C105, now also with the rotation methods and `qfft` inside conditions. These make their rotations whether the conditions hold or not (C37), so such a program
also does something to the states in which they do not hold.
-/

namespace Verif.Props
open Rooted

/-- C112: a structured program called on a builder inside any conditions returns its registers, and adds a circuit that does what the program says: to the states in
which the conditions hold all of it, to the others the rotations only. -/
theorem C112_does (p : Prog) {k : ℕ} (s : NB k) (rs rest : List Reg) (hp : p.TakesLoose (decide (k ≠ 0)) rs) (h : Sound k s (rs ++ rest)) (hc : (NB.conds k s).length = k) :
    Does rotAngle (p.run rs) s rs ((NB.conds k s).flatten ++ rs.flatten ++ rest.flatten)
      (open Classical in fun x => if ∀ c ∈ (NB.conds k s).flatten, x c = true then p.looseWave (if k = 0 then .outside else .held) rs x else p.looseWave .idle rs x) := by
  have ho := h.own
  rw [List.flatten_append, List.flatten_append, ← List.append_assoc] at ho
  have hn : rs.flatten.Nodup := (List.nodup_append.mp (List.nodup_append.mp (List.nodup_append.mp ho.nodup).1).1).2.1
  have e : Mode.at k = if k = 0 then .outside else .held := by cases k <;> rfl
  rw [← e]
  exact (p.both k (NB.conds k s) hc rs hp hn).does s rest.flatten
    ((NB.ctl_conds k s _).mpr ⟨rfl, hc, fun c hc => h.nonempty c (List.mem_append_left _ hc)⟩) ho

/-- C112: ... outside conditions. -/
theorem C112_outside (p : Prog) (s : LocalBuilder) (rs rest : List Reg) (hp : p.TakesLoose false rs) (h : Sound 0 s (rs ++ rest)) :
    Does rotAngle (p.run rs) s rs (rs.flatten ++ rest.flatten) (p.looseWave .outside rs) :=
  (C112_does p (k := 0) s rs rest hp h rfl).congrU fun _ _ => if_pos fun c hc => by cases hc

mutual
theorem _root_.Verif.Prog.loose_agrees : (p : Prog) → (mode : Mode) → (rs : List Reg) → p.Takes mode.inside rs →
    p.TakesLoose mode.inside rs ∧ ∀ x, p.looseWave mode rs x = match mode with | .outside => p.wave false rs x | .held => p.wave true rs x | .idle => ket x
  | .call m, mode, rs, h => by
    simp only [Prog.Takes] at h
    simp only [Prog.TakesLoose, Prog.looseWave, Prog.wave]
    refine ⟨Or.inl h, fun x => ?_⟩
    cases mode with
    | outside => rfl
    | held =>
      have ht : ¬ m.Turns = true := fun ht => by
        cases m <;> first | exact Bool.false_ne_true ht | (rcases rs with _ | ⟨r, _ | ⟨r', rs⟩⟩ <;> simp [Method.Takes, Mode.inside] at h)
      rw [Method.looseWave_held fun e => ht (by rw [e]; rfl)]
      exact if_neg ht
    | idle =>
      have ht : ¬ m.Turns = true := fun ht => by
        cases m <;> first | exact Bool.false_ne_true ht | (rcases rs with _ | ⟨r, _ | ⟨r', rs⟩⟩ <;> simp [Method.Takes, Mode.inside] at h)
      rw [Method.looseWave_idle fun e => ht (by rw [e]; rfl)]
      exact if_neg ht
  | .seq p q, mode, rs, h => by
    simp only [Prog.Takes] at h
    obtain ⟨p1, p2⟩ := p.loose_agrees mode rs h.1
    obtain ⟨q1, q2⟩ := q.loose_agrees mode rs h.2
    simp only [Prog.TakesLoose, Prog.looseWave, Prog.wave, lift_eq]
    refine ⟨⟨p1, q1⟩, fun x => ?_⟩
    rw [funext q2, p2]
    cases mode with
    | idle => exact lift_ket _ _
    | _ => rfl
  | .cond p, mode, [], h => by simp [Prog.Takes] at h
  | .cond p, mode, cr :: rs, h => by
    simp only [Prog.Takes] at h
    obtain ⟨p1, p2⟩ := p.loose_agrees .held rs h.2
    have p3 := (p.loose_agrees .idle rs h.2).2
    simp only [Prog.TakesLoose, Prog.looseWave, Prog.wave]
    refine ⟨⟨h.1, p1⟩, fun x => ?_⟩
    cases mode with
    | idle => exact p3 x
    | outside => simp only [Mode.inner]; split_ifs; exacts [p2 x, p3 x]
    | held => simp only [Mode.inner]; split_ifs; exacts [p2 x, p3 x]
  | .prog ls, mode, rs, h => by
    simp only [Prog.Takes] at h
    obtain ⟨l1, l2⟩ := ls.loose_agrees mode rs h.2
    simp only [Prog.TakesLoose, Prog.looseWave, Prog.wave]
    exact ⟨⟨h.1, l1⟩, l2⟩
  | .sized F, mode, rs, h => by
    simp only [Prog.Takes] at h
    obtain ⟨l1, l2⟩ := (F (rs.map List.length)).loose_agrees mode rs h
    simp only [Prog.TakesLoose, Prog.looseWave, Prog.wave]
    exact ⟨l1, l2⟩
  | .inv attr p, mode, rs, h => by
    simp only [Prog.Takes] at h
    obtain ⟨h0, h1, h2, h3, h4⟩ := h
    obtain rfl : mode = .outside := by cases mode <;> first | rfl | exact absurd h0.symm Bool.false_ne_true
    obtain ⟨p1, p2⟩ := p.loose_agrees .outside _ h3
    simp only [Prog.TakesLoose, Prog.looseWave, Prog.wave]
    refine ⟨⟨h0, h1, h2, p1, by rw [funext p2]; exact h4⟩, fun x => ?_⟩
    rw [funext (p.loose_agrees .outside rs (takes_ranges h3)).2]

theorem _root_.Verif.Lines.loose_agrees : (ls : Lines) → (mode : Mode) → (rs : List Reg) → ls.Takes mode.inside rs →
    ls.TakesLoose mode.inside rs ∧ ∀ x, ls.looseWave mode rs x = match mode with | .outside => ls.wave false rs x | .held => ls.wave true rs x | .idle => ket x
  | .nil, mode, rs, _ => by
    simp only [Lines.TakesLoose, Lines.looseWave, Lines.wave]
    exact ⟨trivial, fun x => by cases mode <;> rfl⟩
  | .plain p gs ls, mode, rs, h => by
    simp only [Lines.Takes] at h
    obtain ⟨p1, p2⟩ := p.loose_agrees mode _ h.2.1
    obtain ⟨q1, q2⟩ := ls.loose_agrees mode rs h.2.2
    simp only [Lines.TakesLoose, Lines.looseWave, Lines.wave, lift_eq]
    refine ⟨⟨h.1, p1, q1⟩, fun x => ?_⟩
    rw [funext q2, p2]
    cases mode with
    | idle => exact lift_ket _ _
    | _ => rfl
  | .control m p g gs ls, mode, rs, h => by
    simp only [Lines.Takes] at h
    obtain ⟨p1, p2⟩ := p.loose_agrees .held _ h.2.1
    have p3 := (p.loose_agrees .idle _ h.2.1).2
    obtain ⟨q1, q2⟩ := ls.loose_agrees mode rs h.2.2
    simp only [Lines.TakesLoose, Lines.looseWave, Lines.wave, lift_eq]
    refine ⟨⟨h.1, p1, q1⟩, fun x => ?_⟩
    rw [funext q2]
    cases mode with
    | idle => simp only [Mode.inner]; rw [p3]; exact lift_ket _ _
    | outside => simp only [Mode.inner]; split_ifs; exacts [by rw [p2], by rw [p3]]
    | held => simp only [Mode.inner]; split_ifs; exacts [by rw [p2], by rw [p3]]
end

/-- C112: for the programs of C105 this is what C105 says: the same actions outside and inside conditions, and nothing if these do not hold. -/
theorem C112_agrees (p : Prog) (rs : List Reg) :
    (p.Takes false rs → p.TakesLoose false rs ∧ p.looseWave .outside rs = p.wave false rs) ∧
    (p.Takes true rs → p.TakesLoose true rs ∧ p.looseWave .held rs = p.wave true rs ∧ p.looseWave .idle rs = ket) :=
  ⟨fun h => ⟨(p.loose_agrees .outside rs h).1, funext (p.loose_agrees .outside rs h).2⟩,
    fun h => ⟨(p.loose_agrees .held rs h).1, funext (p.loose_agrees .held rs h).2, funext (p.loose_agrees .idle rs h).2⟩⟩

/-- C112: the qubits outside the registers keep their values and have no influence, whether the conditions hold or not. -/
theorem C112_local (p : Prog) (rs : List Reg) (hn : rs.flatten.Nodup) (mode : Mode) (hp : p.TakesLoose (match mode with | .outside => false | _ => true) rs) (x : Asg) :
    (∀ y ∈ (p.looseWave mode rs x).support, ∀ q, q ∉ rs.flatten → y q = x q) ∧
      ∀ (c : Reg), (∀ q ∈ rs.flatten, q ∉ c) → ∀ m,
        Finsupp.linearCombination ℂ (fun y => ket (negMask c m y)) (p.looseWave mode rs (negMask c m x)) = p.looseWave mode rs x := by
  have hp' : p.TakesLoose mode.inside rs := by cases mode <;> exact hp
  refine ⟨fun y hy => ?_, fun c hc m => p.looseWave_blind mode rs hp' c hc m x⟩
  cases mode with
  | outside => exact on_iff.mp ((p.both 0 [] rfl rs hp hn).keeps x) y hy
  | held => exact on_iff.mp ((p.both 1 [[]] rfl rs hp hn).keeps x) y hy
  | idle => exact on_iff.mp ((p.both 1 [[]] rfl rs hp hn).keeps' x) y hy

/-! ## examples -/

/-- a `program!` of two registers: `qfft` of the second with `control(2)` on the first, and `rx` by π of its second qubit with `control` on its first -/
noncomputable def turning : Prog :=
  .prog (.control (some 2) (.call .qfft) [(0, none)] [[(1, none)]]
    (.control none (.call (.rx Real.pi)) [(1, some [0])] [[(1, some [1])]] .nil))

theorem turning_takes : turning.TakesLoose false [[0, 1], [2, 3]] := by
  simp only [turning, Prog.TakesLoose, Lines.TakesLoose]
  exact ⟨by decide, ⟨by decide, by decide, by decide, by unfold HasPos; decide⟩, Or.inr ⟨rfl, rfl, by decide⟩,
    ⟨by decide, by decide, by decide, by unfold HasPos; decide⟩, Or.inr ⟨rfl, rfl, by decide⟩, trivial⟩

theorem turning_sound : Sound 0 ⟨[], 5, [], 0⟩ ([[0, 1], [2, 3]] ++ [[4]]) := ⟨⟨by decide, by decide, by decide⟩, by decide, by intro e he; cases he⟩

example : Does rotAngle (turning.run [[0, 1], [2, 3]]) (⟨[], 5, [], 0⟩ : LocalBuilder) [[0, 1], [2, 3]] [0, 1, 2, 3, 4] (turning.looseWave .outside [[0, 1], [2, 3]]) :=
  C112_outside turning _ _ [[4]] turning_takes turning_sound

example := (C112_agrees guarded [[0], [1, 2], [3, 4]]).1 guarded_takes
example := C112_local turning [[0, 1], [2, 3]] (by decide) .outside turning_takes (ones [1, 2])

/-- inside a condition on the fifth qubit -/
example : Sound 1 (⟨⟨[], 5, [], 0⟩, some [4]⟩ : Conditioned LocalBuilder) ([[0, 1], [2, 3]] ++ []) ∧ turning.TakesLoose true [[0, 1], [2, 3]] := by
  refine ⟨⟨⟨by decide, by decide, by decide⟩, by decide, by intro e he; cases he⟩, ?_⟩
  simp only [turning, Prog.TakesLoose, Lines.TakesLoose]
  exact ⟨by decide, ⟨by decide, by decide, by decide, by unfold HasPos; decide⟩, Or.inr ⟨rfl, rfl, by decide⟩,
    ⟨by decide, by decide, by decide, by unfold HasPos; decide⟩, Or.inr ⟨rfl, rfl, by decide⟩, trivial⟩

theorem qfft_idle (r : Reg) (x : Asg) : Method.qfft.looseWave .idle [r] x = rotsW r (ket x) := rfl

theorem rots_zero (a b : ℕ) : rotsW [a, b] (ket fun _ => false) = Complex.exp (-(1 / 4) * Complex.I) • ket fun _ => false := by
  simp only [rotsW, LinearMap.comp_apply, LinearMap.id_apply]
  rw [rz_ket, map_smul, rz_ket, smul_smul, ← Complex.exp_add]
  congr 2
  simp
  ring

/-- from all qubits 0 no condition holds: what is left is a phase and the rotation of the last qubit by π -/
theorem turning_wave : turning.looseWave .outside [[0, 1], [2, 3]] (fun _ => false) =
    Complex.exp (-(1 / 4) * Complex.I) • gateW [3] (rxMat Real.pi) (ket fun _ => false) := by
  have f1 : groupReg [[0, 1], [2, 3]] [(0, none)] = [0, 1] := rfl
  have f2 : List.map (groupReg [[0, 1], [2, 3]]) [[(1, none)]] = [[2, 3]] := rfl
  have f3 : groupReg [[0, 1], [2, 3]] [(1, some [0])] = [2] := rfl
  have f4 : List.map (groupReg [[0, 1], [2, 3]]) [[(1, some [1])]] = [[3]] := rfl
  have h1 : ¬ Holds (some 2) [0, 1] (fun _ => false) := by simp [Holds, valQ]
  have h2 : ¬ Holds none [2] (fun _ => false) := by simp [Holds]
  simp only [turning, Prog.looseWave, Lines.looseWave, lift_eq]
  rw [f1, f2, f3, f4]
  simp only [Mode.inner, if_neg h1]
  rw [qfft_idle, rots_zero, map_smul, lift_ket]
  simp only [if_neg h2, Method.looseWave, Method.Turns, if_true, Method.wave]
  congr 1
  have : lift ket = LinearMap.id := wave_ext fun y => by rw [lift_ket]; rfl
  rw [this]
  rfl

/-- C112 as one would expect it: inside a condition a program does nothing to the states in which it does not hold. -/
def C112_claim : Prop :=
  ∀ (p : Prog) (s : LocalBuilder) (cr : Reg) (rs rest : List Reg), p.TakesLoose true rs → Sound 0 s (cr :: rs ++ rest) →
    ∃ U : Asg → Wave, Does rotAngle ((Prog.cond p).run (cr :: rs)) s (cr :: rs) ((cr :: rs).flatten ++ rest.flatten)
      (open Classical in fun x => if ∀ c ∈ cr, x c = true then U x else ket x)

/-- C112: this fails for `qfft` on two qubits inside a condition. -/
theorem C112_refuted : ¬ C112_claim := by
  intro h
  have hs : Sound 0 ⟨[], 3, [], 0⟩ ([0] :: [[1, 2]] ++ []) := ⟨⟨by decide, by decide, by decide⟩, by decide, by intro e he; cases he⟩
  have ht : (Prog.call .qfft).TakesLoose true [[1, 2]] := by
    simp only [Prog.TakesLoose]
    exact Or.inr ⟨rfl, rfl, by decide⟩
  obtain ⟨U, h1⟩ := h (.call .qfft) _ [0] [[1, 2]] [] ht hs
  have h2 := C112_outside (.cond (.call .qfft)) _ ([0] :: [[1, 2]]) [] (by simp only [Prog.TakesLoose] at ht ⊢; exact ⟨by decide, ht⟩) hs
  have e := does_unique h1 h2 (fun _ => false) (fun _ _ => rfl)
  have hn : ¬ ∀ c ∈ [0], (fun _ => false : Asg) c = true := by simp
  simp only [if_neg hn, Prog.looseWave, Mode.inner] at e
  rw [qfft_idle, rots_zero] at e
  have e2 := DFunLike.congr_fun e (fun _ => false)
  rw [Finsupp.smul_apply, ket_apply, if_pos rfl, smul_eq_mul, mul_one] at e2
  have e3 := congrArg Complex.im e2
  rw [show -(1 / 4) * Complex.I = ((-(1 / 4) : ℝ) : ℂ) * Complex.I by push_cast; ring, Complex.exp_ofReal_mul_I_im, Complex.one_im] at e3
  have := Real.sin_pos_of_pos_of_lt_pi (show (0 : ℝ) < 1 / 4 by norm_num) (by have := Real.two_le_pi; linarith)
  rw [Real.sin_neg] at e3
  linarith

end Verif.Props
