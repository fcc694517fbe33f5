import Verif.Proofs.Struct
import Verif.Props.Client
import Verif.Props.AddMod

/-!
# Property C105: what structured programs do

Programs made of gates, `cnot`, `swap`, `toffoli`, `negate_bitmask`, `sum`, `carry`, `copy`, `rshift` by `condition_with` ... `dissolve`
and `program!` with `control` lines, nested in any way and called inside any number of conditions, return their registers and do what they say.
Outside conditions they may also use gates on whole registers, `toffoli` with any controls, matrices, rotations, `qfft` and the adders.
-/

namespace Verif.Props
open Rooted

/-- C105: a structured program called on a builder inside any conditions returns its registers, and adds a circuit that does what the
program says to the states in which the conditions hold and nothing to the others. -/
theorem C105_does (p : Prog) {k : ℕ} (s : NB k) (rs rest : List Reg) (hp : p.Takes (decide (k ≠ 0)) rs) (h : Sound k s (rs ++ rest)) (hc : (NB.conds k s).length = k) :
    Does rotAngle (p.run rs) s rs ((NB.conds k s).flatten ++ rs.flatten ++ rest.flatten)
      (open Classical in fun x => if ∀ c ∈ (NB.conds k s).flatten, x c = true then p.wave (decide (k ≠ 0)) rs x else ket x) := by
  have ho := h.own
  rw [List.flatten_append, List.flatten_append, ← List.append_assoc] at ho
  have hn : rs.flatten.Nodup := (List.nodup_append.mp (List.nodup_append.mp (List.nodup_append.mp ho.nodup).1).1).2.1
  exact (p.moves k (NB.conds k s) hc rs hp hn).does s rest.flatten
    ((NB.ctl_conds k s _).mpr ⟨rfl, hc, fun c hc => h.nonempty c (List.mem_append_left _ hc)⟩) ho

/-- C105: ... outside conditions. -/
theorem C105_outside (p : Prog) (s : LocalBuilder) (rs rest : List Reg) (hp : p.Takes false rs) (h : Sound 0 s (rs ++ rest)) :
    Does rotAngle (p.run rs) s rs (rs.flatten ++ rest.flatten) (p.wave false rs) :=
  (C105_does p (k := 0) s rs rest hp h rfl).congrU fun _ _ => if_pos fun c hc => by cases hc

/-- C105: a program whose H, Y and `toffoli` are all inside conditions of its own does inside further conditions what it does outside, if
they hold. -/
theorem C105_controlled (p : Prog) (ha : p.Alike) {k : ℕ} (s : NB k) (rs rest : List Reg) (hp : p.Takes (decide (k ≠ 0)) rs)
    (h : Sound k s (rs ++ rest)) (hc : (NB.conds k s).length = k) :
    Does rotAngle (p.run rs) s rs ((NB.conds k s).flatten ++ rs.flatten ++ rest.flatten)
      (open Classical in fun x => if ∀ c ∈ (NB.conds k s).flatten, x c = true then p.wave false rs x else ket x) := by
  rw [← p.wave_alike ha (decide (k ≠ 0)) false]
  exact C105_does p s rs rest hp h hc

/-- C105: the qubits outside the registers keep their values and have no influence: flipping them before and after makes no difference. -/
theorem C105_local (p : Prog) (inside : Bool) (rs : List Reg) (hp : p.Takes inside rs) (hn : rs.flatten.Nodup) (x : Asg) :
    (∀ y ∈ (p.wave inside rs x).support, ∀ q, q ∉ rs.flatten → y q = x q) ∧
      ∀ (c : Reg), (∀ q ∈ rs.flatten, q ∉ c) → ∀ m, Finsupp.linearCombination ℂ (fun y => ket (negMask c m y)) (p.wave inside rs (negMask c m x)) = p.wave inside rs x := by
  refine ⟨fun y hy => ?_, fun c hc m => p.wave_blind inside rs hp c hc m x⟩
  cases inside with
  | false => exact on_iff.mp ((p.moves 0 [] rfl rs hp hn).keeps x) y hy
  | true => exact on_iff.mp ((p.moves 1 [[]] rfl rs hp hn).keeps x) y hy

/-- C105: the restriction in `C105_controlled` is needed: Y outside and inside a condition. -/
theorem C105_y_counterexample : ∃ (p : Prog) (rs : List Reg) (x : Asg), p.Takes false rs ∧ p.Takes true rs ∧ p.wave true rs x ≠ p.wave false rs x := by
  refine ⟨.call (.named .y), [[0]], fun _ => false, by simp [Prog.Takes, Method.Takes], by simp [Prog.Takes, Method.Takes], fun h => ?_⟩
  simp only [Prog.wave, Method.wave, eachW_single] at h
  have hne : (setQ 0 false fun _ => false : Asg) ≠ setQ 0 true fun _ => false := fun h => by simpa [setQ] using congrFun h 0
  have h0 := DFunLike.congr_fun h (setQ 0 true fun _ => false)
  rw [gate1_ket, gate1_ket] at h0
  simp [Named.condMat, Named.mat, mat2, ket, hne] at h0
  have := congrArg Complex.im h0
  norm_num at this

/-! ## examples -/

/-- a `program!` of three registers: rotate the second, then `control(1)` on it a `program!` with a `control` line that exchanges the
qubits of the third if the first is 1 -/
def guarded : Prog :=
  .prog (.plain (.call .rshift) [[(1, none)]]
    (.control (some 1) (.prog (.control none (.call .swap) [(0, none)] [[(1, some [0])], [(1, some [1])]] .nil)) [(1, none)] [[(0, none)], [(2, none)]]
      .nil))

theorem guarded_takes : guarded.Takes false [[0], [1, 2], [3, 4]] := by
  simp only [guarded, Prog.Takes, Lines.Takes]
  refine ⟨by simp, ⟨by decide, by decide, by decide, by unfold HasPos; decide⟩, by simp [Method.Takes, groupReg, groupPos, selPos], ⟨by decide, by decide, by decide, by unfold HasPos; decide⟩, ⟨?_, ?_, ?_, trivial⟩, trivial⟩
  · decide
  · exact ⟨by decide, by decide, by decide, by unfold HasPos; decide⟩
  · exact ⟨by decide, by decide⟩

theorem guarded_sound : Sound 0 ⟨[], 6, [], 0⟩ ([[0], [1, 2], [3, 4]] ++ [[5]]) := ⟨⟨by decide, by decide, by decide⟩, by decide, by intro e he; cases he⟩

/-- the second register holds 2 before the rotation and the first 1: the qubits of the third are exchanged -/
theorem guarded_wave : guarded.wave false [[0], [1, 2], [3, 4]] (ones [0, 2, 3]) = ket (ones [0, 1, 4]) := by
  have e1 : rotate 1 [1, 2] (ones [0, 2, 3]) = ones [0, 1, 3] := by
    funext q
    by_cases h1 : q = 1
    · subst h1; rfl
    · by_cases h2 : q = 2
      · subst h2; rfl
      · simp [rotate, ones, h1, h2]
  have e2 : swapMap [3] [4] (ones [0, 1, 3]) = ones [0, 1, 4] := by
    funext q
    by_cases h1 : q = 3
    · subst h1; rfl
    · by_cases h2 : q = 4
      · subst h2; rfl
      · simp [swapMap, ones, h1, h2]
  have h1 : Holds (some 1) [1, 2] (ones [0, 1, 3]) := rfl
  have h2 : Holds none [0] (ones [0, 1, 3]) := fun c hc => by simp [ones]; simp at hc; simp [hc]
  have f1 : groupReg [[0], [1, 2], [3, 4]] [(1, none)] = [1, 2] := rfl
  have f2 : List.map (groupReg [[0], [1, 2], [3, 4]]) [[(0, none)], [(2, none)]] = [[0], [3, 4]] := rfl
  have f3 : groupReg [[0], [3, 4]] [(0, none)] = [0] := rfl
  have f4 : List.map (groupReg [[0], [3, 4]]) [[(1, some [0])], [(1, some [1])]] = [[3], [4]] := rfl
  simp only [guarded, Prog.wave, Lines.wave, lift_eq]
  rw [show List.map (groupReg [[0], [1, 2], [3, 4]]) [[(1, none)]] = [[1, 2]] from rfl, f1, f2]
  simp only [Method.wave, f3, f4, e1, lift_ket, if_pos h1, e2]
  rw [if_pos (show Holds none (groupReg [[0], [3, 4]] [(0, none)]) (ones [0, 1, 3]) from h2), lift_ket, lift_ket]

/-- outside conditions -/
example : Does rotAngle (guarded.run [[0], [1, 2], [3, 4]]) (⟨[], 6, [], 0⟩ : LocalBuilder) [[0], [1, 2], [3, 4]] [0, 1, 2, 3, 4, 5] (guarded.wave false [[0], [1, 2], [3, 4]]) :=
  C105_outside guarded _ _ [[5]] guarded_takes guarded_sound

/-- inside a condition on the sixth qubit -/
example : Sound 1 (⟨⟨[], 6, [], 0⟩, some [5]⟩ : Conditioned LocalBuilder) ([[0], [1, 2], [3, 4]] ++ []) ∧ guarded.Alike :=
  ⟨⟨⟨by decide, by decide, by decide⟩, by decide, by intro e he; cases he⟩, by simp [guarded, Prog.Alike, Lines.Alike, Method.Alike]⟩

/-- a `program!` with functions that are only called outside conditions: H on the second register, `add` it to the third, `qfft` of the third, and
a controlled T -/
def mixed : Prog :=
  .prog (.plain (.call (.named .h)) [[(1, none)]] (.plain (.call .add) [[(0, none)], [(1, none)], [(2, none)]] (.plain (.call .qfft) [[(2, none)]]
    (.control none (.call (.named .t)) [(2, some [2])] [[(1, some [0])]] .nil))))

theorem mixed_takes : mixed.Takes false [[0, 1], [2, 3], [4, 5, 6]] := by
  simp only [mixed, Prog.Takes, Lines.Takes]
  exact ⟨by decide, ⟨by decide, by decide, by decide, by unfold HasPos; decide⟩, ⟨by decide, by decide⟩,
    ⟨by decide, by decide, by decide, by unfold HasPos; decide⟩, ⟨rfl, by decide, rfl, rfl⟩, ⟨by decide, by decide, by decide, by unfold HasPos; decide⟩,
    ⟨rfl, by decide⟩, ⟨by decide, by decide, by decide, by unfold HasPos; decide⟩, ⟨by decide, fun _ => rfl⟩, trivial⟩

example : Does rotAngle (mixed.run [[0, 1], [2, 3], [4, 5, 6]]) (⟨[], 7, [], 0⟩ : LocalBuilder) [[0, 1], [2, 3], [4, 5, 6]] [0, 1, 2, 3, 4, 5, 6]
    (mixed.wave false [[0, 1], [2, 3], [4, 5, 6]]) :=
  C105_outside mixed _ _ [] mixed_takes ⟨⟨by decide, by decide, by decide⟩, by decide, by intro e he; cases he⟩

end Verif.Props
