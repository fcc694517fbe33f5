import Verif.Proofs.Steady
import Verif.Props.Client

/-!
# Property C103: conditions only grow

A conditioned builder takes its condition register out for every gate and puts back what the builder underneath returns. Nothing in
the types says that it gets back what it gave.
-/

namespace Verif.Props
open Rooted Ledger

/-- C103: a function of a program that never goes on after an `Err`, called inside any number of conditions and having returned,
leaves every one of them in place: each has its qubits, in order, possibly followed by more. -/
theorem C103_conditions_grow {ok : CObj → Prop} {k : ℕ} {f : List Reg → M (NB k) (List Reg)} (hf : Steady (fun _ => True) True ok k f) (s : NB k)
    (rs rest : List Reg) (h : Sound k s (rs ++ rest)) (hc : (NB.conds k s).length = k) (out : List Reg) (s' : NB k)
    (he : f rs s = .ok out s') : List.Forall₂ (· <+: ·) (NB.conds k s) (NB.conds k s') := by
  letI := Stock.all
  have hl : Holds s (rs ++ rest) := (holds_iff k s _).mpr ⟨h, fun _ _ => trivial⟩
  have hs : Swell s s' := ((hf.swells (fun _ _ => trivial) rs s rest hl).1 _ _ he).2.2
  obtain ⟨cs', h1, h2⟩ := hs (NB.conds k s) ((NB.ctl_conds k s _).mpr ⟨rfl, hc, fun c hc => h.nonempty c (List.mem_append_left _ hc)⟩)
  rw [((NB.ctl_conds k s' _).mp h1).1]
  exact h2

/-- C103: `dissolve` after such a function never panics, and returns a register that begins with the one the condition was made
with. -/
theorem C103_dissolve {ok : CObj → Prop} {k : ℕ} {f : List Reg → M (NB (k + 1)) (List Reg)} (hf : Steady (fun _ => True) True ok (k + 1) f) (s : NB k)
    (cr : Reg) (rs rest : List Reg) (h : Sound k s (cr :: rs ++ rest)) (hc : (NB.conds k s).length = k) (out : List Reg) (s' : Conditioned (NB k))
    (he : f rs (⟨s, some cr⟩ : Conditioned (NB k)) = .ok out s') : ∃ more, s'.cr = some (cr ++ more) := by
  have h' : Sound (k + 1) (⟨s, some cr⟩ : Conditioned (NB k)) (rs ++ rest) := by
    letI := Stock.all
    have hl : Holds s (cr :: rs ++ rest) := (holds_iff k s _).mpr ⟨h, fun _ _ => trivial⟩
    exact ((holds_iff (k + 1) (⟨s, some cr⟩ : Conditioned (NB k)) (rs ++ rest)).mp hl).1
  have hg := C103_conditions_grow hf (⟨s, some cr⟩ : Conditioned (NB k)) rs rest h' (congrArg Nat.succ hc) out s' he
  have hlen := hg.length_eq
  obtain ⟨p, _ | c⟩ := s'
  · exfalso
    have e1 : (NB.conds (k + 1) (⟨s, some cr⟩ : Conditioned (NB k))).length = k + 1 := congrArg Nat.succ hc
    have e3 : (NB.conds (k + 1) (⟨p, none⟩ : Conditioned (NB k))).length = (NB.conds k p).length := rfl
    have := NB.conds_le k p
    omega
  · have hg : List.Forall₂ (· <+: ·) (cr :: NB.conds k s) (c :: NB.conds k p) := hg
    cases hg with
    | cons hp _ =>
      obtain ⟨more, rfl⟩ := hp
      exact ⟨more, rfl⟩

/-! ## examples -/

/-- one qubit as condition, two to work on -/
noncomputable def shallow : Conditioned LocalBuilder := ⟨⟨[], 3, [], 0⟩, some [0]⟩

theorem shallow_sound (L : List Reg) (h : L = [[1, 2]] ∨ L = [[1], [2]]) : Sound 1 shallow (L ++ []) := by
  rcases h with rfl | rfl
  · exact ⟨⟨by decide, by decide, by decide⟩, by decide, by intro e he; cases he⟩
  · exact ⟨⟨by decide, by decide, by decide⟩, by decide, by intro e he; cases he⟩

theorem conditioned_applyCO_ok {β : Type} [Conditionable β] {p p' : β} {cr cr' r r' : Reg} {c : CObj}
    (h : Conditionable.tryCond cr r c p = .ok (cr', r') p') : Conditioned.applyCO r c ⟨p, some cr⟩ = .ok r' ⟨p', some cr'⟩ := by
  unfold Conditioned.applyCO
  have e1 : Conditioned.takeCr (⟨p, some cr⟩ : Conditioned β) = .ok cr ⟨p, none⟩ := rfl
  have e2 : Conditioned.onParent (Conditionable.tryCond cr r c) (⟨p, none⟩ : Conditioned β) = .ok (cr', r') ⟨p', none⟩ := by
    unfold Conditioned.onParent
    simp only [h]
  rw [bind_ok e1, bind_ok e2]
  rfl

theorem conditioned_applyCO_err {β : Type} [Conditionable β] {p p' : β} {cr r : Reg} {c : CObj} {e : Fail}
    (h : Conditionable.tryCond cr r c p = .error e p') : Conditioned.applyCO r c ⟨p, some cr⟩ = .error e ⟨p', none⟩ := by
  unfold Conditioned.applyCO
  have e1 : Conditioned.takeCr (⟨p, some cr⟩ : Conditioned β) = .ok cr ⟨p, none⟩ := rfl
  have e2 : Conditioned.onParent (Conditionable.tryCond cr r c) (⟨p, none⟩ : Conditioned β) = .error e ⟨p', none⟩ := by
    unfold Conditioned.onParent
    simp only [h]
  rw [bind_ok e1, bind_err e2]

/-- S on two qubits inside a condition: all hypotheses of `C103_conditions_grow` hold, and the condition really grows, as the first of the
two qubits ends up in it -/
example : Steady (fun _ => True) True NotMeas 1 (Method.run (.named .s)) ∧ Sound 1 shallow ([[1, 2]] ++ []) ∧ (NB.conds 1 shallow).length = 1 ∧
    ∃ s', (Method.run (.named .s) [[1, 2]] : M (NB 1) _) shallow = .ok [[2]] s' ∧ NB.conds 1 s' = [[0, 1]] := by
  refine ⟨.method _ trivial trivial (by simp [Method.objects]), shallow_sound _ (.inl rfl), rfl, ?_⟩
  obtain ⟨s', h, -⟩ := condPhase_many (ang := rotAngle) (g := Gate.s) (u := .S) (a := Complex.I) rfl rfl (by simp)
    (fun t => s_emits [t] (by simp) (by simp)) [0] [1] 2 [] (⟨[], 3, [], 0⟩ : LocalBuilder) (by simp) ⟨by decide, by decide, by decide⟩
  refine ⟨(⟨s', some [0, 1]⟩ : Conditioned LocalBuilder), ?_, rfl⟩
  have h1 := unwrapM_ok (conditioned_applyCO_ok (β := LocalBuilder) (p := ⟨[], 3, [], 0⟩) (cr := [0]) (r := [1, 2]) (c := ⟨1, .unitary .S⟩) h)
  exact bind_ok (f := fun r => (pure [r] : M (Conditioned LocalBuilder) (List Reg))) (bind_ok (x := get) rfl |>.trans h1)

/-- The restriction to programs that do not go on after an `Err` is needed: SWAP inside a condition is refused with an `Err` (C70), and a
program that goes on after it has lost the condition. -/
theorem C103_lost_after_err_counterexample : ∃ (f : List Reg → M (NB 1) (List Reg)) (s s' : NB 1), Client NotMeas 1 f ∧ Sound 1 s ([[1, 2]] ++ []) ∧
    (NB.conds 1 s).length = 1 ∧ f [[1, 2]] s = .ok [] s' ∧ ¬ List.Forall₂ (· <+: ·) (NB.conds 1 s) (NB.conds 1 s') := by
  refine ⟨_, shallow, (⟨⟨[], 3, [], 0⟩, none⟩ : Conditioned LocalBuilder),
    .recover (.method (.object ⟨2, .unitary .SWAP⟩) trivial (by simp [Method.objects, NotMeas])) (.keep (fun rs => rs) fun _ => List.Subperm.refl _),
    shallow_sound _ (.inl rfl), rfl, ?_, ?_⟩
  · have h1 := conditioned_applyCO_err (β := LocalBuilder) (p := ⟨[], 3, [], 0⟩)
      (tryCond_swap ⟨[], 3, [], 0⟩ [0] [1, 2] 2 (by simp) (by simp) (by decide) rfl)
    have h2 : (Method.run (.object ⟨2, .unitary .SWAP⟩) [[1, 2]] : M (NB 1) _) shallow = .error .error ⟨⟨[], 3, [], 0⟩, none⟩ :=
      bind_err (f := fun r => (pure [r] : M (Conditioned LocalBuilder) (List Reg))) h1
    show (match (Method.run (.object ⟨2, .unitary .SWAP⟩) [[1, 2]] : M (NB 1) _) shallow with
      | .error .error s' => (pure [] : M (NB 1) (List Reg)) s'
      | r => r) = _
    rw [h2]
    rfl
  · intro h
    have h : List.Forall₂ (· <+: ·) [[0]] ([] : List Reg) := h
    cases h

end Verif.Props
