import Verif.Proofs.Client
import Verif.Props.Pair
import Verif.Proofs.Panics2

/-!
# Properties C98, C99: ownership of qubits in all programs, and the circuits they build

C24 is about sequences of calls on a builder without conditions. Here the program may also work inside conditions (to any
depth), use its own functions, `program!`, subcircuits, inverted functions, the arithmetic circuits and `qfft`, and it may
go on after an `Err`.
-/

namespace Verif.Props
open Rooted

/-- C98: whatever a program does, the registers it owns, the condition registers of the builders it works in and the
pool of temporaries never share a qubit, no register holds a qubit twice, all qubits are allocated, and no register is empty (no
split may name a position twice in one index list, see C24). -/
theorem C98_no_cloning {ok : CObj → Prop} {k : ℕ} {s : NB k} {live : List Reg} (h : Session ok k s live) :
    ((NB.conds k s).flatten ++ live.flatten ++ (root s).zeroedQubits.flatten).Nodup ∧
      (∀ q ∈ (NB.conds k s).flatten ++ live.flatten ++ (root s).zeroedQubits.flatten, q < (root s).n) ∧
      ∀ r ∈ NB.conds k s ++ live, r ≠ [] := by
  have := h.sound.own
  rw [List.flatten_append] at this
  exact ⟨this.nodup, this.lt, h.sound.nonempty⟩

/-- C98 for a single call of any function of a program, at any depth of conditions: `others` are the registers not moved into
it. After an `Err` the registers moved into the call are gone, the others are still good. -/
theorem C98_call {ok : CObj → Prop} {k : ℕ} {f : List Reg → M (NB k) (List Reg)} (hf : Client ok k f) (s : NB k)
    (rs others : List Reg) (h : Sound k s (rs ++ others)) :
    (∀ out s', f rs s = .ok out s' → Sound k s' (out ++ others)) ∧
    (∀ s', f rs s = .error .error s' → Sound k s' others) := by
  letI := Stock.all
  obtain ⟨h1, h2⟩ := hf.keeping (fun _ _ => trivial) rs s others ((holds_iff k s _).mpr ⟨h, fun _ _ => trivial⟩)
  exact ⟨fun out s' he => ((holds_iff k s' _).mp (h1 out s' he).1).1, fun s' he => ((holds_iff k s' _).mp ((NB.left_iff k s' _).mp (h2 s' he).1)).1⟩

/-- the same for a function called on a builder without conditions: nothing it gets or makes inside is duplicated -/
theorem C98_function {ok : CObj → Prop} {f : List Reg → M LocalBuilder (List Reg)} (hf : Client ok 0 f) (s : LocalBuilder)
    (rs : List Reg) (h : Sound 0 s rs) (out : List Reg) (s' : LocalBuilder) (he : f rs s = .ok out s') : Own s' out.flatten := by
  have := ((C98_call hf s rs [] (by rw [List.append_nil]; exact h)).1 out s' he).own
  rw [List.append_nil] at this
  exact this

/-- a builder inside two conditions, on the first two of three qubits -/
noncomputable def deep : Conditioned (Conditioned LocalBuilder) :=
  ⟨⟨⟨[], 3, [], 0⟩, some [0]⟩, some [1]⟩

theorem deep_session (ok : CObj → Prop) : Session ok 2 deep [[2]] :=
  .condition (k := 1) (s := (⟨⟨[], 3, [], 0⟩, some [0]⟩ : Conditioned LocalBuilder)) (live := [[1], [2]])
    (.condition (k := 0) (s := (⟨[], 3, [], 0⟩ : LocalBuilder)) (live := [[0], [1], [2]])
      (.ok (k := 0) (rs := [[0, 1, 2]]) (rest := []) (live := [[0, 1, 2]]) (s := (⟨[], 3, [], 0⟩ : LocalBuilder))
        (.ok (k := 0) (rs := []) (rest := []) .start (.method (.register 3) trivial (by simp [Method.objects])) (List.Perm.refl _)
          (by rfl))
        (.method .splitAll trivial (by simp [Method.objects])) (List.Perm.refl _) (by rfl))
      (List.Perm.refl _))
    (List.Perm.refl _)

example : ∃ s, Session Apt 2 s [[3], [2]] ∧ NB.conds 2 s = [[1], [0]] ∧
    ((NB.conds 2 s).flatten ++ [[3], [2]].flatten ++ (root s).zeroedQubits.flatten).Nodup := by
  have h : Session Apt 2 (⟨⟨⟨[], 4, [], 0⟩, some [0]⟩, some [1]⟩ : Conditioned (Conditioned LocalBuilder)) ([[3]] ++ [[2]]) :=
    .ok (rs := []) (rest := [[2]]) (deep_session Apt) (.method (.register 1) trivial (by simp [Method.objects])) (List.Perm.refl _)
      (by rfl)
  exact ⟨_, h, rfl, (C98_no_cloning h).1⟩

/-- X on the third qubit inside both conditions: the hypotheses of `C98_call` hold -/
example : Client Apt 2 (Method.run (.named .x)) ∧ Sound 2 deep ([[2]] ++ []) :=
  ⟨.method _ trivial (by simp [Method.objects]), (deep_session Apt).sound⟩

/-- the adder as a line of a program in which it is controlled, inside another condition -/
example : Client Apt 1 fun rs =>
    program rs [.control none (Method.run .add) [[(0, none)], [(1, none)], [(2, none)], [(3, none)]]] :=
  .prog _ (by simp) (by
    intro mask f gs h
    simp only [List.mem_singleton, Line.control.injEq] at h
    rw [h.2.1]
    exact .method .add trivial (by simp [Method.objects]))

/-! ## C99 -/

/-- C99: whatever a program does, every element of the circuit acts on at least one qubit, on distinct allocated qubits, and on
as many as its object is made for. -/
theorem C99_elements {ok : CObj → Prop} {k : ℕ} {s : NB k} {live : List Reg} (h : Session ok k s live) :
    ∀ e ∈ (root s).pipeline, e.1 ≠ [] ∧ e.1.Nodup ∧ (∀ q ∈ e.1, q < (root s).n) ∧ e.2.n = e.1.length :=
  h.sound.placed

/-- C99: the calculation of the circuit of a program panics exactly when the initial values name an unallocated qubit or the
circuit has a gate of the wrong size for its qubits. -/
theorem C99_calculate {ok : CObj → Prop} {k : ℕ} {s : NB k} {live : List Reg} (h : Session ok k s live) (it : List (Reg × ℕ))
    (rnds : ℕ → ℝ) :
    (root s).calculateStateWithInit it rnds = none ↔
      (∃ p ∈ it, ∃ q ∈ p.1, (root s).n ≤ q) ∨ ∃ e ∈ (root s).pipeline, Misfit e :=
  calculate_panics _ (fun e he => (h.sound.placed e he).2.2.1) it rnds

/-- C99: if the program's own circuit objects are fine, the library adds no gate of the wrong size but rotations: the
calculation panics exactly when the initial values name an unallocated qubit or a rotation acts on several qubits. -/
theorem C99_only_rotations {k : ℕ} {s : NB k} {live : List Reg} (h : Session Apt k s live) (it : List (Reg × ℕ)) (rnds : ℕ → ℝ) :
    (root s).calculateStateWithInit it rnds = none ↔
      (∃ p ∈ it, ∃ q ∈ p.1, (root s).n ≤ q) ∨
        ∃ e ∈ (root s).pipeline, ∃ ρ, e.2.object = .unitary (.Rz ρ) ∧ 1 < e.1.length := by
  rw [C99_calculate h]
  refine or_congr Iff.rfl (exists_congr fun e => and_congr_right fun he => ?_)
  obtain ⟨h1, h2, h3, h4⟩ := h.sound.placed e he
  have hlen : 0 < e.1.length := List.length_pos_iff.mpr h1
  constructor
  · rintro ⟨u, hu, -, hs⟩
    obtain ⟨ρ, rfl⟩ | ⟨hs', -⟩ := h.apt e he u hu
    · have hs' : ¬ e.1.length = 1 := hs
      exact ⟨ρ, hu, by omega⟩
    · rw [h4] at hs'
      exact absurd hs' hs
  · rintro ⟨ρ, hu, hl⟩
    refine ⟨_, hu, by simp, ?_⟩
    show ¬ e.1.length = 1
    omega

/-- C99: a program whose own circuit objects are fine and that rotates single qubits only has a circuit whose results are those
of C96: the calculation of its state succeeds, whatever is measured. -/
theorem C99_exact {k : ℕ} {s : NB k} {live : List Reg} (h : Session Apt k s live)
    (hr : ∀ e ∈ (root s).pipeline, ∀ ρ, e.2.object = .unitary (.Rz ρ) → e.1.length = 1)
    (it : List (Reg × ℕ)) (hit : ∀ p ∈ it, ∀ q ∈ p.1, q < (root s).n) (rnds : ℕ → ℝ) :
    (∀ e ∈ (root s).pipeline, AnyOK (root s).n e) ∧
    ∃ v ms, (root s).calculateStateWithInit it rnds = some (v, resultsW rotAngle (root s).pipeline ms (ket (initAsg it), 0)) ∧
      ms.length = collCount (root s).pipeline ∧
      Rep (root s).n v (pairW rotAngle (root s).pipeline ms (ket (initAsg it), 0)).1 := by
  have hok : ∀ e ∈ (root s).pipeline, AnyOK (root s).n e := by
    intro e he
    obtain ⟨h1, h2, h3, h4⟩ := h.sound.placed e he
    have hf := h.apt e he
    cases ho : e.2.object with
    | meas o =>
      have hE : EntryOK (root s).n e := ⟨h2, h3, fun u hu => by rw [ho] at hu; cases hu⟩
      cases o with
      | measurement => exact .inr ⟨hE, .inr ho⟩
      | stochastic => exact .inr ⟨hE, .inl (.inr ho)⟩
    | unitary u =>
      have hshape : u.Shape e.1.length := by
        obtain ⟨ρ, rfl⟩ | ⟨hs, -⟩ := hf u ho
        · exact hr e he ρ ho
        · rw [← h4]; exact hs
      have hE : EntryOK (root s).n e := ⟨h2, h3, fun v hv => by rw [ho] at hv; cases hv; exact hshape⟩
      by_cases hg : ∃ ρ, u = .GlobalPhase ρ
      · obtain ⟨ρ, rfl⟩ := hg
        exact .inr ⟨hE, .inl (.inl ⟨ρ, ho⟩)⟩
      · refine .inl ⟨⟨hE, h4, u, ho, fun ρ e => hg ⟨ρ, e⟩⟩, fun data hd => ?_⟩
        rw [ho] at hd
        cases hd
        obtain ⟨ρ, e⟩ | ⟨-, hu⟩ := hf _ ho
        · cases e
        · have := hu data rfl
          rw [h4] at this
          exact this
  exact ⟨hok, C96_exact _ it hit hok rnds⟩

/-- rotating a register of two qubits: the circuit cannot be calculated -/
example : ∃ s, Session Apt 0 s [[0, 1]] ∧ s.calculateStateWithInit [] (fun _ => 0) = none := by
  have h : Session Apt 0 (⟨[([0, 1], ⟨2, .unitary (.Rz (.floating 1))⟩)], 2, [], 0⟩ : LocalBuilder) ([[0, 1]] ++ []) :=
    .ok (k := 0) (rs := [[0, 1]]) (rest := [])
      (.ok (k := 0) (rs := []) (rest := []) .start (.method (.register 2) trivial (by simp [Method.objects])) (List.Perm.refl _)
        (by rfl))
      (.method (.rz 1) trivial (by simp [Method.objects])) (List.Perm.refl _) (by rfl)
  exact ⟨_, h, (C99_only_rotations h [] fun _ => 0).mpr (.inr ⟨_, List.mem_singleton.mpr rfl, _, rfl, by simp⟩)⟩

/-- rotating a qubit and measuring it inside a program: every calculation succeeds -/
example (rnds : ℕ → ℝ) : ∃ s, Session Apt 0 s [[0]] ∧ s.pipeline.length = 2 ∧ s.calculateStateWithInit [([0], 1)] rnds ≠ none := by
  have h : Session Apt 0 (⟨[([0], ⟨1, .unitary (.Rz (.floating 1))⟩), ([0], ⟨1, .meas .measurement⟩)], 1, [], 1⟩ : LocalBuilder)
      ([[0]] ++ []) :=
    .ok (k := 0) (rs := [[0]]) (rest := [])
      (.ok (k := 0) (rs := [[0]]) (rest := [])
        (.ok (k := 0) (rs := []) (rest := []) .start (.method (.register 1) trivial (by simp [Method.objects])) (List.Perm.refl _)
          (by rfl))
        (.method (.rz 1) trivial (by simp [Method.objects])) (List.Perm.refl _) (by rfl))
      (.onLocal .measure) (List.Perm.refl _) (by rfl)
  refine ⟨_, h, rfl, ?_⟩
  obtain ⟨-, v, ms, e, -⟩ := C99_exact h (fun e he ρ _ => by
      rcases List.mem_cons.mp he with rfl | he
      · rfl
      · rw [List.mem_singleton.mp he]; rfl) [([0], 1)]
    (fun p hp q hq => by
      rw [List.mem_singleton.mp hp] at hq
      rw [List.mem_singleton.mp hq]
      exact Nat.one_pos) rnds
  exact fun h' => by
    have e' := h'.symm.trans e
    cases e'

end Verif.Props
