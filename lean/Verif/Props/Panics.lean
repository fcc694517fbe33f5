import Verif.Proofs.Panics2
import Verif.Props.AllHist

/-!
# Property C89: which calls panic

C89: a call of the builder on registers the program owns panics only when a split is given the size of the register or groups that do not fit,
and returns an error, leaving the builder as it was, exactly in the documented cases. Calculating the state panics exactly when a gate
was applied to the wrong number of qubits or an initial value is given for a register of another builder.
-/

namespace Verif.Props
open Classical

/-- The calls on registers the program owns, after any history without repeated split indices: which panic, which return an error, and that
neither changes the builder. -/
theorem C89_calls (s : LocalBuilder) (live rest : List Reg) (h : Hist Call.NoRepeat s live) (c : Call) (hp : live.Perm (c.args ++ rest)) :
    ((∃ s', c.run s = .error .panic s') ↔ c.Panics) ∧ ((∃ s', c.run s = .error .error s') ↔ c.Errs) ∧
      ∀ e s', c.run s = .error e s' → s' = s := by
  obtain ⟨i1, i2⟩ := h.own
  have hne : ∀ r ∈ c.args ++ rest, r ≠ [] := fun r hr => i2 r (hp.mem_iff.mpr hr)
  have how : Own s (c.args.flatten ++ rest.flatten) := by
    rw [← List.flatten_append]; exact i1.perm hp.flatten
  obtain ⟨h1, h2, h3⟩ := Call.ends c s rest.flatten (fun r hr => hne r (by simp [hr])) how
  refine ⟨⟨?_, fun h => ⟨s, h1 h⟩⟩, ⟨?_, fun h => ⟨s, h2 h⟩⟩, ?_⟩
  · rintro ⟨s', hs⟩
    by_contra hP
    by_cases hE : c.Errs
    · rw [h2 hE] at hs; cases hs
    · obtain ⟨o, s1, h4⟩ := h3 hP hE
      rw [h4] at hs; cases hs
  · rintro ⟨s', hs⟩
    by_contra hE
    by_cases hP : c.Panics
    · rw [h1 hP] at hs; cases hs
    · obtain ⟨o, s1, h4⟩ := h3 hP hE
      rw [h4] at hs; cases hs
  · intro e s' hs
    by_cases hP : c.Panics
    · rw [h1 hP] at hs; cases hs; rfl
    · by_cases hE : c.Errs
      · rw [h2 hE] at hs; cases hs; rfl
      · obtain ⟨o, s1, h4⟩ := h3 hP hE
        rw [h4] at hs; cases hs

/-- a program with one register of three qubits -/
theorem three : Hist Call.NoRepeat { LocalBuilder.default with n := 3 } [[0, 1, 2]] :=
  Hist.ok (rest := []) (.register 3) .start trivial (List.Perm.refl _) rfl

example : (Call.split [0, 1, 2] [1, 3]).Panics ∧ ¬ (Call.split [0, 1, 2] [1, 4]).Panics := by simp [Call.Panics]

example : ∃ s', (Call.splitGroups [0, 1, 2] [[0], [2, 0]]).run { LocalBuilder.default with n := 3 } = .error .panic s' :=
  ((C89_calls _ _ [] three (.splitGroups [0, 1, 2] [[0], [2, 0]]) (List.Perm.refl _)).1).mpr (by simp [Call.Panics])

example : ¬ ∃ s', (Call.splitGroups [0, 1, 2] [[], [2, 0]]).run { LocalBuilder.default with n := 3 } = .error .panic s' := fun h =>
  ((C89_calls _ _ [] three (.splitGroups [0, 1, 2] [[], [2, 0]]) (List.Perm.refl _)).1.mp h) (by simp)

/-- Without the condition on split indices there are other panics: a toffoli whose control register holds a qubit twice. -/
theorem C89_repeated : ∃ (s : LocalBuilder) (live rest : List Reg) (c : Call), Hist (fun _ => True) s live ∧ live.Perm (c.args ++ rest) ∧ ¬ c.Panics ∧ c.run s = .error .panic s := by
  refine ⟨_, _, [], .toffoli [0, 0] [1, 2, 3], twice, List.Perm.refl _, id, ?_⟩
  have e : (toffoli [0, 0] [1, 2, 3] : M LocalBuilder _) = basicToffoli [0, 0] [1, 2, 3] := toffoliF_two 2 0 0 [1, 2, 3]
  exact bind_err (by rw [e]; exact basicToffoli_same 0 [1, 2, 3] _)

/-- Calculating the state, after any history without repeated split indices: it panics exactly when a gate other than a global phase was
applied to the wrong number of qubits, or an initial value names a qubit the builder does not have. The draws of the measurements do not matter. -/
theorem C89_calculate (s : LocalBuilder) (live : List Reg) (h : Hist Call.NoRepeat s live) (it : List (Reg × ℕ)) (rnds : ℕ → ℝ) :
    s.calculateStateWithInit it rnds = none ↔ (∃ p ∈ it, ∃ q ∈ p.1, s.n ≤ q) ∨ ∃ e ∈ s.pipeline, Misfit e :=
  calculate_panics s h.within it rnds

/-- If in addition all gates are given the registers they are made for, calculating the state with initial values for registers of the
program never panics. -/
theorem C89_no_panic (s : LocalBuilder) (live : List Reg) (h : Hist (fun c => c.NoRepeat ∧ c.Sized) s live) (it : List (Reg × ℕ))
    (hit : ∀ p ∈ it, p.1 ∈ live) (rnds : ℕ → ℝ) : ∃ v ms, s.calculateStateWithInit it rnds = some (v, ms) := by
  have hN := h.mono (B := Call.NoRepeat) fun c hc => hc.1
  obtain ⟨-, seg, g1, g2, -⟩ := h.grow (fun c hc => hc) False (fun _ _ h => h.elim)
  have g1' : s.pipeline = seg := by rw [g1]; simp [LocalBuilder.default]
  cases hc : s.calculateStateWithInit it rnds with
  | some r => exact ⟨r.1, r.2, rfl⟩
  | none =>
    exfalso
    rcases (C89_calculate s live hN it rnds).mp hc with ⟨p, h1, q, h2, h3⟩ | ⟨e, h1, u, h2, h3, h4⟩
    · have := hN.own.1.mem_lt (List.mem_flatten.mpr ⟨p.1, hit p h1, h2⟩)
      omega
    · exact h4 ((g2 e (g1' ▸ h1)).1.2.2 u h2)

/-- instance: a rotation of two qubits at once is accepted, and the state cannot be calculated -/
example (rnds : ℕ → ℝ) : ∃ s live, Hist Call.NoRepeat s live ∧ s.calculateStateWithInit [] rnds = none := by
  have h : Hist Call.NoRepeat _ _ := Hist.ok (rest := []) (.rz [0, 1] 1)
    (Hist.ok (rest := []) (.register 2) .start trivial (List.Perm.refl _) rfl) trivial (List.Perm.refl _) (emits_one (rz_emits [0, 1] 1) _)
  exact ⟨_, _, h, (C89_calculate _ _ h [] rnds).mpr (Or.inr ⟨([0, 1], ⟨2, .unitary (.Rz (.floating 1))⟩), by simp, .Rz (.floating 1), rfl, by simp,
    by simp [UObj.Shape]⟩)⟩

/-- instance: a program with a Hadamard gate, a Toffoli gate and a measurement -/
example (rnds : ℕ → ℝ) : ∃ s live v ms, Hist (fun c => c.NoRepeat ∧ c.Sized) s live ∧ s.pipeline ≠ [] ∧
    s.calculateStateWithInit [] rnds = some (v, ms) := by
  have h0 : Hist (fun c => c.NoRepeat ∧ c.Sized) _ _ := Hist.ok (rest := []) (.register 2) .start ⟨trivial, trivial⟩ (List.Perm.refl _) rfl
  have h1 : Hist (fun c => c.NoRepeat ∧ c.Sized) _ _ := Hist.ok (rest := []) (.named .h [0, 1]) h0 ⟨trivial, trivial⟩ (List.Perm.refl _)
    (emits_one (h_emits [0, 1] (by simp) (by simp)) _)
  have h2 : Hist (fun c => c.NoRepeat ∧ c.Sized) _ _ := Hist.ok (rest := []) (.measure [0, 1]) h1 ⟨trivial, trivial⟩ (List.Perm.refl _) rfl
  obtain ⟨v, ms, h3⟩ := C89_no_panic _ _ h2 [] (by simp) rnds
  exact ⟨_, _, v, ms, h2, by simp, h3⟩

end Verif.Props
