import Verif.Proofs.Keep
import Verif.Props.Cond

/-!
# Property C33: temporaries of conditioned gates

Continues `Props/Gates.lean` (temporaries handed out, `toffoli`).
-/

namespace Verif.Props
open Classical

/-- the conditioned gates of C33, with the registers they give back: `S` and `T` on a register leave all but its last
qubit with the condition register (C35) -/
inductive CondCall : UObj → Reg → Reg → Reg → Reg → Prop
  | x (cr r) : CondCall .X cr r cr r
  | z (cr r) : CondCall .Z cr r cr r
  | s (cr r q) : CondCall .S cr (r ++ [q]) (cr ++ r) [q]
  | t (cr r q) : CondCall .T cr (r ++ [q]) (cr ++ r) [q]
  | cnot (cr a b) : CondCall .CNOT cr [a, b] cr [a, b]

/-- every conditioned gate of C33 on non-empty registers (two qubits for CNOT) is one of these -/
theorem condCall_total (cr r : Reg) (hr : r ≠ []) :
    CondCall .X cr r cr r ∧ CondCall .Z cr r cr r ∧ (∃ cr' r', CondCall .S cr r cr' r') ∧ (∃ cr' r', CondCall .T cr r cr' r') ∧
      (r.length = 2 → CondCall .CNOT cr r cr r) := by
  obtain ⟨r0, q, rfl⟩ : ∃ r0 q, r = r0 ++ [q] := ⟨r.dropLast, r.getLast hr, (List.dropLast_append_getLast hr).symm⟩
  refine ⟨.x _ _, .z _ _, ⟨_, _, .s _ _ _⟩, ⟨_, _, .t _ _ _⟩, fun h => ?_⟩
  match h' : r0 ++ [q], h with
  | [a, b], _ => exact .cnot _ _ _

/-- X, Z, S, T and CNOT under any number of conditions, in any history: the call succeeds, hands back exactly the qubits
it was given, the temporaries are clean again in every state reached, the pool shares no qubit with the registers the
program owns, everything that was in the pool is still there, and anything new in the pool is a fresh qubit. -/
theorem C33_conditioned_no_repeat (ang : Rot → ℝ) (s : LocalBuilder) (live rest : List Reg) (cr r cr' r' : Reg) (u : UObj) (n : ℕ)
    (h : Hist Call.NoRepeat s live) (hp : live.Perm (cr :: r :: rest)) (hu : CondCall u cr r cr' r') :
    ∃ s' seg, LocalBuilder.tryCond cr r ⟨n, .unitary u⟩ s = .ok (cr', r') s' ∧ cr' ++ r' = cr ++ r ∧ s'.pipeline = s.pipeline ++ seg ∧
      (∀ x, Clean s x → ∀ y ∈ (runW ang seg (ket x)).support, Clean s' y) ∧
      (∀ q ∈ live.flatten, q ∉ s'.zeroedQubits.flatten) ∧
      (∀ q ∈ s.zeroedQubits.flatten, q ∈ s'.zeroedQubits.flatten) ∧
      (∀ q ∈ s'.zeroedQubits.flatten, q ∈ s.zeroedQubits.flatten ∨ s.n ≤ q) := by
  obtain ⟨own, hne⟩ := h.own
  have own' : Own s (cr ++ r ++ rest.flatten) := by
    have := own.perm hp.flatten
    simpa using this
  have hcr : cr ≠ [] := hne cr (hp.mem_iff.mpr (by simp))
  have hr : r ≠ [] := hne r (hp.mem_iff.mpr (by simp))
  obtain ⟨M, o1, o2⟩ := own_all own'
  rw [List.append_assoc] at o1 o2
  obtain ⟨⟨U, s', e1, -, e3, e4⟩, s2, f1, -, f3⟩ :
      (∃ U, Does ang (LocalBuilder.tryCond cr r ⟨n, .unitary u⟩) s (cr', r') (cr ++ r ++ (rest.flatten ++ M)) U) ∧
      Keeps (LocalBuilder.tryCond cr r ⟨n, .unitary u⟩) s (cr', r') (cr ++ r ++ (rest.flatten ++ M)) := by
    cases hu with
    | x => exact ⟨⟨_, condX_does ang cr r _ s hcr o1 n hr⟩, condX_keeps cr r _ hcr hr o1 n⟩
    | z => exact ⟨⟨_, condZ_does ang cr r _ s hcr o1 n hr⟩, condZ_keeps cr r _ hcr hr o1 n⟩
    | s _ r q =>
      exact ⟨⟨_, condPhase_many (u := .S) rfl rfl (by simp) (fun t => s_emits [t] (by simp) (by simp)) cr r q _ s hcr o1⟩,
        condPhase_keeps (fun t => s_emits [t] (by simp) (by simp)) cr r q _ hcr o1⟩
    | t _ r q =>
      exact ⟨⟨_, condPhase_many (u := .T) rfl rfl (by simp) (fun t => t_emits [t] (by simp) (by simp)) cr r q _ s hcr o1⟩,
        condPhase_keeps (fun t => t_emits [t] (by simp) (by simp)) cr r q _ hcr o1⟩
    | cnot _ a b => exact ⟨⟨_, condCnot_does ang cr _ a b s hcr o1 n⟩, condCnot_keeps cr _ a b hcr o1 n⟩
  obtain rfl : s' = s2 := by
    have := e1.symm.trans f1
    injection this
  obtain ⟨seg, p1, -, p3⟩ := e4.seg
  have e3' : Own s' (cr ++ r ++ (rest.flatten ++ M)) := e3
  refine ⟨s', seg, e1, ?_, p1, ?_, ?_, ?_, ?_⟩
  · cases hu <;> simp
  · intro x hx y hy
    rw [(p3 x hx).1] at hy
    exact (p3 x hx).2 y hy
  · intro q hq
    apply e3'.not_pool
    have := hp.flatten.mem_iff.mp hq
    simp only [List.flatten_cons, List.mem_append] at this ⊢
    tauto
  · intro q hq
    exact f3 q (.inl hq)
  · intro q hq
    by_contra hcon
    simp only [not_or, not_le] at hcon
    rcases o2 q hcon.2 with h2 | h2
    · exact e3'.not_pool h2 hq
    · exact hcon.1 h2

/-- a conditioned `T` with two conditions needs two temporaries -/
example (ang : Rot → ℝ) : ∃ s, Hist Call.NoRepeat s [[0, 1], [2]] ∧ ∃ s' seg, LocalBuilder.tryCond [0, 1] [2] ⟨1, .unitary .T⟩ s = .ok ([0, 1], [2]) s' ∧
    s'.pipeline = s.pipeline ++ seg := by
  have h : Hist Call.NoRepeat _ [[0, 1], [2]] := Hist.ok (rest := []) (.split [0, 1, 2] [0, 1])
    (Hist.ok (.register 3) .start trivial (List.Perm.refl _) rfl) (by simp [Call.NoRepeat]) (List.Perm.refl _) rfl
  obtain ⟨s', seg, h1, -, h2, -⟩ := C33_conditioned_no_repeat ang _ _ [] [0, 1] [2] _ _ .T 1 h (List.Perm.refl _) (.t [0, 1] [] 2)
  exact ⟨_, h, s', seg, h1, h2⟩

end Verif.Props
