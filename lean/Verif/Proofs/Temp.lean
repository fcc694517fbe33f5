import Verif.Proofs.Sim2

/-! # Temporary registers -/

namespace Verif
open Classical RegOps CircuitBuilder TempBuilder Rooted

variable {β : Type} [Conditionable β] [Rooted β] [Sim β]

theorem makeTemps {n : ℕ} {s : β} {L : List ℕ} (ho : Own (root s) L) :
    ∃ t s', ((List.range n).mapM fun _ => makeTempQubit (β := β)) s = .ok (t.map fun q => [q]) s' ∧ t.length = n ∧
      ctl s' = ctl s ∧ Own (root s') (t ++ L) ∧ (root s').pipeline = (root s).pipeline ∧ (root s).n ≤ (root s').n ∧
      (root s').measurements = (root s).measurements ∧
      (∀ q ∈ t, q ∈ (root s).zeroedQubits.flatten ∨ (root s).n ≤ q) ∧
      ∀ x, Clean (root s) x → Clean (root s') x ∧ ∀ q ∈ t, x q = false := by
  suffices H : ∀ (l : List ℕ) (s : β) (L : List ℕ), Own (root s) L →
      ∃ t s', (l.mapM fun _ => makeTempQubit (β := β)) s = .ok (t.map fun q => [q]) s' ∧ t.length = l.length ∧
      ctl s' = ctl s ∧ (∃ t', t'.Perm t ∧ Own (root s') (t' ++ L)) ∧ (root s').pipeline = (root s).pipeline ∧ (root s).n ≤ (root s').n ∧
      (root s').measurements = (root s).measurements ∧
      (∀ x, Clean (root s) x → Clean (root s') x ∧ ∀ q ∈ t, x q = false) by
    obtain ⟨t, s', h1, h2, h3, ⟨t', h4, h5⟩, h6, h7, h8, h9⟩ := H (List.range n) s L ho
    refine ⟨t, s', h1, by simpa using h2, h3, h5.perm (h4.append_right L), h6, h7, h8, fun q hq => ?_, h9⟩
    by_contra hc
    rw [not_or] at hc
    -- a basis state with every qubit 1 but those of the pool and the unallocated ones
    have hx : Clean (root s) fun p => decide (p ∉ (root s).zeroedQubits.flatten ∧ p < (root s).n) := by
      intro p hp
      rcases hp with hp | hp
      · simp [hp]
      · simp; intro _; exact hp
    have := (h9 _ hx).2 q hq
    simp only [decide_eq_false_iff_not] at this
    exact this ⟨hc.1, by omega⟩
  intro l
  induction l with
  | nil =>
    intro s L ho
    exact ⟨[], s, rfl, rfl, rfl, ⟨[], List.Perm.refl _, ho⟩, rfl, le_refl _, rfl, fun x hx => ⟨hx, by simp⟩⟩
  | cons a l ih =>
    intro s L ho
    obtain ⟨q, b1, h1, h2, h3, h4, h5, h6⟩ := makeTemp_local ho
    obtain ⟨s1, k1, k2, k3⟩ := Sim.makeTemp (β := β) (s := s) h1
    subst k2
    obtain ⟨t, s', g1, g2, g3, ⟨t', g4, g5⟩, g6, g7, g8, g9⟩ := ih s1 (q :: L) h2
    refine ⟨q :: t, s', ?_, by simp [g2], g3.trans k3, ⟨t' ++ [q], ?_, by simpa using g5⟩, g6.trans h3, le_trans h4 g7,
      g8.trans h5, ?_⟩
    · rw [List.mapM_cons, bind_ok k1, bind_ok g1]; rfl
    · exact (List.perm_append_singleton q t').trans (g4.cons q)
    · intro x hx
      obtain ⟨c1, c2⟩ := h6 x hx
      obtain ⟨c3, c4⟩ := g9 x c1
      refine ⟨c3, fun p hp => ?_⟩
      rcases List.mem_cons.mp hp with rfl | hp
      · exact c2
      · exact c4 p hp

theorem makeTempRegister_sim {n : ℕ} (hn : 0 < n) {s : β} {L : List ℕ} (ho : Own (root s) L) :
    ∃ t s', (makeTempRegister n : M β Reg) s = .ok t s' ∧ t.length = n ∧
      ctl s' = ctl s ∧ Own (root s') (t ++ L) ∧ (root s').pipeline = (root s).pipeline ∧ (root s).n ≤ (root s').n ∧
      (root s').measurements = (root s).measurements ∧
      (∀ q ∈ t, q ∈ (root s).zeroedQubits.flatten ∨ (root s).n ≤ q) ∧
      ∀ x, Clean (root s) x → Clean (root s') x ∧ ∀ q ∈ t, x q = false := by
  obtain ⟨t, s', h1, h2, h3⟩ := makeTemps (n := n) ho
  refine ⟨t, s', ?_, h2, h3⟩
  unfold makeTempRegister
  rw [bind_ok h1, mergeSingles t (by rintro rfl; simp at h2; omega)]
  rfl

theorem returnTempR_local {s : LocalBuilder} {L : List ℕ} (t : Reg) (ht : t ≠ []) (ho : Own s (t ++ L)) :
    ∃ s', LocalBuilder.returnTemp t s = .ok () s' ∧ Own s' L ∧ s'.pipeline = s.pipeline ∧ s'.n = s.n ∧
      s'.measurements = s.measurements ∧ s'.zeroedQubits = s.zeroedQubits ++ t.map (fun q => [q]) ∧
      ∀ x, Clean s x → (∀ q ∈ t, x q = false) → Clean s' x := by
  have hn : t.Nodup := (List.nodup_append.mp ho.left).1
  refine ⟨{ s with zeroedQubits := s.zeroedQubits ++ t.map fun q => [q] }, ?_, ⟨?_, ?_, ?_⟩, rfl, rfl, rfl, rfl, ?_⟩
  · unfold LocalBuilder.returnTemp
    rw [splitAll_eq t ht hn]
    rfl
  · intro r hr
    simp only [List.mem_append, List.mem_map] at hr
    rcases hr with hr | ⟨q, _, rfl⟩
    · exact ho.pool r hr
    · rfl
  · have := ho.nodup
    simp only [List.flatten_append, flatten_singles]
    have hp : (t ++ L ++ s.zeroedQubits.flatten).Perm (L ++ (s.zeroedQubits.flatten ++ t)) := by
      rw [List.append_assoc]
      exact List.perm_append_comm.trans (by rw [List.append_assoc])
    exact hp.nodup_iff.mp this
  · intro q hq
    apply ho.lt
    simp only [List.flatten_append, flatten_singles, List.mem_append] at hq ⊢
    tauto
  · intro x hx h q hq
    rcases hq with hq | hq
    · simp only [List.flatten_append, List.mem_append, flatten_singles] at hq
      rcases hq with hq | hq
      · exact hx q (Or.inl hq)
      · exact h q hq
    · exact hx q (Or.inr hq)

variable {ang : Rot → ℝ} {α γ : Type}

/-- a temporary register is made -/
theorem Does.temp {n : ℕ} (hn : 0 < n) {f : Reg → M β γ} {s : β} {L L2 : List ℕ} {c : γ} {U : Asg → Wave}
    (ho : Own (root s) L)
    (h : ∀ t s', t.length = n → ctl s' = ctl s → Own (root s') (t ++ L) → ∃ V, Does ang (f t) s' c L2 V ∧
      ∀ x, (∀ q ∈ t, x q = false) → Clean (root s') x → V x = U x) :
    Does ang (makeTempRegister n >>= f) s c L2 U := by
  obtain ⟨t, s1, h1, h2, h3, h4, h5, h6, h7, -, h8⟩ := makeTempRegister_sim (n := n) hn ho
  obtain ⟨V, ⟨s2, g1, g2, g3, g4⟩, hV⟩ := h t s1 h2 h3 h4
  refine ⟨s2, by rw [bind_ok h1, g1], g2.trans h3, g3, le_trans h6 g4.n_le, g4.meas.trans h7, ?_⟩
  obtain ⟨seg, k1, k2, k3⟩ := g4.seg
  refine ⟨seg, by rw [k1, h5], k2, fun x hx => ?_⟩
  obtain ⟨c1, c2⟩ := h8 x hx
  rw [← hV x c2 c1]
  exact k3 x c1

/-- one temporary qubit is made -/
theorem Does.temp1 {f : Reg → M β γ} {s : β} {L L2 : List ℕ} {c : γ} {U : Asg → Wave}
    (ho : Own (root s) L)
    (h : ∀ t s', ctl s' = ctl s → Own (root s') (t :: L) → ∃ V, Does ang (f [t]) s' c L2 V ∧
      ∀ x, x t = false → Clean (root s') x → V x = U x) :
    Does ang (makeTempQubit >>= f) s c L2 U := by
  obtain ⟨t, b1, h1, h4, h5, h6, h7, h8⟩ := makeTemp_local ho
  obtain ⟨s1, k1, k2, k3⟩ := Sim.makeTemp (β := β) (s := s) h1
  subst k2
  obtain ⟨V, ⟨s2, g1, g2, g3, g4⟩, hV⟩ := h t s1 k3 h4
  refine ⟨s2, by rw [bind_ok k1, g1], g2.trans k3, g3, le_trans h6 g4.n_le, g4.meas.trans h7, ?_⟩
  obtain ⟨seg, k1, k2, k3⟩ := g4.seg
  refine ⟨seg, by rw [k1, h5], k2, fun x hx => ?_⟩
  obtain ⟨c1, c2⟩ := h8 x hx
  rw [← hV x c2 c1]
  exact k3 x c1

/-- a temporary register is returned -/
theorem Does.ret {m : M β α} {f : α → M β γ} {s : β} {a : α} {c : γ} {t : Reg} {L : List ℕ} {U : Asg → Wave}
    (h : Does ang m s a (t ++ L) U) (ht : t ≠ []) (hz : ∀ x, Clean (root s) x → On {y | ∀ q ∈ t, y q = false} (U x))
    (hf : f a = (returnTemp t >>= fun _ => Pure.pure c)) : Does ang (m >>= f) s c L U := by
  obtain ⟨s1, h1, h2, h3, h4⟩ := h
  obtain ⟨b, g1, g2, g3, g4, g5, -, g6⟩ := returnTempR_local t ht h3
  obtain ⟨s2, k1, k2, k3⟩ := Sim.returnTemp (β := β) (s := s1) g1
  subst k2
  refine ⟨s2, ?_, k3.trans h2, g2, by rw [g4]; exact h4.n_le, g5.trans h4.meas, ?_⟩
  · rw [bind_ok h1, hf, bind_ok k1]; rfl
  · obtain ⟨seg, e1, e2, e3⟩ := h4.seg
    refine ⟨seg, by rw [g3, e1], by rw [g4]; exact e2, fun x hx => ⟨(e3 x hx).1, fun y hy => ?_⟩⟩
    exact g6 y ((e3 x hx).2 y hy) (on_iff.mp (hz x hx) y hy)

end Verif
