import Verif.Proofs.DedupHist
import Verif.Props.Temp

/-!
# Properties C24 and C33 in all histories

`split_register_relative` with a repeated index makes a register that holds a qubit twice (`C24_no_cloning_refuted`). In
such histories the registers are still disjoint from each other and from the pool, and the temporaries are still
returned clean.
-/

namespace Verif.Props
open Classical

/-! ## C24 -/

/-- In every history: a qubit belongs to one live register at most, none of them is in the pool, the pool holds no
qubit twice, and all are below `n()`. (What fails is that a register holds its qubits once.) -/
theorem C24_disjoint_partial (allowed : Call → Prop) (s : LocalBuilder) (live : List Reg) (h : Hist allowed s live) :
    live.Pairwise (fun a b => ∀ q ∈ a, q ∉ b) ∧ (∀ r ∈ live, ∀ q ∈ r, q ∉ s.zeroedQubits.flatten ∧ q < s.n) ∧
      s.zeroedQubits.flatten.Nodup ∧ ∀ q ∈ s.zeroedQubits.flatten, q < s.n := by
  obtain ⟨own, -⟩ := h.own_dd
  have hm : ∀ r ∈ live, ∀ q ∈ r, q ∈ (live.map dd).flatten := fun r hr q hq =>
    List.mem_flatten.mpr ⟨dd r, List.mem_map_of_mem hr, mem_dd.mpr hq⟩
  refine ⟨?_, fun r hr q hq => ⟨own.not_pool (hm r hr q hq), own.mem_lt (hm r hr q hq)⟩, (List.nodup_append.mp own.nodup).2.1,
    fun q hq => own.lt q (by simp only [List.mem_append]; exact .inr hq)⟩
  have := (List.nodup_flatten.mp own.left).2
  rw [List.pairwise_map] at this
  refine this.imp fun {a b} hab q h1 h2 => hab (mem_dd.mpr h1) (mem_dd.mpr h2)

/-- the program in which a register holds qubit 0 twice -/
theorem twice : Hist (fun _ => True) { LocalBuilder.default with n := 4 } [[0, 0], [1, 2, 3]] :=
  Hist.ok (rest := []) (.split [0, 1, 2, 3] [0, 0])
    (Hist.ok (.register 4) .start trivial (List.Perm.refl _) rfl) trivial (List.Perm.refl _) rfl

example : ([[0, 0], [1, 2, 3]] : List Reg).Pairwise (fun a b => ∀ q ∈ a, q ∉ b) := (C24_disjoint_partial _ _ _ twice).1

/-! ## C33 -/

/-- A temporary handed out in any history is none of the qubits the program owns, and it is 0 in every basis state with
clean temporaries. -/
theorem C33_make_temp (allowed : Call → Prop) (s : LocalBuilder) (live : List Reg) (h : Hist allowed s live) :
    ∃ t s', LocalBuilder.makeTempQubit s = .ok [t] s' ∧ (∀ r ∈ live, t ∉ r) ∧ t < s'.n ∧
      (t ∈ s.zeroedQubits.flatten ∧ s'.n = s.n ∨ t = s.n ∧ s.zeroedQubits = []) ∧
      t ∉ s'.zeroedQubits.flatten ∧ (∀ q ∈ s'.zeroedQubits.flatten, q ∈ s.zeroedQubits.flatten) ∧
      ∀ x, Clean s x → x t = false ∧ Clean s' x := by
  obtain ⟨own, -⟩ := h.own_dd
  obtain ⟨t, s', h1, h2, h3, h4, h5, h6⟩ := makeTemp_local own
  refine ⟨t, s', h1, ?_, h2.mem_lt (by simp), ?_, h2.not_pool (by simp), ?_, fun x hx => ⟨(h6 x hx).2, (h6 x hx).1⟩⟩
  · intro r hr ht
    exact (List.nodup_cons.mp h2.left).1 (List.mem_flatten.mpr ⟨dd r, List.mem_map_of_mem hr, mem_dd.mpr ht⟩)
  · unfold LocalBuilder.makeTempQubit at h1
    rw [bind_ok (get_run s)] at h1
    cases hgl : s.zeroedQubits.getLast? with
    | some r =>
      rw [hgl] at h1
      cases h1
      left
      refine ⟨List.mem_flatten.mpr ⟨[t], List.mem_of_getLast? hgl, by simp⟩, rfl⟩
    | none =>
      rw [hgl] at h1
      simp only at h1
      have hq' : (qubit : M LocalBuilder Reg) s = .ok [s.n] { s with n := s.n + 1 } := rfl
      rw [hq'] at h1
      cases h1
      right
      exact ⟨rfl, by simpa using hgl⟩
  · unfold LocalBuilder.makeTempQubit at h1
    rw [bind_ok (get_run s)] at h1
    cases hgl : s.zeroedQubits.getLast? with
    | some r =>
      rw [hgl] at h1
      cases h1
      intro q hq
      obtain ⟨r', h1, h2⟩ := List.mem_flatten.mp hq
      exact List.mem_flatten.mpr ⟨r', List.mem_of_mem_dropLast h1, h2⟩
    | none =>
      rw [hgl] at h1
      simp only at h1
      have hq' : (qubit : M LocalBuilder Reg) s = .ok [s.n] { s with n := s.n + 1 } := rfl
      rw [hq'] at h1
      cases h1
      exact fun q hq => hq

/-- with a register holding a qubit twice -/
example : ∃ t s', LocalBuilder.makeTempQubit { LocalBuilder.default with n := 4 } = .ok [t] s' ∧ ∀ r ∈ ([[0, 0], [1, 2, 3]] : List Reg), t ∉ r := by
  obtain ⟨t, s', h1, h2, -⟩ := C33_make_temp _ _ _ twice
  exact ⟨t, s', h1, h2⟩

/-- the temporaries after a call that took `cr` and `r` from the registers the program owns and gave back `cr'` and `r'`:
they are clean again in every state reached, none of them belongs to a register of the program, everything that was in
the pool is still there, and anything new in the pool is a fresh qubit -/
def TempsBack (ang : Rot → ℝ) (s s' : LocalBuilder) (live : List Reg) : Prop :=
  ∃ seg, s'.pipeline = s.pipeline ++ seg ∧
    (∀ x, Clean s x → ∀ y ∈ (runW ang seg (ket x)).support, Clean s' y) ∧
    (∀ r ∈ live, ∀ q ∈ r, q ∉ s'.zeroedQubits.flatten) ∧
    (∀ q ∈ s.zeroedQubits.flatten, q ∈ s'.zeroedQubits.flatten) ∧
    (∀ q ∈ s'.zeroedQubits.flatten, q ∈ s.zeroedQubits.flatten ∨ s.n ≤ q)

theorem tempsBack_of {α : Type} {ang : Rot → ℝ} {m : M LocalBuilder α} {s : LocalBuilder} {live : List Reg} {a : α} {A : List ℕ} {U}
    (ho : Own s A) (hl : ∀ r ∈ live, ∀ q ∈ r, q ∈ A) (hall : ∀ q, q < s.n → q ∈ A ∨ q ∈ s.zeroedQubits.flatten)
    (hd : Does ang m s a A U) (hk : Keeps m s a A) : ∃ s', m s = .ok a s' ∧ TempsBack ang s s' live := by
  obtain ⟨s', e1, -, e3, e4⟩ := hd
  obtain ⟨s2, f1, -, f3⟩ := hk
  obtain rfl : s' = s2 := by
    have := e1.symm.trans f1
    injection this
  obtain ⟨seg, p1, -, p3⟩ := e4.seg
  have e3' : Own s' A := e3
  refine ⟨s', e1, seg, p1, ?_, fun r hr q hq => e3'.not_pool (hl r hr q hq), fun q hq => f3 q (.inl hq), ?_⟩
  · intro x hx y hy
    rw [(p3 x hx).1] at hy
    exact (p3 x hx).2 y hy
  · intro q hq
    by_contra hcon
    simp only [not_or, not_le] at hcon
    rcases hall q hcon.2 with h2 | h2
    · exact e3'.not_pool h2 hq
    · exact hcon.1 h2

/-- the same qubits -/
def SameQubits (a b : List ℕ) : Prop := ∀ q, q ∈ a ↔ q ∈ b

/-- X (which is `toffoli`), Z, S, T and CNOT under any number of conditions, in any history whatever: either the program
panics, which happens only if one of the registers holds a qubit twice, or the call succeeds, hands back the
qubits it was given, and the temporaries are back. -/
theorem C33_conditioned (ang : Rot → ℝ) (allowed : Call → Prop) (s : LocalBuilder) (live rest : List Reg) (cr r : Reg) (u : UObj) (n : ℕ)
    (h : Hist allowed s live) (hp : live.Perm (cr :: r :: rest))
    (hu : u ∈ ([.X, .Z, .S, .T] : List UObj) ∨ u = .CNOT ∧ r.length = 2) :
    (¬ (cr ++ r).Nodup ∧ ∃ s', LocalBuilder.tryCond cr r ⟨n, .unitary u⟩ s = .error .panic s') ∨
    ∃ cr' r' s', LocalBuilder.tryCond cr r ⟨n, .unitary u⟩ s = .ok (cr', r') s' ∧ (cr' ++ r').Nodup ∧
      SameQubits (cr' ++ r') (cr ++ r) ∧ TempsBack ang s s' live := by
  obtain ⟨own, hne⟩ := h.own_dd
  have own' : Own s (dd cr ++ dd r ++ (rest.map dd).flatten) := by
    have := own.perm (hp.map dd).flatten
    simpa using this
  have hcr : cr ≠ [] := hne cr (hp.mem_iff.mpr (by simp))
  have hr : r ≠ [] := hne r (hp.mem_iff.mpr (by simp))
  obtain ⟨N, o1, o2⟩ := own_all own'
  rw [List.append_assoc] at o1 o2
  have hl : ∀ a ∈ live, ∀ q ∈ a, q ∈ dd cr ++ dd r ++ ((rest.map dd).flatten ++ N) := by
    intro a ha q hq
    have := hp.mem_iff.mp ha
    simp only [List.mem_cons] at this
    simp only [List.mem_append, mem_dd, List.mem_flatten, List.mem_map]
    rcases this with rfl | rfl | h
    · exact .inl (.inl hq)
    · exact .inl (.inr hq)
    · exact .inr (.inl ⟨dd a, ⟨a, h, rfl⟩, mem_dd.mpr hq⟩)
  have hnd : (dd cr ++ dd r).Nodup := (List.nodup_append.mp own'.left).1
  have hsame : SameQubits (dd cr ++ dd r) (cr ++ r) := fun q => by simp [mem_dd]
  have fin : ∀ {cr' r' : Reg} {m : M LocalBuilder (Reg × Reg)} {U}, cr' ++ r' = dd cr ++ dd r →
      Does ang m s (cr', r') (dd cr ++ dd r ++ ((rest.map dd).flatten ++ N)) U →
      Keeps m s (cr', r') (dd cr ++ dd r ++ ((rest.map dd).flatten ++ N)) →
      LocalBuilder.tryCond cr r ⟨n, .unitary u⟩ s = m s →
      ∃ cr' r' s', LocalBuilder.tryCond cr r ⟨n, .unitary u⟩ s = .ok (cr', r') s' ∧ (cr' ++ r').Nodup ∧
        SameQubits (cr' ++ r') (cr ++ r) ∧ TempsBack ang s s' live := by
    intro cr' r' m U he hd hk hm
    obtain ⟨s', e1, e2⟩ := tempsBack_of o1 hl o2 hd hk
    exact ⟨cr', r', s', hm.trans e1, he ▸ hnd, he ▸ hsame, e2⟩
  have dcr := dd_ne hcr
  have dr := dd_ne hr
  rcases hu with hu | ⟨rfl, h2⟩
  · simp only [List.mem_cons, List.not_mem_nil, or_false] at hu
    obtain ⟨r0, q, hq⟩ : ∃ r0 q, dd r = r0 ++ [q] :=
      ⟨(dd r).dropLast, (dd r).getLast dr, (List.dropLast_append_getLast dr).symm⟩
    rcases hu with rfl | rfl | rfl | rfl
    · exact (condX_dd cr r _ s hcr hr own' n).imp id
        (fin rfl (condX_does ang _ _ _ s dcr o1 n dr) (condX_keeps _ _ _ dcr dr o1 n))
    · exact (condZ_dd cr r _ s hcr hr own' n).imp id
        (fin rfl (condZ_does ang _ _ _ s dcr o1 n dr) (condZ_keeps _ _ _ dcr dr o1 n))
    · refine (condPhase_dd (g := Gate.s) cr r _ s hcr hr own').imp id ?_
      rw [hq] at o1 fin ⊢
      exact fin (cr' := dd cr ++ r0) (r' := [q]) (by simp)
        (condPhase_many (u := .S) rfl rfl (by simp) (fun t => s_emits [t] (by simp) (by simp)) _ r0 q _ s dcr o1)
        (condPhase_keeps (fun t => s_emits [t] (by simp) (by simp)) _ r0 q _ dcr o1)
    · refine (condPhase_dd (g := Gate.t) cr r _ s hcr hr own').imp id ?_
      rw [hq] at o1 fin ⊢
      exact fin (cr' := dd cr ++ r0) (r' := [q]) (by simp)
        (condPhase_many (u := .T) rfl rfl (by simp) (fun t => t_emits [t] (by simp) (by simp)) _ r0 q _ s dcr o1)
        (condPhase_keeps (fun t => t_emits [t] (by simp) (by simp)) _ r0 q _ dcr o1)
  · refine (condCnot_dd cr r _ s hcr h2 own' n).imp id ?_
    rintro ⟨h3, h4⟩
    rw [dd_of_nodup h3] at o1 fin h4
    obtain ⟨a, b, rfl⟩ := List.length_eq_two.mp h2
    exact fin rfl (condCnot_does ang _ _ a b s dcr o1 n) (condCnot_keeps _ _ a b dcr o1 n) h4

/-- `toffoli` in any history whatever; it panics only if the control register holds a qubit twice -/
theorem C33_toffoli (ang : Rot → ℝ) (allowed : Call → Prop) (s : LocalBuilder) (live rest : List Reg) (cr r : Reg)
    (h : Hist allowed s live) (hp : live.Perm (cr :: r :: rest)) :
    (¬ cr.Nodup ∧ ∃ s', toffoli cr r s = .error .panic s') ∨
    ∃ cr' r' s', toffoli cr r s = .ok (cr', r') s' ∧ (cr' ++ r').Nodup ∧ SameQubits cr' cr ∧ SameQubits r' r ∧
      TempsBack ang s s' live := by
  obtain ⟨own, hne⟩ := h.own_dd
  have own' : Own s (dd cr ++ dd r ++ (rest.map dd).flatten) := by
    have := own.perm (hp.map dd).flatten
    simpa using this
  have hcr : cr ≠ [] := hne cr (hp.mem_iff.mpr (by simp))
  have hr : r ≠ [] := hne r (hp.mem_iff.mpr (by simp))
  rcases toffoli_dd cr r _ s hcr hr own' with h1 | h1
  · exact .inl h1
  · obtain ⟨s1, e1, -⟩ := toffoli_does ang _ _ _ s (dd_ne hcr) (dd_ne hr) own'
    right
    rcases C33_conditioned ang allowed s live rest cr r .X 1 h hp (.inl (by simp)) with ⟨-, s', e2⟩ | ⟨cr', r', s', e2, e3, -, e5⟩
    · have : toffoli cr r s = .error .panic s' := e2
      rw [h1, e1] at this
      cases this
    · have e2 : toffoli cr r s = .ok (cr', r') s' := e2
      have e6 := h1.symm.trans e2
      rw [e1] at e6
      cases e6
      exact ⟨_, _, _, e2, e3, fun q => mem_dd, fun q => mem_dd, e5⟩

/-- both cases occur: with the repeated register as controls the code panics, with it as targets the call succeeds -/
example (ang : Rot → ℝ) : (∃ s', toffoli [0, 0] [1, 2, 3] { LocalBuilder.default with n := 4 } = .error .panic s') ∧
    ∃ cr' r' s', toffoli [1, 2, 3] [0, 0] { LocalBuilder.default with n := 4 } = .ok (cr', r') s' ∧
      TempsBack ang { LocalBuilder.default with n := 4 } s' [[0, 0], [1, 2, 3]] := by
  refine ⟨⟨_, rfl⟩, ?_⟩
  rcases C33_toffoli ang _ _ _ [] [1, 2, 3] [0, 0] twice (List.Perm.swap _ _ _) with ⟨h, -⟩ | ⟨cr', r', s', h, -, -, -, h2⟩
  · exact absurd (by decide) h
  · exact ⟨cr', r', s', h, h2⟩

end Verif.Props
