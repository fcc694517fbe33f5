import Verif.Spec.Clean
import Verif.Proofs.Wave2

/-! # Reasoning about what builder methods do -/

namespace Verif
open Classical RegOps CircuitBuilder TempBuilder

theorem Own.perm {b : LocalBuilder} {L L' : List ℕ} (h : Own b L) (hp : L.Perm L') : Own b L' where
  pool := h.pool
  nodup := (hp.append_right _).nodup_iff.mp h.nodup
  lt q hq := h.lt q ((hp.append_right _).mem_iff.mpr hq)

theorem Own.left {b : LocalBuilder} {L : List ℕ} (h : Own b L) : L.Nodup := (List.nodup_append.mp h.nodup).1

theorem Own.mem_lt {b : LocalBuilder} {L : List ℕ} (h : Own b L) {q : ℕ} (hq : q ∈ L) : q < b.n :=
  h.lt q (by simp [hq])

theorem Own.not_pool {b : LocalBuilder} {L : List ℕ} (h : Own b L) {q : ℕ} (hq : q ∈ L) :
    q ∉ b.zeroedQubits.flatten := fun hp => List.disjoint_of_nodup_append h.nodup hq hp

theorem Own.sub {b : LocalBuilder} {L L' : List ℕ} (h : Own b L) (hs : L'.Sublist L) : Own b L' where
  pool := h.pool
  nodup := (hs.append_right _).nodup h.nodup
  lt q hq := h.lt q ((hs.append_right _).subset hq)

/-- adding circuit elements does not matter for ownership -/
theorem Own.pipe {b : LocalBuilder} {L : List ℕ} (h : Own b L) (p : Pipeline) : Own { b with pipeline := p } L :=
  ⟨h.pool, h.nodup, h.lt⟩

theorem Clean.set {b : LocalBuilder} {L : List ℕ} (h : Own b L) {x : Asg} (hx : Clean b x) (idx : List ℕ)
    (hi : ∀ q ∈ idx, q ∈ L) (c : ℕ) : Clean b (writeQ idx c x) := by
  intro q hq
  rw [writeQ_not_mem]
  · exact hx q hq
  · intro hm
    rcases hq with hq | hq
    · exact h.not_pool (hi q hm) hq
    · have := h.mem_lt (hi q hm); omega

theorem Clean.flip {b : LocalBuilder} {L : List ℕ} (h : Own b L) {x : Asg} (hx : Clean b x) (r : List ℕ)
    (hi : ∀ q ∈ r, q ∈ L) : Clean b (flipAll r x) := by
  intro q hq
  rw [flipAll_not_mem]
  · exact hx q hq
  · intro hm
    rcases hq with hq | hq
    · exact h.not_pool (hi q hm) hq
    · have := h.mem_lt (hi q hm); omega

theorem SegOK.mono {n m : ℕ} {e : List ℕ × CObj} (h : SegOK n e) (hnm : n ≤ m) : SegOK m e :=
  ⟨⟨h.1.1, fun q hq => lt_of_lt_of_le (h.1.2.1 q hq) hnm, h.1.2.2⟩, h.2⟩

theorem SegU.mono {n m : ℕ} {e : List ℕ × CObj} (h : SegU n e) (hnm : n ≤ m) : SegU m e := ⟨h.1.mono hnm, h.2⟩

variable (ang : Rot → ℝ)

theorem on_iff {S : Set Asg} {ψ : Wave} : On S ψ ↔ ∀ y ∈ ψ.support, y ∈ S := by
  unfold On
  rw [Finsupp.mem_supported]
  rfl

/-- the linear extension of a map given on basis states -/
noncomputable def lift (U : Asg → Wave) : Wave →ₗ[ℂ] Wave := Finsupp.linearCombination ℂ U

@[simp] theorem lift_ket (U : Asg → Wave) (x : Asg) : lift U (ket x) = U x := by
  unfold lift ket
  rw [Finsupp.linearCombination_single, one_smul]

namespace Evolves
variable {ang}

theorem refl (b : LocalBuilder) : Evolves ang b b ket where
  n_le := le_refl _
  meas := rfl
  seg := ⟨[], by simp, by simp, fun x hx => ⟨rfl, on_iff.mp (On.ket (S := {y | Clean b y}) hx)⟩⟩

theorem congr {b b' : LocalBuilder} {U U' : Asg → Wave} (h : Evolves ang b b' U)
    (hU : ∀ x, Clean b x → U x = U' x) : Evolves ang b b' U' where
  n_le := h.n_le
  meas := h.meas
  seg := by
    obtain ⟨seg, h1, h2, h3⟩ := h.seg
    refine ⟨seg, h1, h2, fun x hx => ?_⟩
    rw [← hU x hx]; exact h3 x hx

theorem trans {b b1 b2 : LocalBuilder} {U V : Asg → Wave} (h : Evolves ang b b1 U) (h' : Evolves ang b1 b2 V) :
    Evolves ang b b2 (fun x => lift V (U x)) where
  n_le := le_trans h.n_le h'.n_le
  meas := h'.meas.trans h.meas
  seg := by
    obtain ⟨p, h1, h2, h3⟩ := h.seg
    obtain ⟨q, g1, g2, g3⟩ := h'.seg
    refine ⟨p ++ q, by rw [g1, h1, List.append_assoc], ?_, ?_⟩
    · intro e he
      rcases List.mem_append.mp he with he | he
      · exact (h2 e he).mono h'.n_le
      · exact g2 e he
    · intro x hx
      obtain ⟨e1, e2⟩ := h3 x hx
      have hon : On {y | Clean b1 y} (U x) := on_iff.mpr e2
      refine ⟨?_, ?_⟩
      · rw [runW_append, e1]
        apply hon.agree
        intro y hy
        rw [(g3 y hy).1, lift_ket]
      · apply on_iff.mp
        apply On.map hon
        intro y hy
        rw [lift_ket]
        exact on_iff.mpr (g3 y hy).2

end Evolves

/-- adding a circuit segment that touches held qubits only -/
theorem evolves_push {b : LocalBuilder} {L : List ℕ} (h : Own b L) (seg : Pipeline)
    (hs : ∀ e ∈ seg, SegU b.n e ∧ ∀ q ∈ e.1, q ∈ L) :
    Evolves ang b { b with pipeline := b.pipeline ++ seg } (fun x => runW ang seg (ket x)) where
  n_le := le_refl _
  meas := rfl
  seg := by
    refine ⟨seg, rfl, fun e he => (hs e he).1, fun x hx => ⟨rfl, ?_⟩⟩
    refine on_iff.mp (?_ : On {y | Clean { b with pipeline := b.pipeline ++ seg } y} _)
    apply On.run
    · exact On.ket hx
    · intro e he y hy c
      exact Clean.set (b := { b with pipeline := b.pipeline ++ seg }) (h.pipe _) hy e.1 (hs e he).2 c

/-! ## builders over a `LocalBuilder` -/

open Rooted

namespace Does
variable {ang} {β α γ : Type} [Rooted β]

theorem congr {m : M β α} {s : β} {a a' : α} {L L' : List ℕ} {U U' : Asg → Wave} (h : Does ang m s a L U)
    (ha : a = a') (hL : L.Perm L') (hU : ∀ x, Clean (root s) x → U x = U' x) : Does ang m s a' L' U' := by
  subst ha
  obtain ⟨s', h1, h2, h3, h4⟩ := h
  exact ⟨s', h1, h2, h3.perm hL, h4.congr hU⟩

theorem congrU {m : M β α} {s : β} {a : α} {L : List ℕ} {U U' : Asg → Wave} (h : Does ang m s a L U)
    (hU : ∀ x, Clean (root s) x → U x = U' x) : Does ang m s a L U' := h.congr rfl (List.Perm.refl _) hU

theorem pure {s : β} {L : List ℕ} (h : Own (root s) L) (a : α) : Does ang (Pure.pure a : M β α) s a L ket :=
  ⟨s, rfl, rfl, h, Evolves.refl _⟩

theorem bind {m : M β α} {f : α → M β γ} {s : β} {a : α} {c : γ} {L1 L2 : List ℕ} {U V : Asg → Wave}
    (h : Does ang m s a L1 U)
    (h' : ∀ s', ctl s' = ctl s → Own (root s') L1 → Does ang (f a) s' c L2 V) :
    Does ang (m >>= f) s c L2 (fun x => lift V (U x)) := by
  obtain ⟨s1, e1, c1, o1, v1⟩ := h
  obtain ⟨s2, e2, c2, o2, v2⟩ := h' s1 c1 o1
  exact ⟨s2, by rw [bind_ok e1, e2], c2.trans c1, o2, v1.trans v2⟩

theorem unwrap {m : M β α} {s : β} {a : α} {L : List ℕ} {U : Asg → Wave} (h : Does ang m s a L U) :
    Does ang (unwrapM m) s a L U := by
  obtain ⟨s', h1, h2⟩ := h
  exact ⟨s', unwrapM_ok h1, h2⟩

end Does

/-- a method of `LocalBuilder` with a fixed circuit -/
theorem Emits.does {α : Type} {m : M LocalBuilder α} {a : α} {seg : Pipeline} (h : Emits m a seg) {s : LocalBuilder}
    {L : List ℕ} (ho : Own s L) (hs : ∀ e ∈ seg, SegU s.n e ∧ ∀ q ∈ e.1, q ∈ L) :
    Does ang m s a L (fun x => runW ang seg (ket x)) :=
  ⟨_, h s, rfl, ho.pipe _, evolves_push ang ho seg hs⟩

/-! ## segments -/

theorem segOK_each {b : LocalBuilder} {L : List ℕ} (h : Own b L) (r : List ℕ) (hr : ∀ q ∈ r, q ∈ L) (u : UObj)
    (hu : u.Shape 1) (hg : (∀ ρ, u ≠ .GlobalPhase ρ) ∧ ∀ d, u ≠ .MAT d) : ∀ e ∈ each r u, SegU b.n e ∧ ∀ q ∈ e.1, q ∈ L := by
  intro e he
  simp only [each, List.mem_map] at he
  obtain ⟨q, hq, rfl⟩ := he
  refine ⟨⟨⟨⟨by simp, by simpa using h.mem_lt (hr q hq), ?_⟩, rfl, u, rfl, hg.1⟩, fun d hd => ?_⟩, by simpa using hr q hq⟩
  · intro v hv
    simp at hv
    subst hv
    exact hu
  · simp at hd
    exact absurd hd (hg.2 d)

theorem segOK_cnots {b : LocalBuilder} {L : List ℕ} (h : Own b L) (c : ℕ) (r : List ℕ) (hn : c ∉ r)
    (hr : ∀ q ∈ c :: r, q ∈ L) : ∀ e ∈ cnots c r, SegU b.n e ∧ ∀ q ∈ e.1, q ∈ L := by
  intro e he
  simp only [cnots, List.mem_map] at he
  obtain ⟨q, hq, rfl⟩ := he
  have hc := hr c (by simp)
  have hq' := hr q (by simp [hq])
  refine ⟨⟨⟨⟨?_, ?_, ?_⟩, rfl, _, rfl, by simp⟩, by simp⟩, ?_⟩
  · simp; rintro rfl; exact hn hq
  · intro p hp
    simp at hp
    rcases hp with rfl | rfl
    · exact h.mem_lt hc
    · exact h.mem_lt hq'
  · intro v hv
    simp at hv
    subst hv
    rfl
  · intro p hp
    simp at hp
    rcases hp with rfl | rfl
    · exact hc
    · exact hq'

theorem segOK_append {n : ℕ} {L : List ℕ} {p q : Pipeline} (hp : ∀ e ∈ p, SegU n e ∧ ∀ q ∈ e.1, q ∈ L)
    (hq : ∀ e ∈ q, SegU n e ∧ ∀ q ∈ e.1, q ∈ L) : ∀ e ∈ p ++ q, SegU n e ∧ ∀ q ∈ e.1, q ∈ L := by
  intro e he
  rcases List.mem_append.mp he with h | h
  · exact hp e h
  · exact hq e h

theorem segOK_toffoli {b : LocalBuilder} {L : List ℕ} (h : Own b L) (a c : ℕ) (r : List ℕ) (hn : (a :: c :: r).Nodup)
    (hr : ∀ q ∈ a :: c :: r, q ∈ L) : ∀ e ∈ basicToffoliSeg a c r, SegU b.n e ∧ ∀ q ∈ e.1, q ∈ L := by
  have h1 : ∀ u : UObj, u.Shape 1 → ((∀ ρ, u ≠ .GlobalPhase ρ) ∧ ∀ d, u ≠ .MAT d) → ∀ e ∈ each r u, SegU b.n e ∧ ∀ q ∈ e.1, q ∈ L :=
    fun u hu hg => segOK_each h r (fun q hq => hr q (by simp [hq])) u hu hg
  have h2 : ∀ u : UObj, u.Shape 1 → ((∀ ρ, u ≠ .GlobalPhase ρ) ∧ ∀ d, u ≠ .MAT d) → ∀ e ∈ each [a] u, SegU b.n e ∧ ∀ q ∈ e.1, q ∈ L :=
    fun u hu hg => segOK_each h [a] (fun q hq => hr q (by simp at hq; simp [hq])) u hu hg
  have h3 : ∀ u : UObj, u.Shape 1 → ((∀ ρ, u ≠ .GlobalPhase ρ) ∧ ∀ d, u ≠ .MAT d) → ∀ e ∈ each [c] u, SegU b.n e ∧ ∀ q ∈ e.1, q ∈ L :=
    fun u hu hg => segOK_each h [c] (fun q hq => hr q (by simp at hq; simp [hq])) u hu hg
  have c1 := segOK_cnots h a r (by simp at hn; tauto) (fun q hq => hr q (by simp at hq ⊢; tauto))
  have c2 := segOK_cnots h c r (by simp at hn; tauto) (fun q hq => hr q (by simp at hq ⊢; tauto))
  have c3 := segOK_cnots h a [c] (by simp at hn ⊢; tauto) (fun q hq => hr q (by simp at hq ⊢; tauto))
  have hH := h1 .H rfl (by simp)
  have hT := h1 .T rfl (by simp)
  have hS := h1 .S rfl (by simp)
  have hZ := h1 .Z rfl (by simp)
  unfold basicToffoliSeg
  have td := segOK_append (segOK_append hZ hS) hT
  have td' := segOK_append (segOK_append (h3 .Z rfl (by simp)) (h3 .S rfl (by simp))) (h3 .T rfl (by simp))
  repeat' apply segOK_append
  all_goals first
    | exact hH | exact hT | exact hS | exact hZ | exact c1 | exact c2 | exact c3
    | exact h3 _ rfl (by simp) | exact h2 _ rfl (by simp)

/-! ## temporaries -/

theorem makeTemp_local {s : LocalBuilder} {L : List ℕ} (ho : Own s L) :
    ∃ t s', LocalBuilder.makeTempQubit s = .ok [t] s' ∧ Own s' (t :: L) ∧ s'.pipeline = s.pipeline ∧
      s.n ≤ s'.n ∧ s'.measurements = s.measurements ∧ ∀ x, Clean s x → Clean s' x ∧ x t = false := by
  unfold LocalBuilder.makeTempQubit
  rw [bind_ok (get_run s)]
  rcases List.eq_nil_or_concat s.zeroedQubits with hz | ⟨pool, r, hz⟩
  · refine ⟨s.n, { s with n := s.n + 1 }, ?_, ⟨?_, ?_, ?_⟩, rfl, by simp, rfl, ?_⟩
    · have hq : (qubit : M LocalBuilder Reg) s = .ok [s.n] { s with n := s.n + 1 } := rfl
      rw [show s.zeroedQubits.getLast? = none by rw [hz]; rfl]
      exact hq
    · exact ho.pool
    · have := ho.nodup
      simp only [hz, List.flatten_nil, List.append_nil, List.nodup_cons] at this ⊢
      exact ⟨fun hm => absurd (ho.mem_lt hm) (lt_irrefl _), this⟩
    · intro q hq
      simp only [hz, List.flatten_nil, List.append_nil, List.mem_cons] at hq ⊢
      rcases hq with rfl | hq
      · simp
      · have := ho.mem_lt hq; simp; omega
    · intro x hx
      refine ⟨fun q hq => hx q ?_, hx s.n (Or.inr (le_refl _))⟩
      rcases hq with hq | hq
      · exact Or.inl hq
      · simp at hq; exact Or.inr (by omega)
  · have hr1 := ho.pool r (by rw [hz]; simp)
    obtain ⟨t, rfl⟩ := List.length_eq_one_iff.mp hr1
    rw [List.concat_eq_append] at hz
    have hnd := ho.nodup
    have hlt := ho.lt
    rw [hz] at hnd hlt
    simp only [List.flatten_append, List.flatten_cons, List.flatten_nil, List.append_nil] at hnd hlt
    refine ⟨t, { s with zeroedQubits := pool }, ?_, ⟨?_, ?_, ?_⟩, rfl, le_refl _, rfl, ?_⟩
    · rw [hz]
      simp only [List.getLast?_append, List.getLast?_singleton, Option.some_or, List.dropLast_concat]
      rfl
    · intro r hr; exact ho.pool r (by rw [hz]; simp [hr])
    · show (t :: L ++ pool.flatten).Nodup
      have hp : (L ++ (pool.flatten ++ [t])).Perm (t :: L ++ pool.flatten) := by
        rw [← List.append_assoc]
        exact (List.perm_append_singleton t _)
      exact hp.nodup_iff.mp hnd
    · intro q hq
      apply hlt
      simp at hq ⊢
      rcases hq with h | h | h
      · exact Or.inr (Or.inr h)
      · exact Or.inl h
      · exact Or.inr (Or.inl h)
    · intro x hx
      refine ⟨fun q hq => hx q ?_, hx t (Or.inl (by rw [hz]; simp))⟩
      rcases hq with hq | hq
      · left; rw [hz]; simp only [List.flatten_append, List.mem_append]; exact Or.inl hq
      · exact Or.inr hq

theorem returnTemp_local {s : LocalBuilder} {L : List ℕ} (t : ℕ) (ho : Own s (t :: L)) :
    ∃ s', LocalBuilder.returnTemp [t] s = .ok () s' ∧ Own s' L ∧ s'.pipeline = s.pipeline ∧ s'.n = s.n ∧
      s'.measurements = s.measurements ∧ ∀ x, Clean s x → x t = false → Clean s' x := by
  refine ⟨{ s with zeroedQubits := s.zeroedQubits ++ [[t]] }, ?_, ⟨?_, ?_, ?_⟩, rfl, rfl, rfl, ?_⟩
  · unfold LocalBuilder.returnTemp
    rw [splitAll_eq [t] (by simp) (by simp)]
    rfl
  · intro r hr
    simp at hr
    rcases hr with hr | rfl
    · exact ho.pool r hr
    · rfl
  · have := ho.nodup
    simp only [List.flatten_append, List.flatten_cons, List.flatten_nil, List.append_nil]
    have hp : (t :: L ++ s.zeroedQubits.flatten).Perm (L ++ (s.zeroedQubits.flatten ++ [t])) := by
      rw [← List.append_assoc]
      exact (List.perm_append_singleton t _).symm
    exact hp.nodup_iff.mp this
  · intro q hq
    apply ho.lt
    simp at hq ⊢
    tauto
  · intro x hx ht q hq
    rcases hq with hq | hq
    · simp only [List.flatten_append, List.mem_append, List.flatten_cons, List.flatten_nil, List.append_nil,
        List.mem_singleton] at hq
      rcases hq with hq | rfl
      · exact hx q (Or.inl hq)
      · exact ht
    · exact hx q (Or.inr hq)

end Verif
