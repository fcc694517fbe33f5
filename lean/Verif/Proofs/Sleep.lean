import Verif.Proofs.Steady
import Verif.Proofs.QuietArith
import Verif.Proofs.CondSeg
import Verif.Proofs.Panics

/-! # Builders whose conditions are not met do nothing -/

namespace Verif
open Classical Complex RegOps CircuitBuilder Rooted TempBuilder LawfulReg Ledger

/-! ## resting -/

theorem idle_iff {cs : List Reg} {x : Asg} : x ∈ Idle cs ↔ ∃ q ∈ cs.flatten, x q = false := by
  show (¬ ∀ c ∈ cs.flatten, x c = true) ↔ _
  push Not
  simp

theorem idle_cons {cr : Reg} {cs : List Reg} {x : Asg} : x ∈ Idle (cr :: cs) ↔ (∃ q ∈ cr, x q = false) ∨ x ∈ Idle cs := by
  rw [idle_iff, idle_iff, List.flatten_cons]
  constructor
  · rintro ⟨q, hq, hx⟩
    rcases List.mem_append.mp hq with hq | hq
    · exact .inl ⟨q, hq, hx⟩
    · exact .inr ⟨q, hq, hx⟩
  · rintro (⟨q, hq, hx⟩ | ⟨q, hq, hx⟩)
    · exact ⟨q, List.mem_append_left _ hq, hx⟩
    · exact ⟨q, List.mem_append_right _ hq, hx⟩

theorem idle_nil : Idle [] = ∅ := by
  ext x
  rw [idle_iff]
  simp

theorem idle_mono {cs cs' : List Reg} (h : List.Forall₂ (· <+: ·) cs cs') : Idle cs ⊆ Idle cs' := by
  induction h with
  | nil => exact fun _ h => h
  | cons h _ ih =>
    intro x hx
    rw [idle_cons] at hx ⊢
    rcases hx with ⟨q, hq, hx⟩ | hx
    · exact .inl ⟨q, h.subset hq, hx⟩
    · exact .inr (ih hx)

/-- the circuit has only grown -/
def Longer (b b' : LocalBuilder) : Prop := ∃ seg, b'.pipeline = b.pipeline ++ seg

/-- the circuit has grown by an element that is not of the textbook, among others -/
def Noisy (b b' : LocalBuilder) : Prop := ∃ seg, b'.pipeline = b.pipeline ++ seg ∧ ∃ e ∈ seg, ¬ Textbook e

theorem Noisy.rests {G : Submonoid ℂ} {X : Set Asg} {b b' : LocalBuilder} (h : Noisy b b') : Rests G X b b' := by
  obtain ⟨seg, h1, e, h2, h3⟩ := h
  exact Rests.of_not e h3 ⟨seg, h1, h2⟩

theorem Noisy.after {b b' b'' : LocalBuilder} (h : Noisy b b') (h' : Longer b' b'') : Noisy b b'' := by
  obtain ⟨p, h1, e, h2, h3⟩ := h
  obtain ⟨q, h4⟩ := h'
  exact ⟨p ++ q, by rw [h4, h1, List.append_assoc], e, List.mem_append_left _ h2, h3⟩

theorem Noisy.before {b b' b'' : LocalBuilder} (h : Noisy b' b'') (h' : Longer b b') : Noisy b b'' := by
  obtain ⟨p, h1, e, h2, h3⟩ := h
  obtain ⟨q, h4⟩ := h'
  exact ⟨q ++ p, by rw [h1, h4, List.append_assoc], e, List.mem_append_right _ h2, h3⟩

theorem Longer.rests {G : Submonoid ℂ} {b b' : LocalBuilder} (h : Longer b b') : Rests G ∅ b b' := by
  obtain ⟨seg, h1⟩ := h
  exact ⟨seg, h1, fun _ => ⟨1, G.one_mem, fun x hx => hx.elim⟩⟩

theorem Rests.longer {G : Submonoid ℂ} {X : Set Asg} {b b' : LocalBuilder} (h : Rests G X b b') : Longer b b' := by
  obtain ⟨seg, h1, -⟩ := h
  exact ⟨seg, h1⟩

/-- nothing is added to the circuit -/
theorem Rests.same {G : Submonoid ℂ} {X : Set Asg} {b b' : LocalBuilder} (h : b'.pipeline = b.pipeline) (hc : ∀ x ∈ X, Clean b x → Clean b' x) :
    Rests G X b b' :=
  ⟨[], by simp [h], fun _ => ⟨1, G.one_mem, fun x hx hb => ⟨by rw [one_smul]; rfl, hc x hx hb⟩⟩⟩

theorem Adds.longer {β α : Type} [Rooted β] {P : Pipeline → Prop} {m : M β α} (h : Adds P m) {s s' : β} {a : α} (he : m s = .ok a s') :
    Longer (root s) (root s') := by
  obtain ⟨seg, h1, -⟩ := h.out _ _ _ he
  exact ⟨seg, h1⟩

/-- the elements added change nothing, up to a phase, if some condition is not met -/
def Sleeps (G : Submonoid ℂ) {β : Type} [Rooted β] (s s' : β) : Prop :=
  ∀ cs, ctl s = some cs → Rests G (Idle cs) (root s) (root s')

namespace Sleeps
variable {G : Submonoid ℂ} {β : Type} [Rooted β]

theorem refl (s : β) : Sleeps G s s := fun _ _ => Rests.refl _

theorem trans {s s' s'' : β} (h : Sleeps G s s') (hs : Swell s s') (h' : Sleeps G s' s'') : Sleeps G s s'' := by
  intro cs hcs
  obtain ⟨cs', h1, h2⟩ := hs cs hcs
  exact (h cs hcs).trans ((h' cs' h1).mono (idle_mono h2))

theorem of_univ {s s' : β} (h : Rests G Set.univ (root s) (root s')) : Sleeps G s s' := fun _ _ => h.mono (Set.subset_univ _)

end Sleeps

/-- owning registers, and doing nothing if some condition is not met; nothing is said after an `Err` -/
abbrev doze (G : Submonoid ℂ) (β : Type) [Rooted β] [Ledger β] : Ledger β where
  Holds := Holds
  sub := Ledger.sub
  nodup := Ledger.nodup
  ne := Ledger.ne
  Spares s s' L := (Spares s s' L ∧ Swell s s') ∧ Sleeps G s s'
  spares_refl s L := ⟨⟨Ledger.spares_refl s L, Swell.refl s⟩, Sleeps.refl s⟩
  spares_trans h h' := ⟨⟨Ledger.spares_trans h.1.1 h'.1.1, h.1.2.trans h'.1.2⟩, h.2.trans h.1.2 h'.2⟩
  spares_sub h h' := ⟨⟨Ledger.spares_sub h h'.1.1, h'.1.2⟩, h'.2⟩
  Left _ _ := True
  left _ := trivial
  left_sub _ _ := trivial
  Scraps _ _ _ := True
  scraps _ := trivial
  scraps_trans _ _ := trivial
  scraps_sub _ _ := trivial

theorem Passes.sleeps {G : Submonoid ℂ} {β α : Type} [Rooted β] [Ledger β] {m : M β α} {pre : List Reg} {post : α → List Reg}
    (h : @Passes β α (swell β) m pre post) (hs : ∀ s a s' L, Holds s (pre ++ L) → m s = .ok a s' → Sleeps G s s') :
    @Passes β α (doze G β) m pre post :=
  fun s L hl => ⟨fun a s' he => ⟨((h s L hl).1 a s' he).1, ((h s L hl).1 a s' he).2, hs s a s' L hl he⟩, fun _ _ => ⟨trivial, trivial⟩⟩

/-- conditioned application of several Hadamard gates at once -/
theorem noisy_h {C r : Reg} {L : List ℕ} {b b' : LocalBuilder} {p : Reg × Reg} {n : ℕ} (hC : C ≠ []) (hr : r ≠ []) (ho : Own b (C ++ r ++ L))
    (hl : r.length ≠ 1) (h : LocalBuilder.tryCond C r ⟨n, .unitary .H⟩ b = .ok p b') : Noisy b b' := by
  have hn : r.Nodup := (List.nodup_append.mp (List.nodup_append.mp ho.left).1).2.1
  obtain ⟨p1, ρ, p2, e1⟩ := ryPiBy_emits_rz r hr hn 4 (by norm_num)
  obtain ⟨p3, ρ', p4, e3⟩ := ryPiBy_emits_rz r hr hn (-4) (by norm_num)
  unfold LocalBuilder.tryCond at h
  simp only at h
  rw [bind_ok (e1 b)] at h
  obtain ⟨b2, e2, -, -, v2⟩ := toffoli_does rotAngle C r L _ hC hr (ho.pipe (b.pipeline ++ (p1 ++ ([(r, ⟨r.length, .unitary (.Rz ρ)⟩)] ++ p2))))
  rw [bind_ok e2] at h
  simp only at h
  rw [bind_ok (e3 b2)] at h
  obtain ⟨rfl, rfl⟩ : (C, r) = p ∧ _ = b' := by
    injection h with h1 h2; exact ⟨h1, h2⟩
  obtain ⟨seg, h5, -⟩ := v2.seg
  change b2.pipeline = (b.pipeline ++ _) ++ seg at h5
  refine ⟨_, show b2.pipeline ++ _ = b.pipeline ++ _ by rw [h5, List.append_assoc, List.append_assoc], (r, ⟨r.length, .unitary (.Rz ρ)⟩), ?_,
    fun ht => hl (ht.1 ρ rfl)⟩
  simp

/-- what methods do if some condition is not met -/
class SleepyC (G : Submonoid ℂ) (β : Type) [Stock] [Conditionable β] [Rooted β] [Ledger β] : Prop extends GrownC β where
  own : ∀ {s : β} {L : List Reg} {cs : List Reg}, Holds s L → ctl s = some cs → Own (root s) (cs.flatten ++ L.flatten)
  newRests : ∀ {s s' : β} {n : ℕ} {r : Reg}, RegOps.register n s = .ok r s' → Rests G Set.univ (root s) (root s')
  tempRests : ∀ {s s' : β} {r : Reg}, makeTempQubit s = .ok r s' → Rests G Set.univ (root s) (root s')
  condRests : ∀ {s s' : β} {cr r : Reg} {c : CObj} {p : Reg × Reg} {L : List Reg} {cs : List Reg}, Calms G c → Holds s ([cr, r] ++ L) →
    ctl s = some cs → Conditionable.tryCond cr r c s = .ok p s' → Rests G (Idle (cr :: cs)) (root s) (root s')
  objRests : ∀ {s s' : β} {r r' : Reg} {c : CObj} {L : List Reg} {cs : List Reg}, Calms G c → Holds s ([r] ++ L) → ctl s = some cs →
    CircuitBuilder.applyCO r c s = .ok r' s' → Rests G (Idle cs) (root s) (root s') ∧ (r' = r ∨ (r'.length = 1 ∧ r.length ≠ 1))
  condNoise : ∀ {s s' : β} {cr r : Reg} {n : ℕ} {p : Reg × Reg} {L : List Reg}, Holds s ([cr, r] ++ L) → r.length ≠ 1 →
    Conditionable.tryCond cr r ⟨n, .unitary .H⟩ s = .ok p s' → Noisy (root s) (root s')
  objNoise : ∀ {s s' : β} {r r' : Reg} {n : ℕ} {L : List Reg} {cs : List Reg}, Holds s ([r] ++ L) → ctl s = some cs → cs ≠ [] → r.length ≠ 1 →
    CircuitBuilder.applyCO r ⟨n, .unitary .H⟩ s = .ok r' s' → Noisy (root s) (root s')

/-! ## `LocalBuilder` -/

theorem register_clean {s s' : LocalBuilder} {n : ℕ} {r : Reg} (h : LocalBuilder.register n s = .ok r s') :
    s'.pipeline = s.pipeline ∧ ∀ x, Clean s x → Clean s' x := by
  unfold LocalBuilder.register at h
  obtain ⟨b, s1, h1, h⟩ := bind_inv h
  cases h1
  obtain ⟨r1, s2, h2, h⟩ := bind_inv h
  obtain ⟨rfl⟩ : s2 = s := by
    generalize Reg.new _ = o at h2
    cases o <;> cases h2
    rfl
  cases h
  refine ⟨rfl, fun x hx q hq => hx q ?_⟩
  rcases hq with hq | hq
  · exact .inl hq
  · exact .inr (le_trans (Nat.le_add_right _ _) hq)

theorem makeTemp_clean {s s' : LocalBuilder} {r : Reg} (h : LocalBuilder.makeTempQubit s = .ok r s') :
    s'.pipeline = s.pipeline ∧ ∀ x, Clean s x → Clean s' x := by
  change (match s.zeroedQubits.getLast? with
    | some r => (do
      set { s with zeroedQubits := s.zeroedQubits.dropLast }
      Pure.pure r : M LocalBuilder Reg)
    | none => qubit) s = _ at h
  rcases hz : s.zeroedQubits.getLast? with _ | r1 <;> rw [hz] at h
  · exact register_clean (n := 1) h
  · injection h with _ h
    rw [← h]
    refine ⟨rfl, fun x hx q hq => hx q ?_⟩
    rcases hq with hq | hq
    · left
      obtain ⟨l, hl, hq⟩ := List.mem_flatten.mp hq
      exact List.mem_flatten.mpr ⟨l, List.mem_of_mem_dropLast hl, hq⟩
    · exact .inr hq

theorem local_applyCO_grows {s s' : LocalBuilder} {r r' : Reg} {c : CObj} (h : LocalBuilder.applyCO r c s = .ok r' s') : Longer s s' := by
  haveI : Closed (fun _ : Pipeline => True) := ⟨trivial, fun _ _ _ _ => trivial⟩
  exact (Adds.local_applyCO (P := fun _ => True) r c fun _ => trivial).longer (β := LocalBuilder) h

theorem local_applyCO_kept {s s' : LocalBuilder} {r r' : Reg} {c : CObj} (hr : r ≠ []) (hn : r.Nodup) (h : LocalBuilder.applyCO r c s = .ok r' s') :
    r' = r := by
  by_cases h1 : c.n = 1
  · obtain ⟨n, o⟩ := c
    dsimp only at h1
    subst h1
    rw [applyCO_one_emits r hr hn o s] at h
    cases h
    rfl
  · by_cases h2 : c.n = r.length
    · rw [applyCO_n_emits r c h2 h1 s] at h
      cases h
      rfl
    · rw [applyCO_err r c h2 h1 s] at h
      cases h

instance (G : Submonoid ℂ) [Stock] : SleepyC G LocalBuilder where
  own {s L cs} hl h := by
    cases h
    exact hl.1
  newRests h := Rests.same (register_clean h).1 fun x _ => (register_clean h).2 x
  tempRests h := Rests.same (makeTemp_clean h).1 fun x _ => (makeTemp_clean h).2 x
  condRests {s s' cr r c p L cs} hc hl hs h := by
    cases hs
    obtain ⟨h1, h2, -⟩ := hl
    refine (tryCond_rests (L := L.flatten) hc (h2 cr (by simp)) (h2 r (by simp)) (by simpa using h1) h).2.mono fun x hx => ?_
    rw [idle_cons, idle_nil] at hx
    exact hx.resolve_right fun h => h
  objRests {s s' r r' c L cs} hc hl hs h := by
    cases hs
    rw [idle_nil]
    refine ⟨(local_applyCO_grows h).rests, .inl (local_applyCO_kept (hl.2.1 r (by simp)) ?_ h)⟩
    have := Ledger.nodup hl
    rw [List.cons_append, List.flatten_cons] at this
    exact this.of_append_left
  condNoise {s s' cr r n p L} hl h1 h := by
    obtain ⟨g1, g2, -⟩ := hl
    have ho : Own s (cr ++ r ++ L.flatten) := by simpa using g1
    exact noisy_h (g2 cr (by simp)) (g2 r (by simp)) ho h1 h
  objNoise {s s' r r' n L cs} hl hs h1 _ _ := by
    cases hs
    exact absurd rfl h1

/-! ## `Conditioned` -/

section
variable {G : Submonoid ℂ} {β : Type} [Stock] [Conditionable β] [Rooted β] [Ledger β] [PassesC β] [SleepyC G β]

theorem holds_conditioned {s : Conditioned β} {cr : Reg} {L : List Reg} (h : s.cr = some cr) (hl : Holds s L) : Holds s.parent ([cr] ++ L) := by
  have : Holds s.parent (s.cr.toList ++ L) := hl
  rw [h] at this
  exact this

instance : SleepyC G (Conditioned β) where
  own {s L cs} hl hs := by
    obtain ⟨cr, ps, e1, -, e3, rfl⟩ := ctl_conditioned hs
    refine (SleepyC.own (β := β) G (holds_conditioned e1 hl) e3).perm ?_
    rw [List.flatten_cons, List.flatten_append, List.flatten_singleton, ← List.append_assoc]
    exact List.perm_append_comm.append_right _
  newRests {s s' n r} h := by
    obtain ⟨p, h1, rfl⟩ := onParent_inv h
    exact SleepyC.newRests (G := G) (β := β) h1
  tempRests {s s' r} h := by
    obtain ⟨p, h1, rfl⟩ := onParent_inv h
    exact SleepyC.tempRests (G := G) (β := β) h1
  condRests {s s' cr r c p L cs} hc hl hs h := by
    obtain ⟨ccr, ccr', c', q, e1, hm, e2, e3, e4, rfl⟩ := conditioned_tryCond_inv hl h
    obtain ⟨ccr1, ps, k1, -, k3, rfl⟩ := ctl_conditioned hs
    rw [e1] at k1
    cases k1
    refine (SleepyC.condRests (β := β) hc hm k3 e2).mono fun x hx => ?_
    simp only [idle_cons] at hx ⊢
    rcases hx with ⟨q, hq, hx⟩ | ⟨q, hq, hx⟩ | hx
    · exact .inl ⟨q, List.mem_append_left _ hq, hx⟩
    · exact .inl ⟨q, List.mem_append_right _ hq, hx⟩
    · exact .inr hx
  objRests {s s' r r' c L cs} hc hl hs h := by
    obtain ⟨cr, cr', p, e1, e2, rfl⟩ := conditioned_applyCO_inv h
    obtain ⟨ccr1, ps, k1, -, k3, rfl⟩ := ctl_conditioned hs
    rw [e1] at k1
    cases k1
    exact ⟨SleepyC.condRests (β := β) hc (holds_conditioned e1 hl) k3 e2, (GrownC.tryCond (holds_conditioned e1 hl) e2).1.kept⟩
  condNoise {s s' cr r n p L} hl h1 h := by
    obtain ⟨ccr, ccr', c', q, e1, hm, e2, e3, e4, rfl⟩ := conditioned_tryCond_inv hl h
    exact SleepyC.condNoise (β := β) G hm h1 e2
  objNoise {s s' r r' n L cs} hl _ _ h1 h := by
    obtain ⟨cr, cr', p, e1, e2, rfl⟩ := conditioned_applyCO_inv h
    exact SleepyC.condNoise (β := β) G (holds_conditioned e1 hl) h1 e2

end

/-! ## methods that run for certain -/

/-- a method that runs for certain and does nothing if some condition is not met -/
theorem Quiet.sleeps {G : Submonoid ℂ} {β α : Type} [Rooted β] {cs : List Reg} {m : M β α} {a a' : α} {Q : List ℕ} {T : Set (Option ℕ)}
    (h : Quiet cs m a Q T) {s s' : β} {L : List ℕ} (hs : ctl s = some cs) (ho : Own (root s) (cs.flatten ++ Q ++ L)) (he : m s = .ok a' s') :
    a' = a ∧ Rests G (Idle cs) (root s) (root s') := by
  obtain ⟨s1, e1, -, -, -, -, seg, h1, -, -, h2⟩ := h s L hs ho
  have := he.symm.trans e1
  injection this with g1 g2
  subst g1 g2
  refine ⟨rfl, seg, h1, fun _ => ⟨1, G.one_mem, fun x hx hc => ?_⟩⟩
  obtain ⟨k1, k2⟩ := h2 x hx hc
  exact ⟨by rw [one_smul]; exact k1, on_iff.mp k2 x (by simp [ket])⟩

section
variable {β α γ : Type} [Conditionable β] [Rooted β] [Sim β] {cs : List Reg}

theorem Quiet.unwrap {m : M β α} {a : α} {Q : List ℕ} {T : Set (Option ℕ)} (h : Quiet cs m a Q T) : Quiet cs (unwrapM m) a Q T := by
  intro s L hs ho
  obtain ⟨s', h1, h2⟩ := h s L hs ho
  exact ⟨s', unwrapM_ok h1, h2⟩

theorem QuietT.of_nodup {m : M β α} {a : α} {t Q : List ℕ} {T : Set (Option ℕ)} (h : (t ++ Q).Nodup → QuietT cs m a t Q T) : QuietT cs m a t Q T := by
  intro s L hs ho
  refine h ?_ s L hs ho
  refine (List.Sublist.append (List.Sublist.refl t) ?_).nodup ho.left
  exact (List.sublist_append_right _ _).trans (List.sublist_append_left _ _)

/-- `toffoli` onto a single qubit inside conditions -/
theorem Quiet.toffoliF (hc : cs ≠ []) (k : ℕ) : ∀ (cr : List ℕ) (q : ℕ), cr.length ≤ k → cr ≠ [] →
    Quiet cs (toffoliF (k + 1) cr [q] : M β _) (cr, [q]) (cr ++ [q]) ∅ := by
  induction k with
  | zero => intro cr q h hne; exact absurd (List.length_eq_zero_iff.mp (Nat.le_zero.mp h)) hne
  | succ k ih =>
    intro cr q hk hcr
    match cr, hcr with
    | [c], _ =>
      rw [Verif.toffoliF, if_pos (by rfl)]
      exact (Maps.cnot (ang := rotAngle) cs c [q] (by simp)).quiet0
    | [a, b], _ =>
      rw [Verif.toffoliF, if_neg (by simp), if_pos (by rfl)]
      exact (Moves.toffoli_two hc a b q).quiet0
    | a :: b :: c :: cr, _ =>
      refine Sure.of_nodup fun hnd => ?_
      rw [Verif.toffoliF, if_neg (by simp), if_neg (by simp), LawfulReg.splitRel_eq]
      have hsp : splitE (a :: b :: c :: cr) [0, 1] = .ok (.split [a, b] (c :: cr)) :=
        splitE_prefix [a, b] (c :: cr) (List.nodup_append.mp hnd).1 (by simp) (by simp)
      rw [hsp]
      simp only [liftE_ok, pure_bind]
      refine QuietT.quiet (QuietT.temp1 fun t => QuietT.of_nodup fun hn => ?_)
      have q1 : Quiet cs (Verif.toffoliF (k + 1) [a, b] [t] : M β _) ([a, b], [t]) ([a, b] ++ [t]) ∅ := ih [a, b] t (by simp at hk ⊢; omega) (by simp)
      have q2 : Quiet cs (Verif.toffoliF (k + 1) (c :: cr ++ [t]) [q] : M β _) (c :: cr ++ [t], [q]) (c :: cr ++ [t] ++ [q]) ∅ :=
        ih (c :: cr ++ [t]) q (by simp at hk ⊢; omega) (by simp)
      have hn0 : ((a :: b :: c :: cr ++ [q]) ++ [t]).Nodup := (List.perm_append_comm.nodup_iff).mp (by simpa using hn)
      have sub1 : ([a, b] ++ [t]).Sublist ((a :: b :: c :: cr ++ [q]) ++ [t]) :=
        List.Sublist.append (by simpa using List.prefix_append [a, b] (c :: cr ++ [q]) |>.sublist) (List.Sublist.refl _)
      have sub2 : (c :: cr ++ [q] ++ [t]).Sublist ((a :: b :: c :: cr ++ [q]) ++ [t]) := by
        simpa using (List.suffix_append [a, b] (c :: cr ++ [q] ++ [t])).sublist
      have perm2 : (c :: cr ++ [t] ++ [q]).Perm (c :: cr ++ [q] ++ [t]) := by
        rw [List.append_assoc, List.append_assoc]
        exact List.perm_append_comm.append_left _
      have htc : (c :: cr ++ [t]).Nodup := (List.nodup_append.mp ((perm2.nodup_iff).mpr (sub2.nodup hn0))).1
      have w1 := (Quiet.unwrap q1).mono (sub1.nodup hn0) fun x hx => sub1.subset hx
      have w2 := (Quiet.unwrap q2).mono ((perm2.nodup_iff).mpr (sub2.nodup hn0)) fun x hx => sub2.subset (perm2.mem_iff.mp hx)
      refine (QuietT.bind w1 (List.Perm.refl _) (?_ : QuietT cs _ _ _ _ ∅)).congr (by simp)
      simp only
      rw [LawfulReg.mergeTwo_eq _ _ (by simp)]
      simp only [pure_bind]
      refine (QuietT.bind w2 (List.Perm.refl _) (?_ : QuietT cs _ _ _ _ ∅)).congr (by simp)
      simp only
      rw [splitLast_eq (c :: cr) t htc (by simp)]
      simp only [pure_bind, unwrapO_some]
      refine (QuietT.bind w1 (List.Perm.refl _) (?_ : QuietT cs _ _ _ _ ∅)).congr (by simp)
      simp only
      rw [LawfulReg.mergeTwo_eq _ _ (by simp)]
      simp only [pure_bind]
      exact QuietT.end1 (by simp) (List.Perm.refl _)

end

/-! ## gates -/

theorem calms_of {G : Submonoid ℂ} {c : CObj} (h : ∀ ρ, c.object ≠ .unitary (.Rz ρ)) : Calms G c := fun ρ hc => absurd hc (h ρ)

theorem unwrapM_inv {β α : Type} {m : M β α} {s s' : β} {a : α} (h : unwrapM m s = .ok a s') : m s = .ok a s' := by
  rcases hm : m s with ⟨b, s1⟩ | ⟨e, s1⟩
  · rw [unwrapM_ok hm] at h
    exact h
  · rw [unwrapM_err hm] at h
    cases h

theorem Passes.onward {β α : Type} [Rooted β] [Ledger β] {m : M β α} {pre : List Reg} {post : α → List Reg} (h : @Passes β α (swell β) m pre post)
    {s s' : β} {a : α} (L : List Reg) (hl : Holds s (pre ++ L)) (he : m s = .ok a s') : Holds s' (post a ++ L) ∧ Spares s s' L ∧ Swell s s' :=
  (h s L hl).1 a s' he

theorem adds_toffoliF {β : Type} [Conditionable β] [Rooted β] [Sim β] {P : Pipeline → Prop} [Closed P] {O : CObj → Prop} [TracksT β P O]
    (hO : Basic O) (k : ℕ) (cr r : Reg) : Adds P (toffoliF k cr r : M β _) := by
  induction k generalizing cr r with
  | zero => exact Adds.throw _
  | succ k ih =>
    unfold toffoliF
    adds [TracksT.mergeTwo, TracksT.splitRel, Adds.cnot hO.cnot, Adds.basicToffoli hO, TracksT.makeTemp, TracksT.returnTemp, Adds.splitLast, ih]

theorem prefixes_ne {cs cs' : List Reg} (h : List.Forall₂ (· <+: ·) cs cs') (hc : cs ≠ []) : cs' ≠ [] := by
  cases h with
  | nil => exact absurd rfl hc
  | cons => simp

section
variable {G : Submonoid ℂ} {β : Type} [Stock] [Conditionable β] [Rooted β] [Ledger β] [PassesC β] [Sim β] [SleepyC G β]

variable (G) in
theorem passesR_doze : @PassesR β _ (doze G β) := @PassesR.mk β _ (doze G β)
  (fun n => ((@PassesR.register β _ (swell β) passesR_swell n)).sleeps fun _ _ _ _ _ h => .of_univ (SleepyC.newRests h))
  (fun a b => (@PassesR.mergeTwo β _ (swell β) passesR_swell a b).sleeps fun s r s' L hl h => by
    have : a ++ b ≠ [] := by
      have := Ledger.ne hl a (by simp)
      simp [this]
    rw [LawfulReg.mergeTwo_eq _ _ this] at h
    cases h
    exact Sleeps.refl _)
  (fun r idx hn => (@PassesR.splitRel β _ (swell β) passesR_swell r idx hn).sleeps fun s a s' L _ h => by
    rw [LawfulReg.splitRel_eq] at h
    generalize splitE r idx = e at h
    cases e <;> cases h
    exact Sleeps.refl _)

theorem passes_object_doze (r : Reg) (c : CObj) (hg : Stock.Given c) (hc : Calms G c) : @Passes β _ (doze G β) (applyCO r c) [r] fun r => [r] :=
  (@PassesT.applyCO β _ _ (swell β) passesT_swell r c hg).sleeps fun _ _ _ _ hl h _ hs => (SleepyC.objRests hc hl hs h).1

theorem gated_doze (mk : β → CObj) {c : CObj} (hm : ∀ b, mk b = c) (hg : Stock.Given c) (hc : Calms G c) : @Gated β _ (doze G β) mk :=
  @Gated.mk β _ (doze G β) mk fun b r => by rw [hm]; exact passes_object_doze r c hg hc

variable (G) in
theorem passesA_doze : @PassesA β _ (doze G β) := @PassesA.mk β _ (doze G β) (passesR_doze G)
  (gated_doze _ Sim.makeX Stock.x (calms_of (by simp))) (gated_doze _ Sim.makeY Stock.y (calms_of (by simp)))
  (gated_doze _ Sim.makeZ Stock.z (calms_of (by simp))) (gated_doze _ Sim.makeH Stock.h (calms_of (by simp)))
  (gated_doze _ Sim.makeS Stock.s (calms_of (by simp))) (gated_doze _ Sim.makeT Stock.t (calms_of (by simp)))
  (gated_doze _ Sim.makeCnot Stock.cnot (calms_of (by simp)))

variable (G) in
theorem passes_temp_doze : @Passes β _ (doze G β) makeTempQubit [] fun r => [r] :=
  (@PassesT.makeTemp β _ _ (swell β) passesT_swell).sleeps fun _ _ _ _ _ h => .of_univ (SleepyC.tempRests h)

theorem passes_tryCond_doze (cr r : Reg) (c : CObj) (hc : Calms G c) :
    @Passes β _ (doze G β) (Conditionable.tryCond cr r c) [cr, r] fun p => [p.1, p.2] :=
  (@PassesC.tryCond β _ _ (swell β) passesC_swell cr r c).sleeps fun _ _ _ _ hl h _ hs =>
    (SleepyC.condRests hc hl hs h).mono fun _ hx => idle_cons.mpr (.inr hx)

variable [TracksC β (Turns 0) Plain Plain]

variable (G) in
include G in
omit [PassesC β] in
theorem noisy_basicToffoli {cr r : Reg} {s s' : β} {p : Reg × Reg} {L : List Reg} {cs : List Reg} (hl : Holds s ([r] ++ L)) (hs : ctl s = some cs)
    (hc : cs ≠ []) (hr : r.length ≠ 1) (h : basicToffoli cr r s = .ok p s') : Noisy (root s) (root s') := by
  have hb := plain_basic
  unfold basicToffoli at h
  split at h
  · obtain ⟨x, s1, h1, h⟩ := bind_inv h
    obtain rfl : s1 = s := by
      rw [LawfulReg.splitRel_eq] at h1
      generalize splitE cr [0] = e at h1
      cases e <;> cases h1
      rfl
    rcases x with x | x | ⟨x, y⟩
    · cases h
    · cases h
    · dsimp only at h
      obtain ⟨r', s2, h2, h⟩ := bind_inv h
      have h3 : applyCO r ⟨1, .unitary .H⟩ s1 = .ok r' s2 := by
        obtain ⟨b, s3, g1, g2⟩ := bind_inv h2
        cases g1
        rw [Sim.makeH] at g2
        exact unwrapM_inv g2
      refine (SleepyC.objNoise G hl hs hc hr h3).after (Adds.longer (P := Turns 0) ?_ h)
      adds [TracksT.mergeTwo, Adds.cnot hb.cnot, Adds.h hb.h, Adds.t hb.t, Adds.tDagger hb]
  · cases h

variable (G) in
include G in
theorem noisy_toffoliF (k : ℕ) : ∀ {cr r : Reg} {s s' : β} {p : Reg × Reg} {L : List Reg} {cs : List Reg}, Holds s ([cr, r] ++ L) → ctl s = some cs →
    cs ≠ [] → r.length ≠ 1 → 2 ≤ cr.length → toffoliF k cr r s = .ok p s' → Noisy (root s) (root s') := by
  have hb := plain_basic
  induction k with
  | zero => intro cr r s s' p L cs _ _ _ _ _ h; cases h
  | succ k ih =>
    intro cr r s s' p L cs hl hs hc hr h2 h
    rw [toffoliF, if_neg (by omega)] at h
    split at h
    · exact noisy_basicToffoli G (Ledger.sub (L' := [r] ++ L) (by qperm) hl) hs hc hr h
    · obtain ⟨x, s1, h1, h⟩ := bind_inv h
      have l1 := ((@PassesR.splitRel β _ (swell β) passesR_swell cr [0, 1] (by simp)).onward ([r] ++ L) (Ledger.sub (by qperm) hl) h1).1
      obtain rfl : s1 = s := by
        rw [LawfulReg.splitRel_eq] at h1
        generalize splitE cr [0, 1] = e at h1
        cases e <;> cases h1
        rfl
      rcases x with x | x | ⟨hd, tl⟩
      · cases h
      · cases h
      · dsimp only at h
        have l1 : Holds s1 ([hd, tl, r] ++ L) := Ledger.sub (by qperm) l1
        obtain ⟨t, s2, e2, h⟩ := bind_inv h
        obtain ⟨l2, -, l2'⟩ := (@PassesT.makeTemp β _ _ (swell β) passesT_swell).onward ([hd, tl, r] ++ L) l1 e2
        obtain ⟨⟨hd', t'⟩, s3, e3, h⟩ := bind_inv h
        have l2 : Holds s2 ([hd, t] ++ ([tl, r] ++ L)) := Ledger.sub (by qperm) l2
        obtain ⟨l3, -, l3'⟩ := (@passes_toffoliF β _ _ (swell β) passesT_swell k hd t).onward ([tl, r] ++ L) l2 (unwrapM_inv e3)
        dsimp only at h l3
        have n1 : tl ≠ [] := Ledger.ne l3 tl (by simp)
        have n2 : t' ≠ [] := Ledger.ne l3 t' (by simp)
        obtain ⟨c, s4, e4, h⟩ := bind_inv h
        have l3 : Holds s3 ([tl, t'] ++ ([hd', r] ++ L)) := Ledger.sub (by qperm) l3
        obtain ⟨l4, -, -⟩ := (@PassesR.mergeTwo β _ (swell β) passesR_swell tl t').onward ([hd', r] ++ L) l3 e4
        rw [LawfulReg.mergeTwo_eq _ _ (by simp [n1])] at e4
        cases e4
        obtain ⟨⟨c', r'⟩, s5, e5, h⟩ := bind_inv h
        obtain ⟨cs1, c1, c1'⟩ := l2' cs hs
        obtain ⟨cs2, c2, c2'⟩ := l3' cs1 c1
        have hN := ih (Ledger.sub (L' := [tl ++ t', r] ++ ([hd'] ++ L)) (by qperm) l4) c2 (prefixes_ne c2' (prefixes_ne c1' hc)) hr (by
          rw [List.length_append]
          have := List.length_pos_iff.mpr n1
          have := List.length_pos_iff.mpr n2
          omega) (unwrapM_inv e5)
        refine ((hN.before (Adds.longer (P := Turns 0) (Adds.unwrapM (adds_toffoliF hb _ _ _)) e3)).before (Adds.longer (P := Turns 0) TracksT.makeTemp e2)).after
          (Adds.longer (P := Turns 0) ?_ h)
        adds [TracksT.mergeTwo, Adds.splitLast, TracksT.returnTemp, adds_toffoliF hb]

theorem passes_toffoli_doze (cr r : Reg) : @Passes β _ (doze G β) (toffoli cr r) [cr, r] fun p => [p.1, p.2] := by
  refine (@passes_toffoli β _ _ (swell β) passesT_swell cr r).sleeps fun s p s' L hl h cs hs => ?_
  by_cases hc : cs = []
  · subst hc
    rw [idle_nil]
    exact (Adds.longer (P := Turns 0) (Adds.toffoli plain_basic cr r) h).rests
  · have n1 : cr ≠ [] := Ledger.ne hl cr (by simp)
    by_cases h1 : cr.length = 1
    · unfold toffoli toffoliF at h
      rw [if_pos h1] at h
      exact ((@passes_cnot β _ (doze G β) (passesA_doze G) cr r s L hl).1 _ _ h).2.2 cs hs
    · by_cases h2 : r.length = 1
      · obtain ⟨q, rfl⟩ := List.length_eq_one_iff.mp h2
        refine ((Quiet.toffoliF hc cr.length cr q le_rfl n1).sleeps hs (L := L.flatten) ?_ h).2
        simpa using SleepyC.own G hl hs
      · refine (noisy_toffoliF G _ hl hs hc h2 ?_ h).rests
        have := List.length_pos_iff.mpr n1
        omega

end

/-! ## subcircuits -/

section
variable {G : Submonoid ℂ} {β : Type} [Stock] [Conditionable β] [Rooted β] [Ledger β] [PassesC β] [Sim β] [SleepyC G β]

theorem held_slots (R : Reg) : held (slotsOf R []) = R.map fun q => [q] := by
  rw [slotsOf_nil, held_map_some]

/-- one element of a subcircuit -/
theorem applyEntry_sleeps {R : Reg} {e : List ℕ × CObj} {s s' : β} {sl : List (Option Reg)} {L cs : List Reg} (hg : Stock.Given e.2) (hc : Calms G e.2)
    (hl : Holds s (held (slotsOf R []) ++ L)) (hs : ctl s = some cs) (h : applyEntry (slotsOf R []) e s = .ok sl s') :
    sl = slotsOf R [] ∧ Rests G (Idle cs) (root s) (root s') := by
  have hR : R.Nodup := by
    have := Ledger.nodup hl
    rw [held_slots, List.flatten_append, flatten_singles] at this
    exact (List.nodup_append.mp this).1
  by_cases hn : e.1.Nodup ∧ ∀ i ∈ e.1, i < R.length ∧ i ∉ ([] : List ℕ)
  swap
  · unfold applyEntry at h
    rw [takeMany_bad R e.1 [] hn] at h
    cases h
  have ht := takeMany_eq R e.1 [] hn.1 hn.2
  have hh := h
  unfold applyEntry at h
  rw [ht] at h
  simp only [liftE_ok, pure_bind] at h
  by_cases he : e.1 = []
  · rw [he] at h
    simp only [List.map_nil] at h
    rw [mergeRegisters_nil, pure_bind] at h
    cases h
  rw [merge_at R e.1 he] at h
  simp only [pure_bind, unwrapO_some] at h
  obtain ⟨r', s1, h1, h⟩ := bind_inv h
  have l1 : Holds s (e.1.map (fun i => [R.getD i 0]) ++ (held (slotsOf R (e.1 ++ [])) ++ L)) := by
    refine Ledger.sub ?_ hl
    rw [← List.append_assoc]
    exact (held_takeMany ht).append (List.Subperm.refl L)
  have l2 : Holds s ([at' R e.1] ++ (held (slotsOf R (e.1 ++ [])) ++ L)) := by
    have := ((passes_mergeRegisters (β := β) (e.1.map (fun i => [R.getD i 0]))) s _ l1).1 _ _ (by rw [merge_at R e.1 he]; rfl)
    exact this.1
  obtain ⟨h2, rfl | ⟨h3, h4⟩⟩ := SleepyC.objRests hc l2 hs h1
  · have := applyEntry_of hR he hn.1 (fun i hi => (hn.2 i hi).1) h1
    rw [this] at hh
    cases hh
    exact ⟨rfl, h2⟩
  · exfalso
    obtain ⟨q, rfl⟩ := List.length_eq_one_iff.mp h3
    rw [splitAll_eq [q] (by simp) (by simp)] at h
    simp only [pure_bind] at h
    split at h
    swap
    · cases h
    next ha =>
    rw [at_length] at h4
    obtain ⟨e1, e2⟩ := e
    rcases e1 with _ | ⟨i, _ | ⟨j, is⟩⟩
    · exact he rfl
    · exact h4 rfl
    · have hj := hn.2 j (by simp)
      have hij : i ≠ j := by
        have := (List.nodup_cons.mp hn.1).1
        rintro rfl
        exact this (by simp)
      simp only [List.map_cons, List.map_nil, List.zip_cons_cons, List.zip_nil_right, List.foldl_cons, List.foldl_nil] at ha
      rw [List.all_eq_true] at ha
      have : (none : Option Reg) ∈ ((slotsOf R (i :: j :: is ++ [])).set i (some [q])) := by
        refine List.mem_iff_getElem?.mpr ⟨j, ?_⟩
        rw [List.getElem?_set_ne hij]
        unfold slotsOf
        rw [List.getElem?_map, List.getElem?_range hj.1]
        simp
      have := ha _ this
      cases this

theorem applyEntries_sleeps {R : Reg} {sc : Pipeline} (hg : ∀ e ∈ sc, Stock.Given e.2) (hc : ∀ e ∈ sc, Calms G e.2) {s s' : β} {sl : List (Option Reg)}
    {L cs : List Reg} (hl : Holds s (held (slotsOf R []) ++ L)) (hs : ctl s = some cs) (h : sc.foldlM applyEntry (slotsOf R []) s = .ok sl s') :
    sl = slotsOf R [] ∧ Rests G (Idle cs) (root s) (root s') ∧ (∃ cs', ctl s' = some cs') ∧ Holds s' (held (slotsOf R []) ++ L) := by
  induction sc generalizing s cs with
  | nil =>
    cases h
    exact ⟨rfl, Rests.refl _, ⟨cs, hs⟩, hl⟩
  | cons e sc ih =>
    rw [List.foldlM_cons] at h
    obtain ⟨sl1, s1, h1, h⟩ := bind_inv h
    have hs1 : Holds s1 (held sl1 ++ L) ∧ Spares s s1 L ∧ Swell s s1 :=
      (@passes_applyEntry β _ _ (swell β) (@passesT_swell β _ _ _ _ _ (SleepyC.toGrownC G)) (slotsOf R []) e (hg e (by simp))).onward L hl h1
    obtain ⟨rfl, h2⟩ := applyEntry_sleeps (G := G) (hg e (by simp)) (hc e (by simp)) hl hs h1
    obtain ⟨cs1, c1, c2⟩ := hs1.2.2 cs hs
    obtain ⟨g1, g2, g3, g4⟩ := ih (fun e he => hg e (by simp [he])) (fun e he => hc e (by simp [he])) hs1.1 c1 h
    exact ⟨g1, h2.trans (g2.mono (idle_mono c2)), g3, g4⟩

/-- a subcircuit -/
theorem applyObjects_sleeps {r r' : Reg} {sc : Pipeline} (hg : ∀ e ∈ sc, Stock.Given e.2) (hc : ∀ e ∈ sc, Calms G e.2) {s s' : β}
    {L cs : List Reg} (hl : Holds s ([r] ++ L)) (hs : ctl s = some cs) (h : applyPipelineObjects sc r s = .ok r' s') :
    Rests G (Idle cs) (root s) (root s') := by
  have hr : r ≠ [] := Ledger.ne hl r (by simp)
  have hn : r.Nodup := by
    have := Ledger.nodup hl
    rw [List.flatten_append] at this
    simpa using (List.nodup_append.mp this).1
  unfold applyPipelineObjects at h
  simp only at h
  rw [splitAll_eq r hr hn] at h
  simp only [pure_bind] at h
  rcases hm : maxIndex sc with _ | m
  · rw [hm] at h
    cases h
  rw [hm] at h
  simp only [unwrapO_some, pure_bind] at h
  split at h
  · cases h
  next hk =>
  by_cases h0 : 1 + m - r.length = 0
  · rw [if_pos h0] at h
    obtain ⟨sl, s1, h1, h⟩ := bind_inv h
    rw [← slotsOf_nil] at h1
    have hl' : Holds s (held (slotsOf r []) ++ L) := by
      rw [held_slots]
      exact (((passes_splitAll (β := β) r) s L hl).1 _ _ (by rw [splitAll_eq r hr hn]; rfl)).1
    obtain ⟨rfl, g1, g2, g3⟩ := applyEntries_sleeps (G := G) hg hc hl' hs h1
    rw [slots_mapM] at h
    simp only [unwrapO_some, pure_bind] at h
    rw [if_neg (by simp), List.drop_eq_nil_of_le (by simp), mergeRegisters_nil] at h
    simp only [pure_bind] at h
    rw [List.take_of_length_le (by simp), mergeSingles r hr] at h
    cases h
    exact g1
  · rw [if_neg h0] at h
    have ho : Own (root s) (r ++ (cs.flatten ++ L.flatten)) := (SleepyC.own G hl hs).perm (by
      simp
      exact List.perm_append_comm_assoc _ _ _)
    obtain ⟨t, s1, g1, g2, g3, g4, g5, g6, g7, g8, g9⟩ := makeTempRegister_sim (n := 1 + m - r.length) (by omega) ho
    have l1 : Holds s1 ([t] ++ ([r] ++ L)) := ((passes_makeTempRegister (β := β) (1 + m - r.length)) s ([r] ++ L) hl).1 _ _ g1 |>.1
    have ht : t ≠ [] := Ledger.ne l1 t (by simp)
    have htn : t.Nodup := (List.nodup_append.mp g4.left).1
    rw [bind_ok g1] at h
    rw [splitAll_eq t ht htn] at h
    simp only [pure_bind] at h
    rw [← List.map_append, ← slotsOf_nil] at h
    obtain ⟨sl, s2, h2, h⟩ := bind_inv h
    have hl' : Holds s1 (held (slotsOf (r ++ t) []) ++ L) := by
      rw [held_slots, List.map_append]
      have e1 := (((passes_splitAll (β := β) t) s1 ([r] ++ L) l1).1 _ _ (by rw [splitAll_eq t ht htn]; rfl)).1
      have e2 : Holds s1 ([r] ++ (t.map (fun q => [q]) ++ L)) := Ledger.sub (by qperm) e1
      have e3 := (((passes_splitAll (β := β) r) s1 _ e2).1 _ _ (by rw [splitAll_eq r hr hn]; rfl)).1
      exact Ledger.sub (by qperm) e3
    obtain ⟨rfl, k1, ⟨cs2, k2⟩, k3⟩ := applyEntries_sleeps (G := G) hg hc hl' (g3.trans hs) h2
    rw [slots_mapM] at h
    simp only [unwrapO_some, pure_bind] at h
    rw [if_neg (by simp)] at h
    have ed : ((r ++ t).map fun q => [q]).drop r.length = t.map fun q => [q] := by
      rw [List.map_append, List.drop_left' (by simp)]
    have et : ((r ++ t).map fun q => [q]).take r.length = r.map fun q => [q] := by
      rw [List.map_append, List.take_left' (by simp)]
    rw [ed, et, mergeSingles t ht] at h
    simp only [pure_bind] at h
    have ho2 : Own (root s2) (t ++ (r ++ (cs2.flatten ++ L.flatten))) := (SleepyC.own G k3 k2).perm (by
      rw [List.flatten_append, held_slots, flatten_singles]
      refine List.perm_iff_count.mpr fun a => ?_
      simp only [List.count_append]
      omega)
    obtain ⟨b, j1, j2, j3, j4, j5, j6, j7⟩ := returnTempR_local t ht ho2
    obtain ⟨s3, i1, i2, i3⟩ := Sim.returnTemp (β := β) (s := s2) j1
    rw [bind_ok i1, mergeSingles r hr] at h
    cases h
    rw [i2]
    obtain ⟨seg, p1, p2⟩ := k1
    refine ⟨seg, by rw [j3, p1, g5], fun hte => ?_⟩
    obtain ⟨c, q1, q2⟩ := p2 hte
    refine ⟨c, q1, fun x hx hb => ?_⟩
    obtain ⟨w1, w2⟩ := g9 x hb
    obtain ⟨w3, w4⟩ := q2 x hx w1
    exact ⟨w3, j7 x w4 w2⟩

end

/-- subcircuits do nothing if a condition is not met -/
class SleepyS (G : Submonoid ℂ) (β : Type) [Stock] [Recursive β] [Rooted β] [Ledger β] : Prop extends SleepyC G β where
  applySub : ∀ {s s' : β} {r r' : Reg} {sc : Pipeline} {L cs : List Reg}, (∀ e ∈ sc, Stock.Given e.2) → (∀ e ∈ sc, Calms G e.2) →
    Holds s ([r] ++ L) → ctl s = some cs → Recursive.applySub sc r s = .ok r' s' → Rests G (Idle cs) (root s) (root s')
  condSub : ∀ {s s' : β} {cr r : Reg} {sc : Pipeline} {p : Reg × Reg} {L cs : List Reg}, (∀ e ∈ sc, Stock.Given e.2) → (∀ e ∈ sc, Calms G e.2) →
    Holds s ([cr, r] ++ L) → ctl s = some cs → Recursive.applyCondSub sc cr r s = .ok p s' → Rests G (Idle (cr :: cs)) (root s) (root s')

instance (G : Submonoid ℂ) [Stock] : SleepyS G LocalBuilder where
  applySub hg hc hl hs h := applyObjects_sleeps hg hc hl hs h
  condSub {s s' cr r sc p L cs} hg hc hl hs h := by
    obtain ⟨⟨r', cr'⟩, s1, h1, h⟩ := bind_inv h
    cases h
    have h2 := conditioned_inv h1
    have hl' : Holds (⟨s, some cr⟩ : Conditioned LocalBuilder) ([r] ++ L) := hl
    exact applyObjects_sleeps (β := Conditioned LocalBuilder) hg hc hl' (conditioned_ctl hs (Ledger.ne hl cr (by simp))) h2

instance (G : Submonoid ℂ) {β : Type} [Stock] [Recursive β] [Rooted β] [Ledger β] [PassesS β] [GrownS β] [SleepyS G β] : SleepyS G (Conditioned β) where
  applySub {s s' r r' sc L cs} hg hc hl hs h := by
    obtain ⟨cr, cr', p, e1, e2, rfl⟩ := conditioned_applySub_inv h
    obtain ⟨cr1, ps, e3, -, e4, rfl⟩ := ctl_conditioned hs
    obtain rfl : cr = cr1 := by rw [e1] at e3; injection e3
    exact SleepyS.condSub (β := β) hg hc (holds_conditioned e1 hl) e4 e2
  condSub {s s' cr r sc p L cs} hg hc hl hs h := by
    obtain ⟨ccr, ccr', c', q, e1, hm, e2, e3, e4, rfl⟩ := conditioned_condSub_inv hl hg h
    obtain ⟨cr1, ps, e5, -, e6, rfl⟩ := ctl_conditioned hs
    obtain rfl : ccr = cr1 := by rw [e1] at e5; injection e5
    have := SleepyS.condSub (β := β) hg hc hm e6 e2
    refine this.mono fun x hx => ?_
    unfold Idle at hx ⊢
    simpa using hx

instance NB.sleepy (G : Submonoid ℂ) [Stock] : (k : ℕ) → SleepyS G (NB k)
  | 0 => inferInstanceAs (SleepyS G LocalBuilder)
  | k + 1 => letI := NB.sleepy G k; inferInstanceAs (SleepyS G (Conditioned (NB k)))

section
variable {G : Submonoid ℂ} {β : Type} [Stock] [Recursive β] [Rooted β] [Ledger β] [PassesS β] [GrownS β] [SleepyS G β]

theorem passes_applySub_doze (sc : Pipeline) (r : Reg) (hg : ∀ e ∈ sc, Stock.Given e.2) (hc : ∀ e ∈ sc, Calms G e.2) :
    @Passes β _ (doze G β) (Recursive.applySub sc r) [r] fun r => [r] :=
  (@PassesS.applySub β _ _ (swell β) passesS_swell sc r hg).sleeps fun _ _ _ _ hl h _ hs => SleepyS.applySub hg hc hl hs h

theorem passes_condSub_doze (sc : Pipeline) (cr r : Reg) (hg : ∀ e ∈ sc, Stock.Given e.2) (hc : ∀ e ∈ sc, Calms G e.2) :
    @Passes β _ (doze G β) (Recursive.applyCondSub sc cr r) [cr, r] fun p => [p.1, p.2] :=
  (@PassesS.applyCondSub β _ _ (swell β) passesS_swell sc cr r hg).sleeps fun _ _ _ _ hl h _ hs =>
    (SleepyS.condSub hg hc hl hs h).mono fun _ hx => idle_cons.mpr (.inr hx)

/-- a block within conditions -/
theorem passes_conditioned_doze {α : Type} {m : M (Conditioned β) α} {pre : List Reg} {post : α → List Reg}
    (h : @Passes _ _ (doze G (Conditioned β)) m pre post) (cr : Reg) :
    @Passes _ _ (doze G β) (Conditioned.conditioned cr m) ([cr] ++ pre) fun p => [p.2] ++ post p.1 := by
  have h' : @Passes _ _ (swell (Conditioned β)) m pre post := fun s L hl =>
    ⟨fun a s' he => ⟨((h s L hl).1 a s' he).1, ((h s L hl).1 a s' he).2.1⟩, fun _ _ => ⟨trivial, trivial⟩⟩
  refine (passes_conditioned_swell h' cr).sleeps fun s p s' L hl he cs hs => ?_
  have h2 := conditioned_inv he
  have hl' : Holds (⟨s, some cr⟩ : Conditioned β) (pre ++ L) := by
    show Holds s ([cr] ++ (pre ++ L))
    rw [← List.append_assoc]
    exact hl
  have h3 : Sleeps G (⟨s, some cr⟩ : Conditioned β) ⟨s', some p.2⟩ := ((h _ L hl').1 _ _ h2).2.2
  exact (h3 (cr :: cs) (conditioned_ctl hs (Ledger.ne hl cr (by simp)))).mono fun _ hx => idle_cons.mpr (.inr hx)

end

end Verif
