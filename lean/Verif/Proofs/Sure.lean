import Verif.Proofs.AddMod

/-! # Methods that run for certain, with their effect on chosen basis states -/

namespace Verif
open Classical Complex RegOps CircuitBuilder TempBuilder Rooted

/-- the circuit touches the qubit `q`, or (`none`) a qubit outside `L` -/
def Hit (L : List ℕ) (seg : Pipeline) : Option ℕ → Prop
  | some q => ∃ e ∈ seg, q ∈ e.1
  | none => ∃ e ∈ seg, ∃ q ∈ e.1, q ∉ L

theorem Hit.append {L : List ℕ} {p q : Pipeline} {o : Option ℕ} (h : Hit L p o ∨ Hit L q o) : Hit L (p ++ q) o := by
  cases o with
  | none =>
    rcases h with ⟨e, he, h⟩ | ⟨e, he, h⟩
    · exact ⟨e, by simp [he], h⟩
    · exact ⟨e, by simp [he], h⟩
  | some a =>
    rcases h with ⟨e, he, h⟩ | ⟨e, he, h⟩
    · exact ⟨e, by simp [he], h⟩
    · exact ⟨e, by simp [he], h⟩

theorem Hit.mono {L L' : List ℕ} {p : Pipeline} {o : Option ℕ} (h : Hit L p o) (hp : ∀ q ∈ L', q ∈ L) : Hit L' p o := by
  cases o with
  | none =>
    obtain ⟨e, he, q, h1, h2⟩ := h
    exact ⟨e, he, q, h1, fun hq => h2 (hp q hq)⟩
  | some a => exact h

theorem Hit.perm {L L' : List ℕ} {p : Pipeline} {o : Option ℕ} (h : Hit L p o) (hp : L.Perm L') : Hit L' p o := by
  cases o with
  | none =>
    obtain ⟨e, he, q, h1, h2⟩ := h
    exact ⟨e, he, q, h1, fun hq => h2 (hp.mem_iff.mpr hq)⟩
  | some a => exact h

/-- The method `m` called in state `s` returns `a`, the caller then holds `L`, and unitary elements are added to the circuit, among them
elements touching the qubits `T`. A basis state of `S` with clean temporaries is sent to `U x`, again with clean temporaries. -/
def DoesOn (ang : Rot → ℝ) (S : Set Asg) {β α : Type} [Rooted β] (m : M β α) (s : β) (a : α) (L : List ℕ) (U : Asg → Wave) (T : Set (Option ℕ)) : Prop :=
  ∃ s', m s = .ok a s' ∧ ctl s' = ctl s ∧ Own (root s') L ∧ (root s).n ≤ (root s').n ∧ (root s').measurements = (root s).measurements ∧
    ∃ seg, (root s').pipeline = (root s).pipeline ++ seg ∧ (∀ e ∈ seg, SegU (root s').n e) ∧ (∀ o ∈ T, Hit L seg o) ∧
      ∀ x ∈ S, Clean (root s) x → runW ang seg (ket x) = U x ∧ On {y | Clean (root s') y} (U x)

variable {ang : Rot → ℝ}

section
variable {β α γ : Type} [Rooted β]

theorem Does.on {m : M β α} {s : β} {a : α} {L : List ℕ} {U : Asg → Wave} (h : Does ang m s a L U) : DoesOn ang Set.univ m s a L U ∅ := by
  obtain ⟨s', h1, h2, h3, h4⟩ := h
  obtain ⟨seg, k1, k2, k3⟩ := h4.seg
  exact ⟨s', h1, h2, h3, h4.n_le, h4.meas, seg, k1, k2, by simp, fun x _ hx => ⟨(k3 x hx).1, on_iff.mpr (k3 x hx).2⟩⟩

namespace DoesOn

theorem congr {S S' : Set Asg} {m : M β α} {s : β} {a : α} {L L' : List ℕ} {U U' : Asg → Wave} {T T' : Set (Option ℕ)} (h : DoesOn ang S m s a L U T)
    (hL : L.Perm L') (hS : ∀ x ∈ S', Clean (root s) x → x ∈ S ∧ U x = U' x) (hT : ∀ o ∈ T', o ∈ T) : DoesOn ang S' m s a L' U' T' := by
  obtain ⟨s', h1, h2, h3, h4, h5, seg, h6, h7, h8, h9⟩ := h
  refine ⟨s', h1, h2, h3.perm hL, h4, h5, seg, h6, h7, fun o ho => (h8 o (hT o ho)).perm hL, fun x hx hc => ?_⟩
  obtain ⟨k1, k2⟩ := hS x hx hc
  rw [← k2]
  exact h9 x k1 hc

theorem pure {s : β} {L : List ℕ} (h : Own (root s) L) (a : α) (S : Set Asg) : DoesOn ang S (Pure.pure a : M β α) s a L ket ∅ :=
  ⟨s, rfl, rfl, h, le_refl _, rfl, [], by simp, by simp, by simp, fun _ _ hx => ⟨rfl, On.ket hx⟩⟩

theorem bind {S S' : Set Asg} {m : M β α} {f : α → M β γ} {s : β} {a : α} {c : γ} {L L2 : List ℕ} {U V : Asg → Wave} {T T' : Set (Option ℕ)}
    (h : DoesOn ang S m s a L U T) (hS : ∀ x ∈ S, Clean (root s) x → On S' (U x)) (hL : ∀ q ∈ L2, q ∈ L)
    (h' : ∀ s', ctl s' = ctl s → Own (root s') L → DoesOn ang S' (f a) s' c L2 V T') :
    DoesOn ang S (m >>= f) s c L2 (fun x => lift V (U x)) (T ∪ T') := by
  obtain ⟨s1, h1, h2, h3, h4, h5, p, h6, h7, h8, h9⟩ := h
  obtain ⟨s2, g1, g2, g3, g4, g5, q, g6, g7, g8, g9⟩ := h' s1 h2 h3
  refine ⟨s2, by rw [bind_ok h1, g1], g2.trans h2, g3, le_trans h4 g4, g5.trans h5, p ++ q, by rw [g6, h6, List.append_assoc], ?_, ?_, ?_⟩
  · intro e he
    rcases List.mem_append.mp he with he | he
    · exact (h7 e he).mono g4
    · exact g7 e he
  · rintro o (ho | ho)
    · exact Hit.append (.inl ((h8 o ho).mono hL))
    · exact Hit.append (.inr (g8 o ho))
  · intro x hx hc
    obtain ⟨e1, e2⟩ := h9 x hx hc
    have hon : On {y | y ∈ S' ∧ Clean (root s1) y} (U x) :=
      on_iff.mpr fun y hy => ⟨on_iff.mp (hS x hx hc) y hy, on_iff.mp e2 y hy⟩
    refine ⟨?_, ?_⟩
    · rw [runW_append, e1]
      refine hon.agree fun y hy => ?_
      rw [(g9 y hy.1 hy.2).1, lift_ket]
    · refine hon.map _ fun y hy => ?_
      rw [lift_ket]
      exact (g9 y hy.1 hy.2).2

/-- a touched qubit that the caller does not hold -/
theorem hit_out {S : Set Asg} {m : M β α} {s : β} {a : α} {L : List ℕ} {U : Asg → Wave} {T : Set (Option ℕ)} (h : DoesOn ang S m s a L U T)
    {q : ℕ} (hq : some q ∈ T) (hn : q ∉ L) : DoesOn ang S m s a L U (insert none T) := by
  obtain ⟨s', h1, h2, h3, h4, h5, seg, h6, h7, h8, h9⟩ := h
  refine ⟨s', h1, h2, h3, h4, h5, seg, h6, h7, fun o ho => ?_, h9⟩
  rcases ho with rfl | ho
  · obtain ⟨e, he, hqe⟩ := h8 _ hq
    exact ⟨e, he, q, hqe, hn⟩
  · exact h8 o ho

theorem unwrap {S : Set Asg} {m : M β α} {s : β} {a : α} {L : List ℕ} {U : Asg → Wave} {T : Set (Option ℕ)} (h : DoesOn ang S m s a L U T) :
    DoesOn ang S (unwrapM m) s a L U T := by
  obtain ⟨s', h1, h2⟩ := h
  exact ⟨s', unwrapM_ok h1, h2⟩

end DoesOn

end

section
variable {β α γ : Type} [Conditionable β] [Rooted β] [Sim β]

namespace DoesOn

/-- a temporary register is made -/
theorem temp {S : Set Asg} {n : ℕ} (hn : 0 < n) {f : Reg → M β γ} {s : β} {L L2 : List ℕ} {c : γ} {U : Asg → Wave} {T : Set (Option ℕ)}
    (ho : Own (root s) L)
    (h : ∀ t s', t.length = n → ctl s' = ctl s → Own (root s') (t ++ L) → DoesOn ang (S ∩ {x | ∀ q ∈ t, x q = false}) (f t) s' c L2 U T) :
    DoesOn ang S (makeTempRegister n >>= f) s c L2 U T := by
  obtain ⟨t, s1, h1, h2, h3, h4, h5, h6, h7, -, h8⟩ := makeTempRegister_sim (n := n) hn ho
  obtain ⟨s2, g1, g2, g3, g4, g5, q, g6, g7, g8, g9⟩ := h t s1 h2 h3 h4
  refine ⟨s2, by rw [bind_ok h1, g1], g2.trans h3, g3, le_trans h6 g4, g5.trans h7, q, by rw [g6, h5], g7, g8, fun x hx hc => ?_⟩
  exact g9 x ⟨hx, (h8 x hc).2⟩ (h8 x hc).1

/-- a temporary qubit is made -/
theorem temp1 {S : Set Asg} {f : Reg → M β γ} {s : β} {L L2 : List ℕ} {c : γ} {U : Asg → Wave} {T : Set (Option ℕ)}
    (ho : Own (root s) L)
    (h : ∀ t s', ctl s' = ctl s → Own (root s') (t :: L) → DoesOn ang (S ∩ {x | x t = false}) (f [t]) s' c L2 U T) :
    DoesOn ang S (makeTempQubit >>= f) s c L2 U T := by
  obtain ⟨t, b1, h1, h4, h5, h6, h7, h8⟩ := makeTemp_local ho
  obtain ⟨s1, k1, k2, k3⟩ := Sim.makeTemp (β := β) (s := s) h1
  subst k2
  obtain ⟨s2, g1, g2, g3, g4, g5, q, g6, g7, g8, g9⟩ := h t s1 k3 h4
  refine ⟨s2, by rw [bind_ok k1, g1], g2.trans k3, g3, le_trans h6 g4, g5.trans h7, q, by rw [g6, h5], g7, g8, fun x hx hc => ?_⟩
  exact g9 x ⟨hx, (h8 x hc).2⟩ (h8 x hc).1

/-- a temporary register is returned -/
theorem give {s : β} {t : Reg} {L : List ℕ} (ht : t ≠ []) (ho : Own (root s) (t ++ L)) :
    DoesOn ang {x | ∀ q ∈ t, x q = false} (returnTemp t : M β Unit) s () L ket ∅ := by
  obtain ⟨b, g1, g2, g3, g4, g5, -, g6⟩ := returnTempR_local t ht ho
  obtain ⟨s2, k1, k2, k3⟩ := Sim.returnTemp (β := β) (s := s) g1
  subst k2
  exact ⟨s2, k1, k3, g2, le_of_eq g4.symm, g5, [], by rw [g3, List.append_nil], by simp, by simp, fun x hx hc => ⟨rfl, On.ket (g6 x hc hx)⟩⟩

theorem conditioned {S : Set Asg} {m : M (Conditioned β) α} {s : β} {cs : List Reg} {cr : Reg} {a : α} {L : List ℕ} {U : Asg → Wave}
    {T : Set (Option ℕ)} (hs : ctl s = some cs) (hc : cr ≠ []) (h : DoesOn ang S m ⟨s, some cr⟩ a L U T) :
    DoesOn ang S (Conditioned.conditioned cr m) s (a, cr) L U T := by
  obtain ⟨s', h1, h2, h3⟩ := h
  rw [conditioned_ctl hs hc] at h2
  obtain ⟨cr', ps, e1, e2, e3, e4⟩ := ctl_conditioned h2
  injection e4 with e4 e5
  subst e4 e5
  refine ⟨s'.parent, ?_, e3.trans hs.symm, h3⟩
  unfold Conditioned.conditioned
  rw [h1]
  simp only
  rw [e1]

theorem line {S : Set Asg} {rs : List Reg} (hn : rs.flatten.Nodup) {l : Line β} (hv : ValidGroups rs l.groups) {s : β} {L : List ℕ}
    {U : Asg → Wave} {T : Set (Option ℕ)} (h : DoesOn ang S (l.call rs) s (l.groups.map (groupReg rs)) L U T) :
    DoesOn ang S (runLine (full rs) l) s (full rs) L U T := by
  obtain ⟨s', h1, h2⟩ := h
  exact ⟨s', runLine_ok hn hv h1, h2⟩

theorem program {S : Set Asg} {rs : List Reg} (hr : ∀ r ∈ rs, r ≠ []) (hn : rs.flatten.Nodup) {lines : List (Line β)} {s : β}
    {L : List ℕ} {U : Asg → Wave} {T : Set (Option ℕ)} (h : DoesOn ang S (lines.foldlM runLine (full rs)) s (full rs) L U T) :
    DoesOn ang S (Verif.program rs lines) s rs L U T := by
  obtain ⟨s', h1, h2⟩ := h
  refine ⟨s', ?_, h2⟩
  rw [program_eq rs hr hn, bind_ok h1, mergeSlots_full rs hr]
  rfl

end DoesOn

end

/-! ## in every builder -/

/-- in every builder with conditions `cs`, using the qubits `Q` and temporaries -/
def Sure (ang : Rot → ℝ) (cs : List Reg) (S : Set Asg) {β α : Type} [Rooted β] (m : M β α) (a : α) (Q : List ℕ) (U : Asg → Wave) (T : Set (Option ℕ)) : Prop :=
  ∀ (s : β) (L : List ℕ), ctl s = some cs → Own (root s) (cs.flatten ++ Q ++ L) → DoesOn ang S m s a (cs.flatten ++ Q ++ L) U T

/-- the basis states in which some condition does not hold -/
def Idle (cs : List Reg) : Set Asg := {x | ¬ ∀ c ∈ cs.flatten, x c = true}

/-- In every builder with conditions `cs` the method runs for certain. It does nothing if the conditions do not hold. -/
abbrev Quiet (cs : List Reg) {β α : Type} [Rooted β] (m : M β α) (a : α) (Q : List ℕ) (T : Set (Option ℕ)) : Prop :=
  Sure rotAngle cs (Idle cs) m a Q ket T

section
variable {β α γ : Type} [Conditionable β] [Rooted β] [Sim β] {cs : List Reg} {S : Set Asg}

/-- a basis state with conditions held and `Q` as in `z` -/
noncomputable def inside (cs : List Reg) (Q : List ℕ) (z : Asg) : Asg := fun q => decide (q ∈ cs.flatten) || (decide (q ∈ Q) && z q)

theorem inside_clean {b : LocalBuilder} {Q L : List ℕ} (ho : Own b (cs.flatten ++ Q ++ L)) (z : Asg) : Clean b (inside cs Q z) := by
  intro q hq
  have hno : q ∉ cs.flatten ++ Q := by
    intro hm
    have hm' : q ∈ cs.flatten ++ Q ++ L := List.mem_append_left _ hm
    rcases hq with hq | hq
    · exact ho.not_pool hm' hq
    · have := ho.mem_lt hm'; omega
  simp only [List.mem_append, not_or] at hno
  simp [inside, hno.1, hno.2]

theorem Moves.sure {m : M β α} {a : α} {Q : List ℕ} {U : Asg → Wave} (h : Moves ang cs m a Q U) :
    Sure ang cs Set.univ m a Q (fun x => if ∀ c ∈ cs.flatten, x c = true then U x else ket x) ∅ :=
  fun s L hs ho => (h.does s L hs ho).on

/-- a qubit the circuit changes is touched -/
theorem Moves.quiet {m : M β α} {a : α} {Q : List ℕ} {U : Asg → Wave} (h : Moves rotAngle cs m a Q U) (T : Set (Option ℕ))
    (hT : ∀ o ∈ T, ∃ q z, o = some q ∧ ¬ On {y | y q = inside cs Q z q} (U (inside cs Q z))) : Quiet cs m a Q T := by
  intro s L hs ho
  obtain ⟨s', h1, h2, h3, h4⟩ := h.does s L hs ho
  obtain ⟨seg, k1, k2, k3⟩ := h4.seg
  refine ⟨s', h1, h2, h3, h4.n_le, h4.meas, seg, k1, k2, fun o hoT => ?_, fun x hx hc => ?_⟩
  · obtain ⟨q, z, rfl, hz⟩ := hT o hoT
    have hall : ∀ c ∈ cs.flatten, inside cs Q z c = true := fun c hc => by simp [inside, hc]
    refine touched (ang := rotAngle) (x := inside cs Q z) ?_
    rw [(k3 _ (inside_clean ho z)).1, if_pos hall]
    exact hz
  · obtain ⟨e1, e2⟩ := k3 x hc
    rw [if_neg hx] at e1 e2
    exact ⟨e1, on_iff.mpr e2⟩

theorem Moves.quiet0 {m : M β α} {a : α} {Q : List ℕ} {U : Asg → Wave} (h : Moves rotAngle cs m a Q U) : Quiet cs m a Q ∅ := h.quiet ∅ (by simp)

theorem Maps.quiet0 {m : M β α} {a : α} {Q : List ℕ} {φ : Asg → Asg} (h : Maps rotAngle cs m a Q φ) : Quiet cs m a Q ∅ := h.moves.quiet0

namespace Sure

theorem congr {S' : Set Asg} {m : M β α} {a : α} {Q : List ℕ} {U U' : Asg → Wave} {T T' : Set (Option ℕ)} (h : Sure ang cs S m a Q U T)
    (hS : ∀ x ∈ S', x ∈ S ∧ U x = U' x) (hT : ∀ o ∈ T', o ∈ T) : Sure ang cs S' m a Q U' T' :=
  fun s L hs ho => (h s L hs ho).congr (List.Perm.refl _) (fun x hx _ => hS x hx) hT

theorem cast {m m' : M β α} {a a' : α} {Q Q' : List ℕ} {U : Asg → Wave} {T : Set (Option ℕ)} (h : Sure ang cs S m a Q U T) (hm : m' = m) (ha : a' = a)
    (hQ : Q' = Q) : Sure ang cs S m' a' Q' U T := by subst hm ha hQ; exact h

theorem pure (a : α) (Q : List ℕ) : Sure ang cs S (Pure.pure a : M β α) a Q ket ∅ := fun _ _ _ ho => DoesOn.pure ho a S

theorem mono {m : M β α} {a : α} {Q Q' : List ℕ} {U : Asg → Wave} {T : Set (Option ℕ)} (h : Sure ang cs S m a Q U T) (hn : Q.Nodup) (hq : ∀ q ∈ Q, q ∈ Q') :
    Sure ang cs S m a Q' U T := by
  intro s L hs ho
  obtain ⟨R, hR⟩ := own_front Q hn hq ho
  exact (h s R hs (ho.perm hR)).congr hR.symm (fun x hx _ => ⟨hx, rfl⟩) fun _ h => h

theorem of_nodup {m : M β α} {a : α} {Q : List ℕ} {U : Asg → Wave} {T : Set (Option ℕ)} (h : Q.Nodup → Sure ang cs S m a Q U T) : Sure ang cs S m a Q U T :=
  fun s L hs ho => h (List.nodup_append.mp (List.nodup_append.mp ho.left).1).2.1 s L hs ho

theorem bind {S' : Set Asg} {m : M β α} {f : α → M β γ} {a : α} {c : γ} {Q : List ℕ} {U V : Asg → Wave} {T T' : Set (Option ℕ)}
    (h : Sure ang cs S m a Q U T) (hS : ∀ x ∈ S, On S' (U x)) (h' : Sure ang cs S' (f a) c Q V T') :
    Sure ang cs S (m >>= f) c Q (fun x => lift V (U x)) (T ∪ T') :=
  fun s L hs ho => (h s L hs ho).bind (fun x hx _ => hS x hx) (fun _ h => h) fun s' hs' ho' => h' s' L (hs'.trans hs) ho'

/-- one more condition -/
theorem conditioned {cr : Reg} (hc : cr ≠ []) {m : M (Conditioned β) α} {a : α} {Q : List ℕ} {U : Asg → Wave} {T : Set (Option ℕ)}
    (h : Sure ang (cr :: cs) S m a Q U T) : Sure ang cs S (Conditioned.conditioned cr m) (a, cr) (cr ++ Q) U T := by
  intro s L hs ho
  have hp : (cs.flatten ++ (cr ++ Q) ++ L).Perm ((cr :: cs).flatten ++ Q ++ L) := by
    rw [List.flatten_cons]
    simp only [← List.append_assoc]
    exact (List.perm_append_comm.append_right Q).append_right L
  exact (DoesOn.conditioned hs hc (h ⟨s, some cr⟩ L (conditioned_ctl hs hc) (ho.perm hp))).congr hp.symm (fun x hx _ => ⟨hx, rfl⟩) fun _ h => h

end Sure

/-! ## quiet methods -/

theorem lift_ket_ket (x : Asg) : lift ket (ket x) = ket x := lift_ket _ _

namespace Quiet

theorem congr {m : M β α} {a : α} {Q : List ℕ} {T T' : Set (Option ℕ)} (h : Quiet cs m a Q T) (hT : ∀ o ∈ T', o ∈ T) : Quiet cs m a Q T' :=
  Sure.congr h (fun _ hx => ⟨hx, rfl⟩) hT

theorem bind {m : M β α} {f : α → M β γ} {a : α} {c : γ} {Q : List ℕ} {T T' : Set (Option ℕ)} (h : Quiet cs m a Q T) (h' : Quiet cs (f a) c Q T') :
    Quiet cs (m >>= f) c Q (T ∪ T') :=
  Sure.congr (Sure.bind h (fun _ hx => On.ket hx) h') (fun x hx => ⟨hx, lift_ket_ket x⟩) fun _ h => h

theorem map {m : M β α} {f : α → γ} {a : α} {c : γ} {Q : List ℕ} {T : Set (Option ℕ)} (h : Quiet cs m a Q T) (hf : f a = c) :
    Quiet cs (m >>= fun a => Pure.pure (f a)) c Q T :=
  (h.bind (f := fun a => Pure.pure (f a)) (by rw [hf]; exact Sure.pure c Q)).congr fun _ h => .inl h

theorem conditioned {cr : Reg} (hc : cr ≠ []) {m : M (Conditioned β) α} {a : α} {Q : List ℕ} {T : Set (Option ℕ)} (h : Quiet (cr :: cs) m a Q T) :
    Quiet cs (Conditioned.conditioned cr m) (a, cr) (cr ++ Q) T := by
  refine Sure.congr (Sure.conditioned hc h) (fun x hx => ⟨fun hall => hx fun c hcm => hall c ?_, rfl⟩) fun _ h => h
  rw [List.flatten_cons]
  exact List.mem_append_right _ hcm

variable {rs : List Reg}

theorem lines_nil : Quiet cs (([] : List (Line β)).foldlM runLine (full rs)) (full rs) rs.flatten ∅ := Sure.pure _ _

theorem lines_cons {l : Line β} {ls : List (Line β)} {Q : List ℕ} {T T' : Set (Option ℕ)} (hn : rs.flatten.Nodup) (hv : ValidGroups rs l.groups)
    (h : Quiet cs (l.call rs) (l.groups.map (groupReg rs)) Q T) (hQ : Q = (l.groups.map (groupReg rs)).flatten)
    (h' : Quiet cs (ls.foldlM runLine (full rs)) (full rs) rs.flatten T') :
    Quiet cs ((l :: ls).foldlM runLine (full rs)) (full rs) rs.flatten (T ∪ T') := by
  rw [List.foldlM_cons]
  obtain ⟨g1, g2⟩ := groups_nodup rs hn _ hv
  have h2 := Sure.mono h (Q' := rs.flatten) (by rw [hQ]; exact g1) (by rw [hQ]; exact g2)
  exact Quiet.bind (a := full rs) (fun s L hs ho => (h2 s L hs ho).line hn hv) h'

theorem plain {f : List Reg → M β (List Reg)} {gs : List (List Sel)} {as : List Reg} {ls : List (Line β)} {T T' : Set (Option ℕ)}
    (hn : rs.flatten.Nodup) (hv : ValidGroups rs gs) (hg : gs.map (groupReg rs) = as)
    (h : Quiet cs (f as) as as.flatten T) (h' : Quiet cs (ls.foldlM runLine (full rs)) (full rs) rs.flatten T') :
    Quiet cs ((.plain f gs :: ls).foldlM runLine (full rs)) (full rs) rs.flatten (T ∪ T') := by
  subst hg
  exact lines_cons (l := .plain f gs) hn hv h rfl h'

/-- a `control` line -/
theorem control {f : List Reg → M (Conditioned β) (List Reg)} {g0 : List Sel} {gs : List (List Sel)} {c : Reg} {as : List Reg} {ls : List (Line β)}
    {T T' : Set (Option ℕ)} (hn : rs.flatten.Nodup) (hv : ValidGroups rs (g0 :: gs)) (e0 : groupReg rs g0 = c) (e1 : gs.map (groupReg rs) = as) (hc : c ≠ [])
    (h : Quiet (c :: cs) (f as) as as.flatten T) (h' : Quiet cs (ls.foldlM runLine (full rs)) (full rs) rs.flatten T') :
    Quiet cs ((.control none f (g0 :: gs) :: ls).foldlM runLine (full rs)) (full rs) rs.flatten (T ∪ T') := by
  refine lines_cons (l := .control none f (g0 :: gs)) hn hv ?_ rfl h'
  have h1 := Quiet.map (f := fun p : List Reg × Reg => p.2 :: p.1) (Quiet.conditioned hc h) rfl
  refine Sure.cast h1 ?_ (by simp [Line.groups, e0, e1]) (by simp [Line.groups, e0, e1])
  unfold Line.call
  simp only [List.map_cons, e0, e1, pure_bind]

/-- a `control(bits)` line -/
theorem masked {f : List Reg → M (Conditioned β) (List Reg)} {g0 : List Sel} {gs : List (List Sel)} {c : Reg} {as : List Reg} {ls : List (Line β)} {m : ℕ}
    {T T' : Set (Option ℕ)} (hn : rs.flatten.Nodup) (hv : ValidGroups rs (g0 :: gs)) (e0 : groupReg rs g0 = c) (e1 : gs.map (groupReg rs) = as) (hc : c ≠ [])
    (h : Quiet (c :: cs) (f as) as as.flatten T) (h' : Quiet cs (ls.foldlM runLine (full rs)) (full rs) rs.flatten T') :
    Quiet cs ((.control (some m) f (g0 :: gs) :: ls).foldlM runLine (full rs)) (full rs) rs.flatten (T ∪ T') := by
  refine lines_cons (l := .control (some m) f (g0 :: gs)) (Q := c ++ as.flatten) hn hv ?_ (by simp [Line.groups, e0, e1]) h'
  refine Sure.of_nodup fun hnd => ?_
  have hneg : Quiet cs (Verif.negateBitmask c m : M β _) c (c ++ as.flatten) ∅ :=
    (Maps.negateBitmask cs c hc m).quiet0.mono (List.nodup_append.mp hnd).1 (by intro p hp; simp [hp])
  have h2 : Quiet cs (Verif.negateBitmask c m >>= fun c => Pure.pure (c :: as) : M β _) (c :: as) (c ++ as.flatten) ∅ := hneg.map (f := fun c => c :: as) rfl
  have h3 := hneg.bind (f := fun c => do
    let (rs, cr) ← Conditioned.conditioned c (f as)
    let cr ← Verif.negateBitmask cr m
    Pure.pure (cr :: rs)) ((Quiet.conditioned hc h).bind (f := fun p : List Reg × Reg => do
      let cr ← Verif.negateBitmask p.2 m
      Pure.pure (cr :: p.1)) h2)
  refine Sure.cast (h3.congr fun o ho => .inr (.inl ho)) ?_ (by simp [Line.groups, e0, e1]) rfl
  unfold Line.call
  simp only [List.map_cons, e0, e1]

theorem program {lines : List (Line β)} {T : Set (Option ℕ)} (hr : ∀ r ∈ rs, r ≠ [])
    (h : rs.flatten.Nodup → Quiet cs (lines.foldlM runLine (full rs)) (full rs) rs.flatten T) :
    Quiet cs (Verif.program rs lines) rs rs.flatten T :=
  Sure.of_nodup fun hn s L hs ho => DoesOn.program hr hn (h hn s L hs ho)

end Quiet

end

end Verif
