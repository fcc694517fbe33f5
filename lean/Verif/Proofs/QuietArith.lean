import Verif.Proofs.QuietInv
import Verif.Proofs.Shift2

/-! # The arithmetic circuits run for certain and do nothing if the conditions do not hold -/

namespace Verif
open Classical Complex RegOps CircuitBuilder TempBuilder Rooted

/-! ## selectors of distinct registers -/

/-- the selector names an existing register and existing positions of it, at least one and none twice -/
def SelOK (rs : List Reg) (s : Sel) : Prop :=
  s.1 < rs.length ∧ match s.2 with
    | none => rs.getD s.1 [] ≠ []
    | some is => is ≠ [] ∧ is.Nodup ∧ ∀ i ∈ is, i < (rs.getD s.1 []).length

theorem valid_sels (rs : List Reg) (ss : List Sel) (hk : (ss.map Prod.fst).Nodup) (h : ∀ s ∈ ss, SelOK rs s) :
    ValidGroups rs (ss.map fun s => [s]) := by
  have hpos : ∀ s, groupPos rs [s] = selPos rs s := fun s => by simp [groupPos]
  have key : ∀ s, SelOK rs s → selPos rs s ≠ [] ∧ (selPos rs s).Nodup ∧ ∀ p ∈ selPos rs s, p.1 = s.1 ∧ HasPos rs p := by
    rintro ⟨k, o⟩ ⟨h1, h2⟩
    cases o with
    | none =>
      simp only [selPos]
      refine ⟨by simpa using h2, List.Nodup.map (fun _ _ h => (Prod.mk.inj h).2) List.nodup_range, fun p hp => ?_⟩
      obtain ⟨i, hi, rfl⟩ := List.mem_map.mp hp
      exact ⟨rfl, h1, List.mem_range.mp hi⟩
    | some is =>
      simp only [selPos]
      refine ⟨by simpa using h2.1, List.Nodup.map (fun _ _ h => (Prod.mk.inj h).2) h2.2.1, fun p hp => ?_⟩
      obtain ⟨i, hi, rfl⟩ := List.mem_map.mp hp
      exact ⟨rfl, h1, h2.2.2 i hi⟩
  refine ⟨?_, ?_, ?_, ?_⟩
  · intro g hg
    obtain ⟨s, hs, rfl⟩ := List.mem_map.mp hg
    rw [hpos]
    exact (key s (h s hs)).1
  · rw [List.flatMap_map, List.nodup_flatMap]
    refine ⟨fun s hs => by rw [hpos]; exact (key s (h s hs)).2.1, ?_⟩
    have hk' := List.pairwise_map.mp hk
    refine List.Pairwise.imp_of_mem (fun {s t} hs ht hst => ?_) hk'
    simp only [Function.onFun, hpos]
    intro p hp hq
    exact hst (((key s (h s hs)).2.2 p hp).1.symm.trans ((key t (h t ht)).2.2 p hq).1)
  · intro g hg s hs
    obtain ⟨k, hk, rfl⟩ := List.mem_map.mp hg
    simp only [List.mem_singleton] at hs
    subst hs
    exact (h s hk).1
  · intro p hp
    rw [List.flatMap_map, List.mem_flatMap] at hp
    obtain ⟨s, hs, hp⟩ := hp
    rw [hpos] at hp
    exact ((key s (h s hs)).2.2 p hp).2

/-! ## gates, copies, shifts -/

section
variable {β : Type} [Conditionable β] [Rooted β] [Sim β] {cs : List Reg}

theorem not_on_ket {S : Set Asg} {x : Asg} (h : x ∉ S) : ¬ On S (ket x) := fun c => h (on_iff.mp c x (by simp [ket]))

theorem Maps.quiet {α : Type} {m : M β α} {a : α} {Q : List ℕ} {φ : Asg → Asg} (h : Maps rotAngle cs m a Q φ) (T : Set (Option ℕ))
    (hT : ∀ o ∈ T, ∃ q z, o = some q ∧ φ (inside cs Q z) q ≠ inside cs Q z q) : Quiet cs m a Q T :=
  h.moves.quiet T fun o ho => by
    obtain ⟨q, z, e, hz⟩ := hT o ho
    exact ⟨q, z, e, not_on_ket hz⟩

theorem inside_all {Q : List ℕ} {q : ℕ} (hq : q ∈ Q) : inside cs Q (fun _ => true) q = true := by simp [inside, hq]

theorem Quiet.x (q : ℕ) : Quiet cs (Verif.op1 Gate.x [[q]] : M β _) [[q]] [q] {some q} :=
  (Maps.op1 (Maps.x (β := β) cs q)).quiet _ fun o ho => ⟨q, fun _ => true, ho, by rw [flipQ_self]; simp⟩

end

section
variable {β : Type} [Recursive β] [Rooted β] [SubSim β] {cs : List Reg}

theorem Quiet.sum (c a b : ℕ) : Quiet cs (Arith.sum [[c], [a], [b]] : M β _) [[c], [a], [b]] [c, a, b] ∅ := (Maps.sum cs c a b).quiet0

theorem Quiet.carry (c a b d : ℕ) : Quiet cs (Arith.carry [[c], [a], [b], [d]] : M β _) [[c], [a], [b], [d]] [c, a, b, d] {some d} :=
  (Maps.carry cs c a b d).quiet _ fun o ho => ⟨d, fun _ => true, ho, by
    unfold carryMap
    rw [Function.update_self, inside_all (by simp), inside_all (by simp), inside_all (by simp), inside_all (by simp)]
    decide⟩

theorem Quiet.copy (a b : Reg) (hr : a ≠ []) (hl : a.length = b.length) (i : ℕ) (hi : i < b.length) :
    Quiet cs (Arith.copy [a, b] : M β _) [a, b] [a, b].flatten {some (b.getD i 0)} := by
  have e : [a, b].flatten = a ++ b := by simp
  rw [e]
  refine Sure.of_nodup fun hn => (Maps.copy cs a b hr hl).quiet _ fun o ho => ⟨_, fun _ => true, ho, ?_⟩
  have h1 : a.getD i 0 ∈ a ++ b := by
    rw [List.getD_eq_getElem _ _ (by omega)]
    exact List.mem_append_left _ (List.getElem_mem _)
  rw [copyMap_at a b hn hl _ i hi, inside_all h1]
  simp

theorem Quiet.rshift (r : Reg) (h2 : 2 ≤ r.length) (hcs : ∀ q ∈ r, q ∉ cs.flatten) (i : ℕ) (hi : i < r.length) :
    Quiet cs (Arith.rshift [r] : M β _) [r] [r].flatten {some (r.getD i 0)} := by
  have e : [r].flatten = r := by simp
  rw [e]
  have hr : r ≠ [] := by rintro rfl; simp at h2
  refine Sure.of_nodup fun hn => (Maps.rshift cs r hr).quiet _ fun o ho => ⟨_, fun q => decide (q = r.getD i 0), ho, ?_⟩
  have hj : (i + (r.length - 1)) % r.length < r.length := Nat.mod_lt _ (by omega)
  rw [rotate_at 1 r hn _ i hi, Nat.mod_eq_of_lt (by omega : 1 < r.length)]
  have h1 : r.getD i 0 ∈ r := by rw [List.getD_eq_getElem _ _ hi]; exact List.getElem_mem _
  have h3 : r.getD ((i + (r.length - 1)) % r.length) 0 ∈ r := by rw [List.getD_eq_getElem _ _ hj]; exact List.getElem_mem _
  have h4 : r.getD ((i + (r.length - 1)) % r.length) 0 ≠ r.getD i 0 := by
    rw [List.getD_eq_getElem _ _ hj, List.getD_eq_getElem _ _ hi]
    intro h
    have := hn.getElem_inj_iff.mp h
    rcases Nat.lt_or_ge (i + (r.length - 1)) r.length with hlt | hge
    · rw [Nat.mod_eq_of_lt hlt] at this; omega
    · rw [Nat.mod_eq_sub_mod hge, Nat.mod_eq_of_lt (by omega)] at this; omega
  have h5 := hcs _ h1
  have h6 := hcs _ h3
  generalize r.getD ((i + (r.length - 1)) % r.length) 0 = p at *
  generalize r.getD i 0 = q at *
  simp only [inside, h5, h6, h1, h3, h4, decide_true, decide_false]
  decide

theorem Quiet.rshift0 (r : Reg) (hr : r ≠ []) : Quiet cs (Arith.rshift [r] : M β _) [r] [r].flatten ∅ := by
  have e : [r].flatten = r := by simp
  rw [e]
  exact (Maps.rshift cs r hr).quiet0

end

section
variable {β : Type} [Recursive β] [Rooted β] [SubSim β] {cs : List Reg}

theorem turns_rshift (rs : List Reg) : Adds (Turns 0) (Arith.rshift rs : M LocalBuilder _) := Adds.rshift (P := Turns 0) trivial rs

theorem Quiet.lshift (r : Reg) (h2 : 2 ≤ r.length) : Quiet cs (Arith.lshift [r] : M β _) [r] [r].flatten ∅ := by
  have hr : r ≠ [] := by rintro rfl; simp at h2
  refine Quiet.inverse (rs := [r]) (by simp) (by simpa using hr)
    (Quiet.rshift (β := LocalBuilder) (cs := []) (List.range' 0 r.length) (by simpa using h2) (by simp) (r.length - 1) (by simp; omega)) (.inr ?_) turns_rshift
  rw [List.getD_eq_getElem _ _ (by simp; omega)]
  simp

theorem turns_copy (rs : List Reg) : Adds (Turns 0) (Arith.copy rs : M LocalBuilder _) := Adds.copy (P := Turns 0) trivial rs

theorem Quiet.copyInv (a b : Reg) (hr : a ≠ []) (hl : a.length = b.length) : Quiet cs (Arith.copyInv [a, b] : M β _) [a, b] [a, b].flatten ∅ := by
  have hrb : b ≠ [] := by rintro rfl; simp at hl; exact hr hl
  have hpos := List.length_pos_iff.mpr hr
  refine Quiet.inverse (rs := [a, b]) (by simp) (by simp [hr, hrb])
    (Quiet.copy (β := LocalBuilder) (cs := []) (List.range' 0 a.length) (List.range' (0 + a.length) b.length) (by simp; omega) (by simpa using hl) (a.length - 1) (by simp; omega)) (.inr ?_) turns_copy
  rw [List.getD_eq_getElem _ _ (by simp; omega)]
  simp
  omega

theorem turns_carry (rs : List Reg) : Adds (Turns 0) (Arith.carry rs : M LocalBuilder _) := Adds.carry (P := Turns 0) trivial trivial rs

theorem Quiet.carryInv (c a b d : ℕ) : Quiet cs (Arith.carryInv [[c], [a], [b], [d]] : M β _) [[c], [a], [b], [d]] [c, a, b, d] ∅ :=
  Quiet.inverse (rs := [[c], [a], [b], [d]]) (f := Arith.carry) (T := {some 3}) (by simp) (by simp)
    (Sure.cast (Quiet.carry (β := LocalBuilder) (cs := []) 0 1 2 3) rfl rfl rfl) (.inr (by simp)) turns_carry

/-! ## the adder -/

theorem Quiet.addF (fuel : ℕ) (c0 : ℕ) (ct a b : Reg) (hf : ct.length < fuel) (ha : a.length = ct.length + 1) (hb : b.length = ct.length + 2) :
    Quiet cs (Arith.addF fuel [c0 :: ct, a, b] : M β _) [c0 :: ct, a, b] [c0 :: ct, a, b].flatten {some (b.getD (ct.length + 1) 0)} := by
  induction fuel generalizing c0 ct a b with
  | zero => omega
  | succ fuel ih =>
    have hr : ∀ r ∈ [c0 :: ct, a, b], r ≠ [] := by
      intro r hr
      simp only [List.mem_cons, List.not_mem_nil, or_false] at hr
      rcases hr with rfl | rfl | rfl
      · simp
      · rintro rfl; simp at ha
      · rintro rfl; simp at hb
    unfold Arith.addF
    cases ct with
    | nil =>
      obtain ⟨a0, rfl⟩ := List.length_eq_one_iff.mp ha
      obtain ⟨b0, b1, rfl⟩ := List.length_eq_two.mp hb
      rw [if_pos (by simp)]
      refine Quiet.program hr fun hn => ?_
      have v1 : ValidGroups [[c0], [a0], [b0, b1]] [[(0, none)], [(1, none)], [(2, some [0])], [(2, some [1])]] :=
        valid_shape (rs' := [[0], [1], [2, 3]]) rfl ⟨by decide, by decide, by decide, by unfold HasPos; decide⟩
      have v2 : ValidGroups [[c0], [a0], [b0, b1]] [[(0, none)], [(1, none)], [(2, some [0])]] :=
        valid_shape (rs' := [[0], [1], [2, 3]]) rfl ⟨by decide, by decide, by decide, by unfold HasPos; decide⟩
      have h1 : Quiet cs _ _ _ _ := Quiet.lines_nil (β := β) (rs := [[c0], [a0], [b0, b1]])
      have h2 := Quiet.plain hn v2 (as := [[c0], [a0], [b0]]) rfl (Quiet.sum (cs := cs) c0 a0 b0) h1
      have h3 := Quiet.plain hn v1 (as := [[c0], [a0], [b0], [b1]]) rfl (Quiet.carry (cs := cs) c0 a0 b0 b1) h2
      exact h3.congr fun o ho => .inl ho
    | cons c1 ct =>
      obtain ⟨a0, as, rfl⟩ := List.exists_cons_of_length_pos (l := a) (by omega)
      obtain ⟨b0, bs, rfl⟩ := List.exists_cons_of_length_pos (l := b) (by omega)
      simp only [List.length_cons, Nat.add_right_cancel_iff] at ha hb hf
      rw [if_neg (by simp), if_pos (by simp [ha, hb])]
      refine Quiet.program hr fun hn => ?_
      have hlen : (c0 :: c1 :: ct).length = ct.length + 2 := rfl
      rw [hlen, show ct.length + 2 - 1 = ct.length + 1 from rfl]
      obtain ⟨v1, v2, v3, e⟩ := add_groups c0 c1 a0 b0 ct as bs ha hb
      have h1 : Quiet cs _ _ _ _ := Quiet.lines_nil (β := β) (rs := [c0 :: c1 :: ct, a0 :: as, b0 :: bs])
      have h2 := Quiet.plain hn v3 (as := [[c0], [a0], [b0]]) rfl (Quiet.sum (cs := cs) c0 a0 b0) h1
      have h3 := Quiet.plain hn v1 (as := [[c0], [a0], [b0], [c1]]) rfl (Quiet.carryInv (cs := cs) c0 a0 b0 c1) h2
      have h4 := Quiet.plain hn v2 e (ih c1 ct as bs (by omega) ha hb) h3
      have h5 := Quiet.plain hn v1 (as := [[c0], [a0], [b0], [c1]]) rfl (Quiet.carry (cs := cs) c0 a0 b0 c1) h4
      exact h5.congr fun o ho => .inr (.inl ho)

theorem Quiet.add (rc ra rb : Reg) (hc : rc ≠ []) (ha : ra.length = rc.length) (hb : rb.length = rc.length + 1) :
    Quiet cs (Arith.add [rc, ra, rb] : M β _) [rc, ra, rb] [rc, ra, rb].flatten {some (rb.getD rc.length 0)} := by
  obtain ⟨c0, ct, rfl⟩ := List.exists_cons_of_ne_nil hc
  exact Quiet.addF _ c0 ct ra rb (by simp) ha hb

theorem turns_add (rs : List Reg) : Adds (Turns 0) (Arith.add rs : M LocalBuilder _) := Adds.add (P := Turns 0) trivial rs

theorem Quiet.addInv (rc ra rb : Reg) (hc : rc ≠ []) (ha : ra.length = rc.length) (hb : rb.length = rc.length + 1) :
    Quiet cs (Arith.addInv [rc, ra, rb] : M β _) [rc, ra, rb] [rc, ra, rb].flatten ∅ := by
  have hpos := List.length_pos_iff.mpr hc
  have h0 : ra ≠ [] := by rintro rfl; simp at ha; omega
  have h1 : rb ≠ [] := by rintro rfl; simp at hb
  refine Quiet.inverse (rs := [rc, ra, rb]) (by simp) (by simp [hc, h0, h1])
    (Quiet.add (β := LocalBuilder) (cs := []) (List.range' 0 rc.length) (List.range' (0 + rc.length) ra.length) (List.range' (0 + rc.length + ra.length) rb.length)
      (by simp; omega) (by simpa using ha) (by simpa using hb)) (.inr ?_) turns_add
  rw [List.getD_eq_getElem _ _ (by simp; omega)]
  simp
  omega

end

/-! ## temporaries -/

section
variable {β α γ : Type} [Conditionable β] [Rooted β] [Sim β] {cs : List Reg}

/-- like `Quiet`, for the rest of a method that holds temporaries `t`, which are 0, and gives them back -/
def QuietT (cs : List Reg) (m : M β α) (a : α) (t Q : List ℕ) (T : Set (Option ℕ)) : Prop :=
  ∀ (s : β) (L : List ℕ), ctl s = some cs → Own (root s) (t ++ (cs.flatten ++ Q ++ L)) →
    DoesOn rotAngle (Idle cs ∩ {x | ∀ q ∈ t, x q = false}) m s a (cs.flatten ++ Q ++ L) ket T

namespace QuietT

theorem quiet {m : M β α} {a : α} {Q : List ℕ} {T : Set (Option ℕ)} (h : QuietT cs m a [] Q T) : Quiet cs m a Q T :=
  fun s L hs ho => (h s L hs (by simpa using ho)).congr (List.Perm.refl _) (fun x hx _ => ⟨⟨hx, by simp⟩, rfl⟩) fun _ h => h

theorem pure (a : α) (Q : List ℕ) : QuietT cs (Pure.pure a : M β α) a [] Q ∅ := fun s L _ ho => by
  refine (DoesOn.pure (s := s) ?_ a (Idle cs ∩ {x | ∀ q ∈ [], x q = false}))
  simpa using ho

theorem temp {n : ℕ} (hn : 0 < n) {f : Reg → M β γ} {c : γ} {t Q : List ℕ} {T : Set (Option ℕ)}
    (h : ∀ t', t'.length = n → QuietT cs (f t') c (t' ++ t) Q T) : QuietT cs (makeTempRegister n >>= f) c t Q T := by
  intro s L hs ho
  refine DoesOn.temp hn ho fun t' s' ht' hs' ho' => ?_
  refine (h t' ht' s' L (hs'.trans hs) (by rw [List.append_assoc]; exact ho')).congr (List.Perm.refl _) (fun x hx _ => ⟨⟨hx.1.1, fun q hq => ?_⟩, rfl⟩) fun _ h => h
  rcases List.mem_append.mp hq with hq | hq
  · exact hx.2 q hq
  · exact hx.1.2 q hq

theorem temp1 {f : Reg → M β γ} {c : γ} {t Q : List ℕ} {T : Set (Option ℕ)}
    (h : ∀ q, QuietT cs (f [q]) c ([q] ++ t) Q T) : QuietT cs (makeTempQubit >>= f) c t Q T := by
  intro s L hs ho
  refine DoesOn.temp1 ho fun q s' hs' ho' => ?_
  refine (h q s' L (hs'.trans hs) (by rw [List.append_assoc]; exact ho')).congr (List.Perm.refl _) (fun x hx _ => ⟨⟨hx.1.1, fun p hp => ?_⟩, rfl⟩) fun _ h => h
  rcases List.mem_append.mp hp with hp | hp
  · rw [List.mem_singleton.mp hp]; exact hx.2
  · exact hx.1.2 p hp

/-- work on the qubits and temporaries; a temporary that was touched is not among the qubits of the caller -/
theorem bind {m : M β α} {f : α → M β γ} {a : α} {c : γ} {t Q Q' : List ℕ} {T T' : Set (Option ℕ)} (h : Quiet cs m a Q' T) (hQ : Q'.Perm (Q ++ t))
    (h' : QuietT cs (f a) c t Q T') : QuietT cs (m >>= f) c t Q {o | o = none ∧ ∃ q ∈ t, some q ∈ T} := by
  intro s L hs ho
  have hp : (t ++ (cs.flatten ++ Q ++ L)).Perm (cs.flatten ++ Q' ++ L) := by
    rw [List.perm_iff_count]
    intro q
    have := hQ.count_eq q
    simp only [List.count_append] at this ⊢
    omega
  have h1 := (h s L hs (ho.perm hp)).congr (S' := Idle cs ∩ {x | ∀ q ∈ t, x q = false}) hp.symm (fun x hx _ => ⟨hx.1, rfl⟩) fun o h => h
  have h2 := h1.bind (S' := Idle cs ∩ {x | ∀ q ∈ t, x q = false}) (fun x hx _ => On.ket hx) (L2 := cs.flatten ++ Q ++ L) (fun q hq => List.mem_append_right _ hq)
    fun s' hs' ho' => h' s' L (hs'.trans hs) ho'
  have h3 : DoesOn rotAngle (Idle cs ∩ {x | ∀ q ∈ t, x q = false}) (m >>= f) s c (cs.flatten ++ Q ++ L) ket (T ∪ T') :=
    h2.congr (List.Perm.refl _) (fun x hx _ => ⟨hx, lift_ket_ket x⟩) fun _ h => h
  by_cases hq : ∃ q ∈ t, some q ∈ T
  · obtain ⟨q, h4, h5⟩ := hq
    refine (h3.hit_out (q := q) (.inl h5) fun hm => ?_).congr (List.Perm.refl _) (fun x hx _ => ⟨hx, rfl⟩) fun o ho => .inl ho.1
    exact (List.nodup_append.mp ho.left).2.2 q h4 q hm rfl
  · exact h3.congr (List.Perm.refl _) (fun x hx _ => ⟨hx, rfl⟩) fun o ho => absurd ho.2 hq

theorem give {f : Unit → M β γ} {c : γ} {t t1 t2 Q : List ℕ} {T : Set (Option ℕ)} (ht : t1 ≠ []) (hp : t.Perm (t1 ++ t2))
    (h : QuietT cs (f ()) c t2 Q T) : QuietT cs (returnTemp t1 >>= f) c t Q T := by
  intro s L hs ho
  have hp' : (t ++ (cs.flatten ++ Q ++ L)).Perm (t1 ++ (t2 ++ (cs.flatten ++ Q ++ L))) := by
    rw [← List.append_assoc t1]
    exact hp.append_right _
  have h1 := (DoesOn.give (ang := rotAngle) (s := s) ht (ho.perm hp')).congr (S' := Idle cs ∩ {x | ∀ q ∈ t, x q = false}) (List.Perm.refl _)
    (fun x hx _ => ⟨fun q hq => hx.2 q (hp.mem_iff.mpr (List.mem_append_left _ hq)), rfl⟩) (T' := ∅) (by simp)
  have h2 := h1.bind (S' := Idle cs ∩ {x | ∀ q ∈ t2, x q = false})
    (fun x hx _ => On.ket ⟨hx.1, fun q hq => hx.2 q (hp.mem_iff.mpr (List.mem_append_right _ hq))⟩) (L2 := cs.flatten ++ Q ++ L) (fun q hq => List.mem_append_right _ hq)
    fun s' hs' ho' => h s' L (hs'.trans hs) ho'
  exact h2.congr (List.Perm.refl _) (fun x hx _ => ⟨hx, lift_ket_ket x⟩) fun o ho => .inr ho

theorem congr {m : M β α} {a : α} {t Q : List ℕ} {T T' : Set (Option ℕ)} (h : QuietT cs m a t Q T) (hT : ∀ o ∈ T', o ∈ T) : QuietT cs m a t Q T' :=
  fun s L hs ho => (h s L hs ho).congr (List.Perm.refl _) (fun x hx _ => ⟨hx, rfl⟩) hT

theorem end1 {c : γ} {t t1 Q : List ℕ} (ht : t1 ≠ []) (hp : t.Perm t1) :
    QuietT cs (do
      returnTemp t1
      Pure.pure c : M β γ) c t Q ∅ :=
  give (f := fun _ => Pure.pure c) (t2 := []) ht (by rwa [List.append_nil]) (pure c Q)

theorem end2 {c : γ} {t t1 t2 Q : List ℕ} (h1 : t1 ≠ []) (h2 : t2 ≠ []) (hp : t.Perm (t1 ++ t2)) :
    QuietT cs (do
      returnTemp t1
      returnTemp t2
      Pure.pure c : M β γ) c t Q ∅ :=
  give (f := fun _ => do
      returnTemp t2
      Pure.pure c) (t2 := t2) h1 hp (end1 h2 (List.Perm.refl _))

end QuietT

end

end Verif
