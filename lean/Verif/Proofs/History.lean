import Verif.Spec.History
import Verif.Proofs.Emit2
import Verif.Proofs.Toffoli

/-! # Ownership along histories -/

namespace Verif
open RegOps LawfulReg

theorem selectIndices_spec (r : Reg) (idx sel : List ℕ) (h : LocalBuilder.selectIndices r idx = some sel) :
    sel = (idx.filter fun i => i < r.length).map (fun i => r.getD i 0) := by
  induction idx generalizing sel with
  | nil => simp [LocalBuilder.selectIndices] at h; simp [h]
  | cons i idx ih =>
    rw [LocalBuilder.selectIndices] at h
    by_cases hi : i ≤ r.length
    · rw [if_pos hi] at h
      cases hx : r[i]? with
      | none => simp [hx] at h
      | some x =>
        have hlt := (List.getElem?_eq_some_iff.mp hx).1
        cases hs : LocalBuilder.selectIndices r idx with
        | none => simp [hx, hs] at h
        | some xs =>
          simp [hx, hs] at h
          rw [← h, ih xs hs, List.filter_cons_of_pos (by simpa using hlt)]
          simp [hx]
    · rw [if_neg hi] at h
      rw [ih sel h, List.filter_cons_of_neg (by simp; omega)]

theorem map_getD_nodup (r : Reg) (hr : r.Nodup) (l : List ℕ) (hl : l.Nodup) (hlt : ∀ i ∈ l, i < r.length) :
    (l.map fun i => r.getD i 0).Nodup := by
  apply List.Nodup.map_on _ hl
  intro i hi j hj he
  have h1 := hlt i hi
  have h2 := hlt j hj
  simp only [List.getD_eq_getElem _ _ h1, List.getD_eq_getElem _ _ h2] at he
  exact (List.Nodup.getElem_inj_iff hr).mp he

theorem perm_split_filter (r sel : Reg) (hr : r.Nodup) (hs : sel.Nodup) (hsub : ∀ q ∈ sel, q ∈ r) :
    (sel ++ r.filter fun o => !sel.contains o).Perm r := by
  rw [List.perm_ext_iff_of_nodup _ hr]
  · intro a
    simp only [List.mem_append, List.mem_filter, List.contains_eq_mem, Bool.not_eq_true', decide_eq_false_iff_not]
    constructor
    · rintro (h | h)
      · exact hsub a h
      · exact h.1
    · intro h
      by_cases ha : a ∈ sel
      · exact Or.inl ha
      · exact Or.inr ⟨h, ha⟩
  · rw [List.nodup_append]
    refine ⟨hs, hr.filter _, ?_⟩
    intro a ha b hb hab
    subst hab
    simp at hb
    exact hb.2 ha

theorem splitE_ok_perm (r : Reg) (idx : List ℕ) (hr : r.Nodup) (hi : idx.Nodup) (res : SplitResult)
    (h : splitE r idx = .ok res) : res.regs.flatten.Perm r ∧ ∀ a ∈ res.regs, a ≠ [] := by
  unfold splitE at h
  cases hs : LocalBuilder.selectIndices r idx with
  | none => rw [hs] at h; simp at h
  | some sel =>
    rw [hs] at h
    simp only at h
    have e := selectIndices_spec r idx sel hs
    have hlt : ∀ i ∈ idx.filter (fun i => i < r.length), i < r.length := by
      intro i hi; simpa using (List.mem_filter.mp hi).2
    have hnd : sel.Nodup := by rw [e]; exact map_getD_nodup r hr _ (hi.filter _) hlt
    have hsub : ∀ q ∈ sel, q ∈ r := by
      intro q hq
      rw [e, List.mem_map] at hq
      obtain ⟨i, hi, rfl⟩ := hq
      rw [List.getD_eq_getElem _ _ (hlt i hi)]
      exact List.getElem_mem _
    have hp := perm_split_filter r sel hr hnd hsub
    by_cases h1 : sel = []
    · rw [if_pos h1] at h
      split at h
      · cases h
      · rename_i h2
        obtain rfl := Except.ok.inj h
        rw [h1] at hp
        simp only [List.nil_append] at hp
        refine ⟨by simp only [SplitResult.regs, List.flatten_cons, List.flatten_nil, List.append_nil, h1]; exact hp, ?_⟩
        simp only [SplitResult.regs, List.mem_singleton, forall_eq]
        exact h2
    · rw [if_neg h1] at h
      split at h
      · rename_i h2
        obtain rfl := Except.ok.inj h
        rw [h2, List.append_nil] at hp
        exact ⟨by simpa [SplitResult.regs] using hp, by simpa [SplitResult.regs] using h1⟩
      · rename_i h2
        obtain rfl := Except.ok.inj h
        refine ⟨by simpa [SplitResult.regs] using hp, ?_⟩
        intro a ha
        simp only [SplitResult.regs, List.mem_cons, List.not_mem_nil, or_false] at ha
        rcases ha with rfl | rfl
        · exact h1
        · exact h2

theorem takeMany_perm (is : List ℕ) : ∀ (slots : List (Option Reg)) (rs : List Reg) (slots' : List (Option Reg)),
    takeMany slots is = .ok (rs, slots') → (rs ++ slots'.filterMap id).Perm (slots.filterMap id) := by
  induction is with
  | nil => intro slots rs slots' h; simp [takeMany] at h; obtain ⟨rfl, rfl⟩ := h; simp
  | cons i is ih =>
    intro slots rs slots' h
    rw [takeMany] at h
    cases hs : slots[i]? with
    | none => rw [hs] at h; simp at h
    | some o =>
      cases o with
      | none => rw [hs] at h; simp at h
      | some r =>
        rw [hs] at h
        simp only at h
        cases ht : takeMany (slots.set i none) is with
        | error e => rw [ht] at h; simp [bind, Except.bind] at h
        | ok p =>
          obtain ⟨rs1, sl1⟩ := p
          rw [ht] at h
          simp only [bind, Except.bind, Except.ok.injEq, Prod.mk.injEq] at h
          obtain ⟨rfl, rfl⟩ := h
          have := ih _ _ _ ht
          obtain ⟨hlt, hget⟩ := List.getElem?_eq_some_iff.mp hs
          have hset : slots.set i none = slots.take i ++ none :: slots.drop (i + 1) := List.set_eq_take_append_cons_drop .. |>.trans (by rw [if_pos hlt])
          have horig : slots = slots.take i ++ some r :: slots.drop (i + 1) := by
            rw [← hget]; simp
          rw [hset] at this
          rw [horig]
          simp only [List.filterMap_append, List.filterMap_cons, id] at this ⊢
          rw [List.cons_append]
          exact (this.cons r).trans List.perm_middle.symm

theorem groupsFold_perm (groups : List (List ℕ)) (β : Type) [RegOps β] [LawfulReg β] :
    ∀ (acc : List Reg × List (Option Reg)) (s : β) (out : List Reg × List (Option Reg)) (s' : β),
      (∀ r ∈ acc.2.filterMap id, r ≠ []) → (∀ r ∈ acc.1, r ≠ []) →
      (groups.foldlM (fun (acc : List Reg × List (Option Reg)) is => do
        let (subrs, slots) ← liftE (takeMany acc.2 is)
        let m ← mergeRegisters subrs
        pure (acc.1 ++ m.toList, slots)) acc : M β _) s = .ok out s' →
      s' = s ∧ (out.1.flatten ++ (out.2.filterMap id).flatten).Perm (acc.1.flatten ++ (acc.2.filterMap id).flatten) ∧
        (∀ r ∈ out.2.filterMap id, r ≠ []) ∧ (∀ r ∈ out.1, r ≠ []) := by
  induction groups with
  | nil => intro acc s out s' h1 h2 h; cases h; exact ⟨rfl, List.Perm.refl _, h1, h2⟩
  | cons g groups ih =>
    intro acc s out s' h1 h2 h
    rw [List.foldlM_cons] at h
    cases ht : takeMany acc.2 g with
    | error e =>
      rw [ht] at h
      simp only [liftE_error] at h
      rw [bind_err (bind_err (throw_run e s))] at h
      cases h
    | ok p =>
      obtain ⟨subrs, slots⟩ := p
      have hp := takeMany_perm _ _ _ _ ht
      have hne : ∀ r ∈ subrs ++ slots.filterMap id, r ≠ [] := fun r hr => h1 r (hp.mem_iff.mp hr)
      have hm : ∃ m : Option Reg, (mergeRegisters subrs : M β _) = pure m ∧ m.toList.flatten = subrs.flatten ∧ ∀ r ∈ m.toList, r ≠ [] := by
        by_cases hs : subrs = []
        · subst hs; exact ⟨none, rfl, rfl, by simp⟩
        · refine ⟨_, mergeRegisters_ne subrs hs (fun r hr => hne r (by simp [hr])), by simp, ?_⟩
          simp only [Option.toList_some, List.mem_singleton, forall_eq]
          cases subrs with
          | nil => exact absurd rfl hs
          | cons a l => have := hne a (by simp); simp [this]
      obtain ⟨m, hm1, hm2, hm3⟩ := hm
      rw [ht] at h
      simp only [liftE_ok, pure_bind, hm1] at h
      obtain ⟨g1, g2, g3, g4⟩ := ih _ s out s' (fun r hr => hne r (by simp at hr ⊢; exact Or.inr hr)) (by
        intro r hr
        rcases List.mem_append.mp hr with hr | hr
        · exact h2 r hr
        · exact hm3 r hr) h
      refine ⟨g1, g2.trans ?_, g3, g4⟩
      simp only [List.flatten_append, hm2, List.append_assoc]
      apply List.Perm.append_left
      have := hp.flatten
      rwa [List.flatten_append] at this

theorem groupsFold_err (groups : List (List ℕ)) (β : Type) [RegOps β] [LawfulReg β] :
    ∀ (acc : List Reg × List (Option Reg)) (s : β) (e : Fail) (s' : β),
      (∀ r ∈ acc.2.filterMap id, r ≠ []) →
      (groups.foldlM (fun (acc : List Reg × List (Option Reg)) is => do
        let (subrs, slots) ← liftE (takeMany acc.2 is)
        let m ← mergeRegisters subrs
        pure (acc.1 ++ m.toList, slots)) acc : M β _) s = .error e s' → s' = s := by
  induction groups with
  | nil => intro acc s e s' _ h; cases h
  | cons g groups ih =>
    intro acc s e s' h1 h
    rw [List.foldlM_cons] at h
    cases ht : takeMany acc.2 g with
    | error e1 =>
      rw [ht] at h
      simp only [liftE_error] at h
      rw [bind_err (bind_err (throw_run e1 s))] at h
      cases h; rfl
    | ok p =>
      obtain ⟨subrs, slots⟩ := p
      have hp := takeMany_perm _ _ _ _ ht
      have hne : ∀ r ∈ subrs ++ slots.filterMap id, r ≠ [] := fun r hr => h1 r (hp.mem_iff.mp hr)
      have hm : ∃ m : Option Reg, (mergeRegisters subrs : M β _) = pure m := by
        by_cases hs : subrs = []
        · subst hs; exact ⟨none, rfl⟩
        · exact ⟨_, mergeRegisters_ne subrs hs (fun r hr => hne r (by simp [hr]))⟩
      obtain ⟨m, hm1⟩ := hm
      rw [ht] at h
      simp only [liftE_ok, pure_bind, hm1] at h
      exact ih _ s e s' (fun r hr => hne r (by simp at hr ⊢; exact Or.inr hr)) h

theorem splitGroups_err_state (r : Reg) (groups : List (List ℕ)) (hr : r ≠ []) (hn : r.Nodup) {β : Type} [RegOps β]
    [LawfulReg β] (s s' : β) (e : Fail) (h : splitGroups r groups s = .error e s') : s' = s := by
  unfold splitGroups at h
  rw [splitAll_eq r hr hn] at h
  simp only [pure_bind] at h
  set F : M β (List Reg × List (Option Reg)) := groups.foldlM (fun (acc : List Reg × List (Option Reg)) is => do
        let (subrs, slots) ← liftE (takeMany acc.2 is)
        let m ← mergeRegisters subrs
        pure (acc.1 ++ m.toList, slots)) ([], (r.map fun q => [q]).map some) with hF
  cases hf : F s with
  | error e s1 =>
    rw [bind_err hf] at h; cases h
    exact groupsFold_err groups β _ s e _ (by simp) (hF ▸ hf)
  | ok out s1 =>
    rw [bind_ok hf] at h
    obtain ⟨rfl, g2, g3, g4⟩ := groupsFold_perm groups β _ s out s1 (by simp) (by simp) (hF ▸ hf)
    by_cases hr : out.2.filterMap id = []
    · rw [hr, mergeRegisters_nil, pure_bind] at h
      cases h
    · rw [mergeRegisters_ne _ hr g3, pure_bind] at h
      cases h

theorem splitGroups_perm (r : Reg) (groups : List (List ℕ)) (hr : r ≠ []) (hn : r.Nodup) {β : Type} [RegOps β]
    [LawfulReg β] (s s' : β) (res : SplitManyResult) (h : splitGroups r groups s = .ok res s') :
    s' = s ∧ res.regs.flatten.Perm r ∧ ∀ a ∈ res.regs, a ≠ [] := by
  unfold splitGroups at h
  rw [splitAll_eq r hr hn] at h
  simp only [pure_bind] at h
  set F : M β (List Reg × List (Option Reg)) := groups.foldlM (fun (acc : List Reg × List (Option Reg)) is => do
        let (subrs, slots) ← liftE (takeMany acc.2 is)
        let m ← mergeRegisters subrs
        pure (acc.1 ++ m.toList, slots)) ([], (r.map fun q => [q]).map some) with hF
  cases hf : F s with
  | error e s1 => rw [bind_err hf] at h; cases h
  | ok out s1 =>
    rw [bind_ok hf] at h
    have := groupsFold_perm groups β _ s out s1 (by simp) (by simp) (hF ▸ hf)
    obtain ⟨rfl, g2, g3, g4⟩ := this
    have e : ∀ l : List Reg, (l.map some).filterMap id = l := by
      intro l; induction l <;> simp_all
    rw [List.flatten_nil, List.nil_append, e, flatten_singles] at g2
    by_cases hr : out.2.filterMap id = []
    · rw [hr, mergeRegisters_nil, pure_bind] at h
      cases h
      rw [hr] at g2
      refine ⟨rfl, by simpa [SplitManyResult.regs] using g2, g4⟩
    · rw [mergeRegisters_ne _ hr g3, pure_bind] at h
      cases h
      refine ⟨rfl, by simpa [SplitManyResult.regs] using g2, ?_⟩
      intro a ha
      simp only [SplitManyResult.regs, List.mem_append, List.mem_singleton] at ha
      rcases ha with ha | rfl
      · exact g4 a ha
      · cases hc : out.2.filterMap id with
        | nil => exact absurd hc hr
        | cons b l =>
          have := g3 b (by rw [hc]; simp)
          simp [this]

/-- what a call does to ownership -/
def Fair (m : M LocalBuilder (List Reg)) (args : List Reg) : Prop :=
  ∀ (s : LocalBuilder) (L : List ℕ), (∀ r ∈ args, r ≠ []) → Own s (args.flatten ++ L) →
    (∀ out s', m s = .ok out s' → Own s' (out.flatten ++ L) ∧ ∀ r ∈ out, r ≠ []) ∧
    (∀ s', m s = .error .error s' → Own s' L)

/-- a call that leaves the qubits alone, adding circuit elements at most -/
theorem fair_emits {m : M LocalBuilder (List Reg)} {args out : List Reg} {seg : Pipeline} (h : Emits m out seg)
    (ho : out = args) : Fair m args := by
  subst ho
  intro s L hne how
  refine ⟨?_, ?_⟩
  · intro o s' he
    rw [h s] at he
    cases he
    exact ⟨how.pipe _, hne⟩
  · intro s' he
    rw [h s] at he; cases he

theorem Own.tail {s : LocalBuilder} {A L : List ℕ} (h : Own s (A ++ L)) : Own s L := h.sub (List.sublist_append_right _ _)

theorem fair_err {m : M LocalBuilder (List Reg)} {args : List Reg} (h : ∀ s, m s = .error .error s) : Fair m args := by
  intro s L _ how
  refine ⟨fun o s' he => ?_, fun s' he => ?_⟩
  · rw [h s] at he; cases he
  · rw [h s] at he; cases he; exact how.tail

/-- pure regrouping of the qubits -/
theorem fair_liftE {α : Type} {args : List Reg} (e : Except Fail α) (f : α → List Reg)
    (h : ∀ a, e = .ok a → (∀ r ∈ args, r ≠ []) → args.flatten.Nodup → (f a).flatten.Perm args.flatten ∧ ∀ r ∈ f a, r ≠ []) :
    Fair (liftE e >>= fun a => pure (f a)) args := by
  intro s L hne how
  cases e with
  | error e =>
    refine ⟨fun o s' he => (by cases he), fun s' he => ?_⟩
    cases he; exact how.tail
  | ok a =>
    refine ⟨fun o s' he => ?_, fun s' he => (by cases he)⟩
    cases he
    obtain ⟨h1, h2⟩ := h a rfl hne (how.sub (List.sublist_append_left _ _)).left
    exact ⟨how.perm (h1.symm.append_right L), h2⟩

theorem Fair.of_eq {m m' : M LocalBuilder (List Reg)} {args : List Reg} (h : Fair m' args) (e : m = m') : Fair m args := e ▸ h

/-- enough to show it for usable arguments -/
theorem fair_of {m : M LocalBuilder (List Reg)} {args : List Reg}
    (h : (∀ r ∈ args, r ≠ []) → args.flatten.Nodup → Fair m args) : Fair m args := by
  intro s L hne how
  exact h hne (how.sub (List.sublist_append_left _ _)).left s L hne how

theorem emits_one {m : M LocalBuilder Reg} {r : Reg} {seg : Pipeline} (h : Emits m r seg) :
    Emits (do let r ← m; pure [r]) [r] seg := Emits.cast (Emits.bind h (Emits.pure _)) rfl (by simp)

theorem emits_two {m : M LocalBuilder (Reg × Reg)} {a b : Reg} {seg : Pipeline} (h : Emits m (a, b) seg) :
    Emits (do let p ← m; pure [p.1, p.2]) [a, b] seg := Emits.cast (Emits.bind h (Emits.pure _)) rfl (by simp)

theorem err_one {α : Type} {m : M LocalBuilder α} {f : α → M LocalBuilder (List Reg)} (h : ∀ s, m s = .error .error s) :
    ∀ s, (m >>= f) s = .error .error s := fun s => bind_err (h s)

theorem find_filterMap_nodup (r : Reg) (idx : List ℕ) (hi : idx.Nodup) :
    (idx.filterMap fun a => r.find? (fun i => i == a)).Nodup := by
  apply List.Nodup.filterMap _ hi
  intro a a' b hb hb'
  have h1 := List.find?_some (Option.mem_def.mp hb)
  have h2 := List.find?_some (Option.mem_def.mp hb')
  simp at h1 h2
  exact h1.symm.trans h2

theorem Call.fair (c : Call) (hc : c.NoRepeat) : Fair c.run c.args := by
  cases c with
  | register n =>
    intro s L _ how
    simp only [Call.args, List.flatten_nil, List.nil_append] at how
    by_cases hn : n = 0
    · subst hn
      have e : (Call.register 0).run s = .error .panic s := rfl
      refine ⟨fun o s' he => (by rw [e] at he; cases he), fun s' he => (by rw [e] at he; cases he)⟩
    · have hne : List.range' s.n n ≠ [] := by simp [hn]
      have e : (Call.register n).run s = .ok [List.range' s.n n] { s with n := s.n + n } := by
        have h1 : Reg.new (List.range' s.n n) = some (List.range' s.n n) := by
          unfold Reg.new; rw [if_neg (by simpa using hn)]
        have : (LocalBuilder.register n) s = .ok (List.range' s.n n) { s with n := s.n + n } := by
          unfold LocalBuilder.register
          rw [bind_ok (get_run s), h1]; rfl
        show (do let r ← LocalBuilder.register n; pure [r]) s = _
        rw [bind_ok this]; rfl
      refine ⟨fun o s' he => ?_, fun s' he => by rw [e] at he; cases he⟩
      rw [e] at he
      cases he
      refine ⟨⟨how.pool, ?_, ?_⟩, by simpa using hn⟩
      · simp only [List.flatten_cons, List.flatten_nil, List.append_nil, List.append_assoc]
        rw [List.nodup_append]
        refine ⟨List.nodup_range', how.nodup, ?_⟩
        intro a ha b hb hab
        have := how.lt b hb
        rw [List.mem_range'_1] at ha
        omega
      · intro q hq
        simp only [List.flatten_cons, List.flatten_nil, List.append_nil, List.append_assoc] at hq
        rcases List.mem_append.mp hq with hq | hq
        · rw [List.mem_range'_1] at hq; exact hq.2
        · have := how.lt q hq; simp only; omega
  | merge a b =>
    refine fair_of fun hne hn => ?_
    refine Fair.of_eq (fair_liftE (.ok (a ++ b)) (fun r => [r]) ?_) ?_
    · intro r hr _ _
      cases hr
      have := hne a (by simp [Call.args])
      refine ⟨by simp [Call.args], by simp [this]⟩
    · show (do let r ← mergeTwo a b; pure [r]) = _
      rw [mergeTwo_eq _ _ (by simp [hne a (by simp [Call.args])])]
      rfl
  | mergeMany rs =>
    refine fair_of fun hne hn => ?_
    by_cases hrs : rs = []
    · subst hrs
      exact fair_emits (out := []) (seg := []) (by exact Emits.pure []) rfl
    · refine Fair.of_eq (fair_liftE (.ok rs.flatten) (fun r => [r]) ?_) ?_
      · intro r hr _ _
        cases hr
        refine ⟨by simp [Call.args], ?_⟩
        cases rs with
        | nil => exact absurd rfl hrs
        | cons a l => have := hne a (by simp [Call.args]); simp [this]
      · show (do let r ← mergeRegisters rs; pure r.toList) = _
        rw [mergeRegisters_ne rs hrs (by simpa [Call.args] using hne)]
        rfl
  | split r idx =>
    refine Fair.of_eq (fair_liftE (splitE r idx) SplitResult.regs ?_) ?_
    · intro a ha _ hn
      simp only [Call.args, List.flatten_cons, List.flatten_nil, List.append_nil] at hn ⊢
      exact splitE_ok_perm r idx hn hc a ha
    · show (do let s ← splitRel r idx; pure s.regs) = _
      rw [splitRel_eq]
  | splitAbs r idx =>
    refine Fair.of_eq (fair_liftE (splitE r (idx.filterMap fun a => r.find? (fun i => i == a))) SplitResult.regs ?_) ?_
    · intro a ha _ hn
      simp only [Call.args, List.flatten_cons, List.flatten_nil, List.append_nil] at hn ⊢
      exact splitE_ok_perm r _ hn (find_filterMap_nodup r idx hc) a ha
    · show (do let s ← Verif.splitAbs r idx; pure s.regs) = _
      unfold Verif.splitAbs
      rw [splitRel_eq]
  | splitAll r =>
    refine fair_of fun hne hn => ?_
    have hr := hne r (by simp [Call.args])
    simp only [Call.args, List.flatten_cons, List.flatten_nil, List.append_nil] at hn
    refine Fair.of_eq (fair_liftE (.ok (r.map fun q => [q])) id ?_) ?_
    · intro a ha _ _
      cases ha
      simp only [id, Call.args, List.flatten_cons, List.flatten_nil, List.append_nil]
      rw [flatten_singles]
      exact ⟨List.Perm.refl _, by simp⟩
    · show (Verif.splitAll r) = _
      rw [splitAll_eq r hr hn]; rfl
  | splitFirst r =>
    refine fair_of fun hne hn => ?_
    have hr := hne r (by simp [Call.args])
    simp only [Call.args, List.flatten_cons, List.flatten_nil, List.append_nil] at hn
    match r, hr with
    | [q], _ =>
      refine Fair.of_eq (fair_liftE (.ok [[q]]) id ?_) ?_
      · intro a ha _ _; cases ha; exact ⟨by simp [Call.args], by simp⟩
      · show (do let s ← Verif.splitFirst [q]; pure (s.1.toList ++ [s.2])) = _
        rw [splitFirst_single]; rfl
    | q :: p :: b, _ =>
      refine Fair.of_eq (fair_liftE (.ok [[q], p :: b]) id ?_) ?_
      · intro a ha _ _; cases ha; exact ⟨by simp [Call.args], by simp⟩
      · show (do let s ← Verif.splitFirst (q :: p :: b); pure (s.1.toList ++ [s.2])) = _
        rw [splitFirst_eq q (p :: b) hn (by simp)]; rfl
  | splitLast r =>
    refine fair_of fun hne hn => ?_
    have hr := hne r (by simp [Call.args])
    simp only [Call.args, List.flatten_cons, List.flatten_nil, List.append_nil] at hn
    rcases List.eq_nil_or_concat r with rfl | ⟨b, q, rfl⟩
    · exact absurd rfl hr
    · rw [List.concat_eq_append] at *
      by_cases hb : b = []
      · subst hb
        refine Fair.of_eq (fair_liftE (.ok [[q]]) id ?_) ?_
        · intro a ha _ _; cases ha; exact ⟨by simp [Call.args], by simp⟩
        · show (do let s ← Verif.splitLast [q]; pure (s.1 :: s.2.toList)) = _
          rw [splitLast_single]; rfl
      · refine Fair.of_eq (fair_liftE (.ok [b, [q]]) id ?_) ?_
        · intro a ha _ _; cases ha; exact ⟨by simp [Call.args], by simp [hb]⟩
        · show (do let s ← Verif.splitLast (b ++ [q]); pure (s.1 :: s.2.toList)) = _
          rw [splitLast_eq b q hn hb]; rfl
  | splitGroups r groups =>
    intro s L hne how
    have hr := hne r (by simp [Call.args])
    have hn : r.Nodup := by
      have := (how.sub (List.sublist_append_left _ _)).left
      simpa [Call.args] using this
    have e : (Call.splitGroups r groups).run = (do let s ← Verif.splitGroups r groups; pure s.regs) := rfl
    cases hs : (Verif.splitGroups r groups) s with
    | error e1 s1 =>
      rw [e, bind_err hs]
      refine ⟨fun o s' he => by (cases he), fun s' he => ?_⟩
      have hs1 : s1 = s := splitGroups_err_state r groups hr hn s s1 e1 hs
      cases he
      rw [hs1]; exact how.tail
    | ok res s1 =>
      rw [e, bind_ok hs]
      refine ⟨fun o s' he => ?_, fun s' he => by (cases he)⟩
      obtain ⟨h0, h1, h2⟩ := splitGroups_perm r groups hr hn s s1 res hs
      cases he
      rw [h0]
      refine ⟨how.perm ?_, h2⟩
      apply List.Perm.append_right
      simpa [Call.args] using h1.symm
  | object r c =>
    refine fair_of fun hne hn => ?_
    have hr := hne r (by simp [Call.args])
    simp only [Call.args, List.flatten_cons, List.flatten_nil, List.append_nil] at hn
    by_cases h1 : c.n = 1
    · obtain ⟨n, o⟩ := c
      simp only at h1; subst h1
      exact fair_emits (emits_one (applyCO_one_emits r hr hn o)) rfl
    · by_cases h2 : c.n = r.length
      · exact fair_emits (emits_one (applyCO_n_emits r c h2 h1)) rfl
      · exact fair_err (err_one (applyCO_err r c h2 h1))
  | named g r =>
    refine fair_of fun hne hn => ?_
    have hr := hne r (by simp [Call.args])
    simp only [Call.args, List.flatten_cons, List.flatten_nil, List.append_nil] at hn
    cases g
    · exact fair_emits (emits_one (x_emits r hr hn)) rfl
    · exact fair_emits (emits_one (y_emits r hr hn)) rfl
    · exact fair_emits (emits_one (z_emits r hr hn)) rfl
    · exact fair_emits (emits_one (h_emits r hr hn)) rfl
    · exact fair_emits (emits_one (s_emits r hr hn)) rfl
    · exact fair_emits (emits_one (t_emits r hr hn)) rfl
    · exact fair_emits (emits_one (sDagger_emits r hr hn)) rfl
    · exact fair_emits (emits_one (tDagger_emits r hr hn)) rfl
  | cnot c r =>
    refine fair_of fun hne hn => ?_
    have hc := hne c (by simp [Call.args])
    have hr := hne r (by simp [Call.args])
    simp only [Call.args, List.flatten_cons, List.flatten_nil, List.append_nil] at hn
    by_cases h1 : 1 < c.length
    · exact fair_err (err_one (cnot_err c r h1))
    · obtain ⟨q, rfl⟩ := List.length_eq_one_iff.mp (show c.length = 1 by
        have := List.length_pos_of_ne_nil hc; omega)
      exact fair_emits (emits_two (cnot_emits q r hr hn)) rfl
  | swap a b =>
    refine fair_of fun hne hn => ?_
    have ha := hne a (by simp [Call.args])
    simp only [Call.args, List.flatten_cons, List.flatten_nil, List.append_nil] at hn
    by_cases hl : a.length = b.length
    · exact fair_emits (emits_two (swap_emits a b hl ha hn)) rfl
    · exact fair_err (err_one (swap_err a b hl))
  | basicToffoli c r =>
    refine fair_of fun hne hn => ?_
    have hr := hne r (by simp [Call.args])
    simp only [Call.args, List.flatten_cons, List.flatten_nil, List.append_nil] at hn
    by_cases hl : c.length = 2
    · obtain ⟨a, b, rfl⟩ := List.length_eq_two.mp hl
      exact fair_emits (emits_two (basicToffoli_emits a b r hr hn)) rfl
    · exact fair_err (err_one (basicToffoli_err c r hl))
  | toffoli c r =>
    intro s L hne how
    have hc := hne c (by simp [Call.args])
    have hr := hne r (by simp [Call.args])
    simp only [Call.args, List.flatten_cons, List.flatten_nil, List.append_nil] at how
    obtain ⟨s1, h1, _, h3, _⟩ := toffoli_does (fun _ => 0) c r L s hc hr how
    have e : (Call.toffoli c r).run s = .ok [c, r] s1 := by
      show (do let p ← Verif.toffoli c r; pure [p.1, p.2]) s = _
      rw [bind_ok h1]; rfl
    refine ⟨fun o s' he => ?_, fun s' he => by rw [e] at he; cases he⟩
    rw [e] at he
    cases he
    have h3 : Own s1 (c ++ r ++ L) := h3
    exact ⟨by simpa using h3, by simp [hc, hr]⟩
  | rz r θ => exact fair_emits (emits_one (rz_emits r θ)) rfl
  | rx r θ =>
    refine fair_of fun hne hn => ?_
    have hr := hne r (by simp [Call.args])
    simp only [Call.args, List.flatten_cons, List.flatten_nil, List.append_nil] at hn
    exact fair_emits (emits_one (rx_emits r hr hn _ _ (rz_emits r θ))) rfl
  | ry r θ =>
    refine fair_of fun hne hn => ?_
    have hr := hne r (by simp [Call.args])
    simp only [Call.args, List.flatten_cons, List.flatten_nil, List.append_nil] at hn
    exact fair_emits (emits_one (ry_emits r hr hn _ _ (rz_emits r (-θ)))) rfl
  | rzPiBy r m =>
    by_cases hm : m = 0
    · subst hm; exact fair_err (err_one fun s => rfl)
    · exact fair_emits (emits_one (rzPiBy_emits r m hm)) rfl
  | globalPhase r θ => exact fair_emits (emits_one (globalPhase_emits r θ)) rfl
  | measure r =>
    intro s L hne how
    refine ⟨fun o s' he => ?_, fun s' he => (by cases he)⟩
    cases he
    exact ⟨⟨how.pool, how.nodup, how.lt⟩, hne⟩
  | measureStochastic r =>
    intro s L hne how
    refine ⟨fun o s' he => ?_, fun s' he => (by cases he)⟩
    cases he
    exact ⟨⟨how.pool, how.nodup, how.lt⟩, hne⟩
  | makeTemp =>
    intro s L hne how
    simp only [Call.args, List.flatten_nil, List.nil_append] at how
    obtain ⟨t, s1, h1, h2, _⟩ := makeTemp_local how
    have e : Call.makeTemp.run s = .ok [[t]] s1 := by
      show (do let r ← LocalBuilder.makeTempQubit; pure [r]) s = _
      rw [bind_ok h1]; rfl
    refine ⟨fun o s' he => ?_, fun s' he => by rw [e] at he; cases he⟩
    rw [e] at he
    cases he
    exact ⟨by simpa using h2, by simp⟩
  | returnTemp r =>
    intro s L hne how
    have hr := hne r (by simp [Call.args])
    simp only [Call.args, List.flatten_cons, List.flatten_nil, List.append_nil] at how
    have hn : r.Nodup := (how.sub (List.sublist_append_left _ _)).left
    have e : (Call.returnTemp r).run s = .ok [] { s with zeroedQubits := s.zeroedQubits ++ r.map fun q => [q] } := by
      have : LocalBuilder.returnTemp r s = .ok () { s with zeroedQubits := s.zeroedQubits ++ r.map fun q => [q] } := by
        unfold LocalBuilder.returnTemp
        rw [splitAll_eq r hr hn]; rfl
      show (do LocalBuilder.returnTemp r; pure []) s = _
      rw [bind_ok this]; rfl
    refine ⟨fun o s' he => ?_, fun s' he => by rw [e] at he; cases he⟩
    rw [e] at he
    cases he
    have hp : (r ++ L ++ s.zeroedQubits.flatten).Perm (L ++ (s.zeroedQubits.flatten ++ r)) := by
      rw [List.append_assoc]
      refine List.perm_append_comm.trans ?_
      rw [List.append_assoc]
    refine ⟨⟨?_, ?_, ?_⟩, by simp⟩
    · intro a ha
      rcases List.mem_append.mp ha with ha | ha
      · exact how.pool a ha
      · simp at ha; obtain ⟨_, _, rfl⟩ := ha; rfl
    · simp only [List.flatten_nil, List.nil_append, List.flatten_append, flatten_singles]
      exact hp.nodup_iff.mp how.nodup
    · intro q hq
      simp only [List.flatten_nil, List.nil_append, List.flatten_append, flatten_singles] at hq
      exact how.lt q (hp.mem_iff.mpr hq)

theorem Hist.own {s : LocalBuilder} {live : List Reg} (h : Hist Call.NoRepeat s live) :
    Own s live.flatten ∧ ∀ r ∈ live, r ≠ [] := by
  induction h with
  | start => exact ⟨⟨by simp [LocalBuilder.default], by simp [LocalBuilder.default], by simp [LocalBuilder.default]⟩, by simp⟩
  | ok c h hc hp hr ih =>
    rename_i s s' live rest out
    obtain ⟨i1, i2⟩ := ih
    have hne : ∀ r ∈ c.args ++ rest, r ≠ [] := fun r hr => i2 r (hp.mem_iff.mpr hr)
    have how : Own s (c.args.flatten ++ rest.flatten) := by
      rw [← List.flatten_append]; exact i1.perm hp.flatten
    obtain ⟨g1, g2⟩ := (Call.fair c hc s rest.flatten (fun r hr => hne r (by simp [hr])) how).1 _ _ hr
    refine ⟨by rwa [List.flatten_append], ?_⟩
    intro r hr
    rcases List.mem_append.mp hr with hr | hr
    · exact g2 r hr
    · exact hne r (by simp [hr])
  | err c h hc hp hr ih =>
    rename_i s s' live rest
    obtain ⟨i1, i2⟩ := ih
    have hne : ∀ r ∈ c.args ++ rest, r ≠ [] := fun r hr => i2 r (hp.mem_iff.mpr hr)
    have how : Own s (c.args.flatten ++ rest.flatten) := by
      rw [← List.flatten_append]; exact i1.perm hp.flatten
    exact ⟨(Call.fair c hc s rest.flatten (fun r hr => hne r (by simp [hr])) how).2 _ hr,
      fun r hr => hne r (by simp [hr])⟩
  | drop h hp ih =>
    obtain ⟨i1, i2⟩ := ih
    have := i1.perm hp.flatten
    rw [List.flatten_cons] at this
    exact ⟨this.tail, fun r hr => i2 r (hp.mem_iff.mpr (by simp [hr]))⟩

end Verif
