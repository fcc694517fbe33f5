import Verif.Proofs.Dedup

/-! # Ownership along all histories, up to repetitions inside a register -/

namespace Verif
open Classical RegOps LawfulReg

/-- what a call does to ownership, registers taken without their repetitions -/
def FairD (m : M LocalBuilder (List Reg)) (args : List Reg) : Prop :=
  ∀ (s : LocalBuilder) (L : List ℕ), (∀ r ∈ args, r ≠ []) → Own s ((args.map dd).flatten ++ L) →
    (∀ out s', m s = .ok out s' → Own s' ((out.map dd).flatten ++ L) ∧ ∀ r ∈ out, r ≠ []) ∧
    (∀ s', m s = .error .error s' → Own s' L)

theorem map_dd_of_nodup {rs : List Reg} (h : rs.flatten.Nodup) : rs.map dd = rs := by
  conv_rhs => rw [← List.map_id rs]
  apply List.map_congr_left
  intro r hr
  rw [List.nodup_flatten] at h
  exact dd_of_nodup (h.1 r hr)

/-- a panic, or a call without repetitions -/
theorem fairD_via {m m' : M LocalBuilder (List Reg)} {args args' : List Reg}
    (h : ∀ (s : LocalBuilder) (L : List ℕ), (∀ r ∈ args, r ≠ []) → Own s ((args.map dd).flatten ++ L) →
      (∃ s', m s = .error .panic s') ∨ m s = m' s)
    (ha : (∀ r ∈ args, r ≠ []) → args'.flatten.Sublist (args.map dd).flatten ∧ ∀ r ∈ args', r ≠ []) (hf : Fair m' args') :
    FairD m args := by
  intro s L hne how
  rcases h s L hne how with ⟨s1, h1⟩ | h1
  · rw [h1]; exact ⟨fun _ _ he => (by cases he), fun _ he => (by cases he)⟩
  · rw [h1]
    obtain ⟨a1, a2⟩ := ha hne
    obtain ⟨f1, f2⟩ := hf s L a2 (how.sub (a1.append_right L))
    refine ⟨fun out s' he => ?_, f2⟩
    obtain ⟨g1, g2⟩ := f1 out s' he
    refine ⟨?_, g2⟩
    rw [map_dd_of_nodup (g1.sub (List.sublist_append_left _ _)).left]
    exact g1

theorem fairD_dd {m m' : M LocalBuilder (List Reg)} {args : List Reg}
    (h : ∀ (s : LocalBuilder) (L : List ℕ), (∀ r ∈ args, r ≠ []) → Own s ((args.map dd).flatten ++ L) →
      (∃ s', m s = .error .panic s') ∨ m s = m' s)
    (hf : Fair m' (args.map dd)) : FairD m args := by
  refine fairD_via h (fun hne => ⟨List.Sublist.refl _, ?_⟩) hf
  intro r hr
  obtain ⟨r', h1, rfl⟩ := List.mem_map.mp hr
  exact dd_ne (hne r' h1)

theorem fairD_eq {m m' : M LocalBuilder (List Reg)} {args : List Reg} (h : (∀ r ∈ args, r ≠ []) → m = m')
    (hf : Fair m' (args.map dd)) : FairD m args :=
  fairD_dd (fun s _ hne _ => .inr (by rw [h hne])) hf

theorem fairD_emits {m : M LocalBuilder (List Reg)} {args out : List Reg} {seg : Pipeline} (h : Emits m out seg)
    (ho : out.map dd = args.map dd) : FairD m args := by
  intro s L hne how
  refine ⟨?_, ?_⟩
  · intro o s' he
    rw [h s] at he
    cases he
    refine ⟨by rw [ho]; exact how.pipe _, ?_⟩
    intro r hr h0
    have : dd r ∈ args.map dd := ho ▸ List.mem_map_of_mem hr
    obtain ⟨r', h1, h2⟩ := List.mem_map.mp this
    rw [h0, dd_nil] at h2
    exact dd_ne (hne r' h1) h2
  · intro s' he
    rw [h s] at he; cases he

theorem fairD_err {m : M LocalBuilder (List Reg)} {args : List Reg} (h : ∀ s, m s = .error .error s) : FairD m args := by
  intro s L _ how
  refine ⟨fun o s' he => ?_, fun s' he => ?_⟩
  · rw [h s] at he; cases he
  · rw [h s] at he; cases he; exact how.tail

theorem fairD_liftE {α : Type} {args : List Reg} (e : Except Fail α) (f : α → List Reg)
    (h : ∀ a, e = .ok a → (∀ r ∈ args, r ≠ []) → (args.map dd).flatten.Nodup →
      ((f a).map dd).flatten.Perm (args.map dd).flatten ∧ ∀ r ∈ f a, r ≠ []) :
    FairD (liftE e >>= fun a => pure (f a)) args := by
  intro s L hne how
  cases e with
  | error e =>
    refine ⟨fun o s' he => (by cases he), fun s' he => ?_⟩
    cases he; exact how.tail
  | ok a =>
    refine ⟨fun o s' he => ?_, fun s' he => (by cases he)⟩
    cases he
    obtain ⟨h1, h2⟩ := h a rfl hne (how.sub (List.sublist_append_left _ _)).left
    exact ⟨how.perm (h1.symm.append_right L), h2⟩

theorem fairD_of {m : M LocalBuilder (List Reg)} {args : List Reg}
    (h : (∀ r ∈ args, r ≠ []) → (args.map dd).flatten.Nodup → FairD m args) : FairD m args := by
  intro s L hne how
  exact h hne (how.sub (List.sublist_append_left _ _)).left s L hne how

theorem FairD.of_eq {m m' : M LocalBuilder (List Reg)} {args : List Reg} (h : FairD m' args) (e : m = m') : FairD m args := e ▸ h

theorem dd_flatten (rs : List Reg) (h : (rs.map dd).flatten.Nodup) : dd rs.flatten = (rs.map dd).flatten := by
  induction rs with
  | nil => exact dd_nil
  | cons r rs ih =>
    rw [List.map_cons, List.flatten_cons] at h
    obtain ⟨-, h2, h3⟩ := List.nodup_append.mp h
    rw [List.flatten_cons, List.map_cons, List.flatten_cons, dd_append, ih h2]
    intro q h1 h4
    refine h3 q (mem_dd.mpr h1) q ?_ rfl
    rw [← ih h2]; exact mem_dd.mpr h4

theorem splitE_ok_dd (r : Reg) (idx : List ℕ) (res : SplitResult) (h : splitE r idx = .ok res) :
    (res.regs.map dd).flatten.Perm (dd r) ∧ ∀ a ∈ res.regs, a ≠ [] := by
  unfold splitE at h
  cases hs : LocalBuilder.selectIndices r idx with
  | none => rw [hs] at h; simp at h
  | some sel =>
    rw [hs] at h
    simp only at h
    have e := selectIndices_spec r idx sel hs
    have hsub : ∀ q ∈ sel, q ∈ r := by
      intro q hq
      rw [e, List.mem_map] at hq
      obtain ⟨i, hi, rfl⟩ := hq
      rw [List.getD_eq_getElem _ _ (by simpa using (List.mem_filter.mp hi).2)]
      exact List.getElem_mem _
    have hp : (dd sel ++ dd (r.filter fun o => !sel.contains o)).Perm (dd r) := by
      rw [List.perm_ext_iff_of_nodup _ (dd_nodup r)]
      · intro a
        simp only [List.mem_append, mem_dd, List.mem_filter, List.contains_eq_mem, Bool.not_eq_true', decide_eq_false_iff_not]
        constructor
        · rintro (h | h)
          · exact hsub a h
          · exact h.1
        · intro h
          by_cases ha : a ∈ sel
          · exact Or.inl ha
          · exact Or.inr ⟨h, ha⟩
      · rw [List.nodup_append]
        refine ⟨dd_nodup _, dd_nodup _, ?_⟩
        intro a ha b hb hab
        subst hab
        rw [mem_dd] at ha hb
        simp at hb
        exact hb.2 ha
    by_cases h1 : sel = []
    · rw [if_pos h1] at h
      split at h
      · cases h
      · rename_i h2
        obtain rfl := Except.ok.inj h
        rw [h1, dd_nil, List.nil_append] at hp
        refine ⟨by simp only [SplitResult.regs, List.map_cons, List.map_nil, List.flatten_cons, List.flatten_nil, List.append_nil, h1]; exact hp, ?_⟩
        simp only [SplitResult.regs, List.mem_singleton, forall_eq]
        exact h2
    · rw [if_neg h1] at h
      split at h
      · rename_i h2
        obtain rfl := Except.ok.inj h
        rw [h2, dd_nil, List.append_nil] at hp
        exact ⟨by simpa [SplitResult.regs] using hp, by simpa [SplitResult.regs] using h1⟩
      · rename_i h2
        obtain rfl := Except.ok.inj h
        refine ⟨by simpa [SplitResult.regs] using hp, ?_⟩
        intro a ha
        simp only [SplitResult.regs, List.mem_cons, List.not_mem_nil, or_false] at ha
        rcases ha with rfl | rfl
        · exact h1
        · exact h2

theorem fairD_split {r : Reg} (idx : List ℕ) (f : SplitResult → M LocalBuilder (List Reg))
    (hf : ∀ res s, splitE r idx = .ok res → f res s = .error .panic s ∨ ∃ o, f res s = .ok o s ∧ o.Perm res.regs) :
    FairD (splitRel r idx >>= f) [r] := by
  intro s L hne how
  rw [splitRel_eq]
  simp only [List.map_cons, List.map_nil, List.flatten_cons, List.flatten_nil, List.append_nil] at how
  cases he : splitE r idx with
  | error e =>
    refine ⟨fun o s' h => (by cases h), fun s' h => ?_⟩
    cases h; exact how.tail
  | ok res =>
    obtain ⟨p1, p2⟩ := splitE_ok_dd r idx res he
    rw [liftE_ok, pure_bind]
    rcases hf res s he with h | ⟨o, h, hp⟩
    · rw [h]; exact ⟨fun _ _ he => (by cases he), fun _ he => (by cases he)⟩
    · rw [h]
      refine ⟨fun o' s' h => ?_, fun s' h => (by cases h)⟩
      cases h
      exact ⟨how.perm ((((hp.map dd).flatten).trans p1).symm.append_right L), fun a ha => p2 a (hp.mem_iff.mp ha)⟩

/-- swap acts on the pairs of distinct qubits -/
theorem swap_dd (a b : Reg) (ha : a ≠ []) (hb : b ≠ []) (hl : a.length = b.length) :
    (swap a b : M LocalBuilder _) = swap ((dd a).take (min (dd a).length (dd b).length)) ((dd b).take (min (dd a).length (dd b).length)) := by
  have ka := dd_ne ha
  have kb := dd_ne hb
  have la := List.length_pos_of_ne_nil ka
  have lb := List.length_pos_of_ne_nil kb
  have na : ((dd a).take (min (dd a).length (dd b).length)) ≠ [] := by
    rw [← List.length_pos_iff_ne_nil, List.length_take]; omega
  have nb : ((dd b).take (min (dd a).length (dd b).length)) ≠ [] := by
    rw [← List.length_pos_iff_ne_nil, List.length_take]; omega
  have hz := List.zip_eq_zip_take_min (l₁ := (dd a).map fun q => [q]) (l₂ := (dd b).map fun q => [q])
  simp only [List.length_map, ← List.map_take] at hz
  unfold swap
  rw [if_pos hl, if_pos (by simp), splitAll_dd a ha, splitAll_dd _ na, splitAll_dd b hb, splitAll_dd _ nb]
  simp only [pure_bind]
  rw [hz, dd_of_nodup ((dd_nodup a).sublist (List.take_sublist _ _)), dd_of_nodup ((dd_nodup b).sublist (List.take_sublist _ _))]

theorem Call.fairD (c : Call) : FairD c.run c.args := by
  cases c with
  | register n => exact fairD_eq (fun _ => rfl) (Call.fair (.register n) trivial)
  | merge a b =>
    refine fairD_of fun hne hn => ?_
    refine FairD.of_eq (fairD_liftE (.ok (a ++ b)) (fun r => [r]) ?_) ?_
    · intro r hr _ _
      cases hr
      have := hne a (by simp [Call.args])
      have e := dd_flatten [a, b] hn
      simp only [List.flatten_cons, List.flatten_nil, List.append_nil] at e
      refine ⟨by simp [Call.args, e], by simp [this]⟩
    · show (do let r ← mergeTwo a b; pure [r]) = _
      rw [mergeTwo_eq _ _ (by simp [hne a (by simp [Call.args])])]
      rfl
  | mergeMany rs =>
    refine fairD_of fun hne hn => ?_
    by_cases hrs : rs = []
    · subst hrs
      exact fairD_emits (out := []) (seg := []) (by exact Emits.pure []) rfl
    · refine FairD.of_eq (fairD_liftE (.ok rs.flatten) (fun r => [r]) ?_) ?_
      · intro r hr _ _
        cases hr
        have e := dd_flatten rs hn
        refine ⟨by simp [Call.args, e], ?_⟩
        cases rs with
        | nil => exact absurd rfl hrs
        | cons a l => have := hne a (by simp [Call.args]); simp [this]
      · show (do let r ← mergeRegisters rs; pure r.toList) = _
        rw [mergeRegisters_ne rs hrs (by simpa [Call.args] using hne)]
        rfl
  | split r idx => exact fairD_split idx _ fun res s _ => .inr ⟨_, rfl, List.Perm.refl _⟩
  | splitAbs r idx => exact fairD_split _ _ fun res s _ => .inr ⟨_, rfl, List.Perm.refl _⟩
  | splitAll r =>
    exact fairD_eq (fun hne => splitAll_dd' r (hne r (by simp [Call.args]))) (Call.fair (.splitAll (dd r)) trivial)
  | splitFirst r =>
    have e : (Call.splitFirst r).run = (splitRel r [0] >>= fun res => do
        let s ← (match res with
          | .selected r => pure (none, r)
          | .split ra rb => pure (some ra, rb)
          | .unselected _ => throw .panic : M LocalBuilder (Option Reg × Reg))
        pure (s.1.toList ++ [s.2])) := by
      show (Verif.splitFirst r >>= _) = _
      unfold Verif.splitFirst
      rw [bind_assoc]
      congr 1
    rw [e]
    refine fairD_split _ _ fun res s _ => ?_
    cases res with
    | selected r => exact .inr ⟨_, rfl, List.Perm.refl _⟩
    | split a b => exact .inr ⟨_, rfl, List.Perm.refl _⟩
    | unselected r => exact .inl rfl
  | splitLast r =>
    by_cases h0 : r = []
    · intro s L hne; exact absurd h0 (hne r (by simp [Call.args]))
    have e : (Call.splitLast r).run = (splitRel r [r.length - 1] >>= fun res => do
        let s ← (match res with
          | .selected r => pure (r, none)
          | .split ra rb => pure (rb, some ra)
          | .unselected _ => throw .panic : M LocalBuilder (Reg × Option Reg))
        pure (s.1 :: s.2.toList)) := by
      show (Verif.splitLast r >>= _) = _
      unfold Verif.splitLast
      rw [if_neg (by simpa using h0)]
      show (splitRel r [r.length - 1] >>= _) >>= _ = _
      rw [bind_assoc]
      congr 1
    rw [e]
    refine fairD_split _ _ fun res s _ => ?_
    cases res with
    | selected r => exact .inr ⟨_, rfl, List.Perm.refl _⟩
    | split a b => exact .inr ⟨_, rfl, List.Perm.swap _ _ _⟩
    | unselected r => exact .inl rfl
  | splitGroups r groups =>
    refine fairD_eq (fun hne => ?_) (Call.fair (.splitGroups (dd r) groups) trivial)
    show (do let s ← Verif.splitGroups r groups; pure s.regs) = (do let s ← Verif.splitGroups (dd r) groups; pure s.regs)
    unfold Verif.splitGroups
    rw [splitAll_dd' r (hne r (by simp [Call.args]))]
  | object r c =>
    by_cases h1 : c.n = 1
    · obtain ⟨n, o⟩ := c
      simp only at h1; subst h1
      refine fairD_eq (fun hne => ?_) (Call.fair (.object (dd r) ⟨1, o⟩) trivial)
      show (do let r ← LocalBuilder.applyCO r ⟨1, o⟩; pure [r]) = (do let r ← LocalBuilder.applyCO (dd r) ⟨1, o⟩; pure [r])
      rw [applyCO_dd r (hne r (by simp [Call.args]))]
    · by_cases h2 : c.n = r.length
      · exact fairD_emits (emits_one (applyCO_n_emits r c h2 h1)) rfl
      · exact fairD_err (err_one (applyCO_err r c h2 h1))
  | named g r =>
    refine fairD_eq (fun hne => ?_) (Call.fair (.named g (dd r)) trivial)
    show (do let r ← g.run r; pure [r]) = (do let r ← g.run (dd r); pure [r])
    rw [named_dd g r (hne r (by simp [Call.args]))]
  | cnot c r =>
    by_cases h1 : 1 < c.length
    · exact fairD_err (err_one (cnot_err c r h1))
    · refine fairD_eq (fun hne => ?_) (Call.fair (.cnot (dd c) (dd r)) trivial)
      obtain ⟨q, rfl⟩ := List.length_eq_one_iff.mp (show c.length = 1 by
        have := List.length_pos_of_ne_nil (hne c (by simp [Call.args])); omega)
      show (do let p ← Verif.cnot [q] r; pure [p.1, p.2]) = (do let p ← Verif.cnot (dd [q]) (dd r); pure [p.1, p.2])
      rw [dd_single, cnot_dd _ r (hne r (by simp [Call.args]))]
  | swap a b =>
    by_cases hl : a.length = b.length
    · refine fairD_via (m' := (Call.swap ((dd a).take (min (dd a).length (dd b).length))
        ((dd b).take (min (dd a).length (dd b).length))).run) (args' := [_, _]) (fun s L hne _ => .inr ?_) ?_
        (Call.fair (.swap _ _) trivial)
      · show (do let p ← Verif.swap a b; pure [p.1, p.2]) s = (do let p ← Verif.swap _ _; pure [p.1, p.2]) s
        rw [swap_dd a b (hne a (by simp [Call.args])) (hne b (by simp [Call.args])) hl]
      · intro hne
        have ka := List.length_pos_of_ne_nil (dd_ne (hne a (by simp [Call.args])))
        have kb := List.length_pos_of_ne_nil (dd_ne (hne b (by simp [Call.args])))
        refine ⟨?_, ?_⟩
        · simp only [Call.args, List.map_cons, List.map_nil, List.flatten_cons, List.flatten_nil, List.append_nil]
          exact (List.take_sublist _ _).append (List.take_sublist _ _)
        · intro r hr
          simp only [List.mem_cons, List.not_mem_nil, or_false] at hr
          rcases hr with rfl | rfl <;> rw [← List.length_pos_iff_ne_nil, List.length_take] <;> omega
    · exact fairD_err (err_one (swap_err a b hl))
  | basicToffoli c r =>
    by_cases hl : c.length = 2
    · obtain ⟨a, b, rfl⟩ := List.length_eq_two.mp hl
      refine fairD_dd (m' := (Call.basicToffoli (dd [a, b]) (dd r)).run) (fun s L hne _ => ?_) (Call.fair (.basicToffoli _ _) trivial)
      by_cases hab : a = b
      · left
        subst hab
        exact ⟨s, bind_err (basicToffoli_same a r s)⟩
      · right
        show (do let p ← Verif.basicToffoli [a, b] r; pure [p.1, p.2]) s =
          (do let p ← Verif.basicToffoli (dd [a, b]) (dd r); pure [p.1, p.2]) s
        rw [dd_of_nodup (r := [a, b]) (by simpa using hab), basicToffoli_dd _ r (hne r (by simp [Call.args]))]
    · exact fairD_err (err_one (basicToffoli_err c r hl))
  | toffoli c r =>
    refine fairD_dd (m' := (Call.toffoli (dd c) (dd r)).run) (fun s L hne how => ?_) (Call.fair (.toffoli _ _) trivial)
    simp only [Call.args, List.map_cons, List.map_nil, List.flatten_cons, List.flatten_nil, List.append_nil] at how
    rcases toffoli_dd c r L s (hne c (by simp [Call.args])) (hne r (by simp [Call.args])) how with ⟨-, s', h⟩ | h
    · exact .inl ⟨s', bind_err h⟩
    · right
      show EStateM.bind _ _ _ = EStateM.bind _ _ _
      unfold EStateM.bind
      rw [h]
  | rz r θ => exact fairD_emits (emits_one (rz_emits r θ)) rfl
  | rx r θ =>
    refine fairD_eq (fun hne => ?_) (Call.fair (.rx (dd r) θ) trivial)
    have hr := hne r (by simp [Call.args])
    show (do let r ← rxDefault LocalBuilder.rz r θ; pure [r]) = (do let r ← rxDefault LocalBuilder.rz (dd r) θ; pure [r])
    unfold rxDefault
    rw [h_dd r hr]
  | ry r θ =>
    refine fairD_eq (fun hne => ?_) (Call.fair (.ry (dd r) θ) trivial)
    have hr := hne r (by simp [Call.args])
    show (do let r ← ryDefault LocalBuilder.rz r θ; pure [r]) = (do let r ← ryDefault LocalBuilder.rz (dd r) θ; pure [r])
    unfold ryDefault
    rw [show (sDagger r : M LocalBuilder Reg) = sDagger (dd r) from named_dd .sDagger r hr]
  | rzPiBy r m =>
    by_cases hm : m = 0
    · subst hm; exact fairD_err (err_one fun s => rfl)
    · exact fairD_emits (emits_one (rzPiBy_emits r m hm)) rfl
  | globalPhase r θ => exact fairD_emits (emits_one (globalPhase_emits r θ)) rfl
  | measure r =>
    intro s L hne how
    refine ⟨fun o s' he => ?_, fun s' he => (by cases he)⟩
    cases he
    exact ⟨⟨how.pool, how.nodup, how.lt⟩, hne⟩
  | measureStochastic r =>
    intro s L hne how
    refine ⟨fun o s' he => ?_, fun s' he => (by cases he)⟩
    cases he
    exact ⟨⟨how.pool, how.nodup, how.lt⟩, hne⟩
  | makeTemp => exact fairD_eq (fun _ => rfl) (Call.fair .makeTemp trivial)
  | returnTemp r =>
    refine fairD_eq (fun hne => ?_) (Call.fair (.returnTemp (dd r)) trivial)
    show (do LocalBuilder.returnTemp r; pure []) = (do LocalBuilder.returnTemp (dd r); pure [])
    unfold LocalBuilder.returnTemp
    rw [splitAll_dd' r (hne r (by simp [Call.args]))]

/-- in every history the registers, taken as sets, and the pool are disjoint -/
theorem Hist.own_dd {allowed : Call → Prop} {s : LocalBuilder} {live : List Reg} (h : Hist allowed s live) :
    Own s (live.map dd).flatten ∧ ∀ r ∈ live, r ≠ [] := by
  induction h with
  | start => exact ⟨⟨by simp [LocalBuilder.default], by simp [LocalBuilder.default], by simp [LocalBuilder.default]⟩, by simp⟩
  | ok c h hc hp hr ih =>
    rename_i s s' live rest out
    obtain ⟨i1, i2⟩ := ih
    have hne : ∀ r ∈ c.args ++ rest, r ≠ [] := fun r hr => i2 r (hp.mem_iff.mpr hr)
    have how : Own s ((c.args.map dd).flatten ++ (rest.map dd).flatten) := by
      rw [← List.flatten_append, ← List.map_append]; exact i1.perm (hp.map dd).flatten
    obtain ⟨g1, g2⟩ := (Call.fairD c s _ (fun r hr => hne r (by simp [hr])) how).1 _ _ hr
    refine ⟨by rwa [List.map_append, List.flatten_append], ?_⟩
    intro r hr
    rcases List.mem_append.mp hr with hr | hr
    · exact g2 r hr
    · exact hne r (by simp [hr])
  | err c h hc hp hr ih =>
    rename_i s s' live rest
    obtain ⟨i1, i2⟩ := ih
    have hne : ∀ r ∈ c.args ++ rest, r ≠ [] := fun r hr => i2 r (hp.mem_iff.mpr hr)
    have how : Own s ((c.args.map dd).flatten ++ (rest.map dd).flatten) := by
      rw [← List.flatten_append, ← List.map_append]; exact i1.perm (hp.map dd).flatten
    exact ⟨(Call.fairD c s _ (fun r hr => hne r (by simp [hr])) how).2 _ hr,
      fun r hr => hne r (by simp [hr])⟩
  | drop h hp ih =>
    obtain ⟨i1, i2⟩ := ih
    have := i1.perm (hp.map dd).flatten
    rw [List.map_cons, List.flatten_cons] at this
    exact ⟨this.tail, fun r hr => i2 r (hp.mem_iff.mpr (by simp [hr]))⟩

/-! ## Conditioned gates -/

theorem bind_congr_at {β α γ : Type} {m m' : M β α} {f : α → M β γ} {s : β} (h : m s = m' s) : (m >>= f) s = (m' >>= f) s := by
  show EStateM.bind _ _ _ = EStateM.bind _ _ _
  unfold EStateM.bind
  rw [h]

theorem condPhase_dd {g : Reg → M LocalBuilder Reg} (cr r L : List ℕ) (s : LocalBuilder) (hc : cr ≠ []) (hr : r ≠ [])
    (ho : Own s (dd cr ++ dd r ++ L)) :
    (¬ (cr ++ r).Nodup ∧ ∃ s', LocalBuilder.condPhase g cr r s = .error .panic s') ∨
      LocalBuilder.condPhase g cr r s = LocalBuilder.condPhase g (dd cr) (dd r) s := by
  have e : dd (cr ++ r) = dd cr ++ dd r := by
    refine dd_append fun q h1 h2 => ?_
    exact (List.nodup_append.mp (List.nodup_append.mp ho.left).1).2.2 q (mem_dd.mpr h1) q (mem_dd.mpr h2) rfl
  unfold LocalBuilder.condPhase
  rw [mergeTwo_eq _ _ (by simp [hc]), mergeTwo_eq _ _ (by simp [dd_ne hc]), pure_bind, pure_bind]
  obtain ⟨t, s1, e1, o1, -⟩ := makeTemp_local ho
  have e1' : (TempBuilder.makeTempQubit : M LocalBuilder Reg) s = .ok [t] s1 := e1
  rw [bind_ok e1', bind_ok e1']
  have o2 : Own s1 (dd (cr ++ r) ++ dd [t] ++ L) := by
    rw [e, dd_single]
    refine o1.perm ?_
    rw [List.append_assoc _ [t] L]
    exact List.perm_middle.symm
  rcases toffoli_dd (cr ++ r) [t] L s1 (by simp [hc]) (by simp) o2 with ⟨h1, s2, h2⟩ | h
  · exact .inl ⟨h1, s2, bind_err h2⟩
  · right
    rw [e, dd_single] at h
    exact bind_congr_at h

theorem condX_dd (cr r L : List ℕ) (s : LocalBuilder) (hc : cr ≠ []) (hr : r ≠ []) (ho : Own s (dd cr ++ dd r ++ L)) (n : ℕ) :
    (¬ (cr ++ r).Nodup ∧ ∃ s', LocalBuilder.tryCond cr r ⟨n, .unitary .X⟩ s = .error .panic s') ∨
      LocalBuilder.tryCond cr r ⟨n, .unitary .X⟩ s = LocalBuilder.tryCond (dd cr) (dd r) ⟨n, .unitary .X⟩ s := by
  rcases toffoli_dd cr r L s hc hr ho with ⟨h1, h2⟩ | h
  · exact .inl ⟨fun h => h1 (List.nodup_append.mp h).1, h2⟩
  · exact .inr h

theorem condZ_dd (cr r L : List ℕ) (s : LocalBuilder) (hc : cr ≠ []) (hr : r ≠ []) (ho : Own s (dd cr ++ dd r ++ L)) (n : ℕ) :
    (¬ (cr ++ r).Nodup ∧ ∃ s', LocalBuilder.tryCond cr r ⟨n, .unitary .Z⟩ s = .error .panic s') ∨
      LocalBuilder.tryCond cr r ⟨n, .unitary .Z⟩ s = LocalBuilder.tryCond (dd cr) (dd r) ⟨n, .unitary .Z⟩ s := by
  unfold LocalBuilder.tryCond
  simp only
  rw [h_dd r hr]
  have h1 := h_emits (dd r) (dd_ne hr) (dd_nodup r) s
  rw [bind_ok h1, bind_ok h1]
  rcases toffoli_dd cr (dd r) L { s with pipeline := s.pipeline ++ each (dd r) .H } hc (dd_ne hr)
    (by rw [dd_dd]; exact ho.pipe _) with ⟨h1, s', h2⟩ | h
  · exact .inl ⟨fun h => h1 (List.nodup_append.mp h).1, s', bind_err h2⟩
  · rw [dd_dd] at h
    exact .inr (bind_congr_at h)

theorem condCnot_dd (cr r L : List ℕ) (s : LocalBuilder) (hc : cr ≠ []) (hr : r.length = 2) (ho : Own s (dd cr ++ dd r ++ L)) (n : ℕ) :
    (¬ (cr ++ r).Nodup ∧ ∃ s', LocalBuilder.tryCond cr r ⟨n, .unitary .CNOT⟩ s = .error .panic s') ∨
      (r.Nodup ∧ LocalBuilder.tryCond cr r ⟨n, .unitary .CNOT⟩ s = LocalBuilder.tryCond (dd cr) (dd r) ⟨n, .unitary .CNOT⟩ s) := by
  obtain ⟨a, b, rfl⟩ := List.length_eq_two.mp hr
  by_cases hab : a = b
  · subst hab
    left
    refine ⟨fun h => by simpa using (List.nodup_append.mp h).2.1, s, ?_⟩
    unfold LocalBuilder.tryCond
    simp only
    rw [if_neg (by simp)]
    have : (splitFirst [a, a] : M LocalBuilder _) = pure (none, [a]) := by
      unfold splitFirst
      rw [splitRel_eq, splitE_head_dd, if_pos (by simp)]
      rfl
    rw [this]
    rfl
  · have hnd : [a, b].Nodup := by simpa using hab
    rw [dd_of_nodup hnd] at ho ⊢
    unfold LocalBuilder.tryCond
    simp only
    rw [if_neg (by simp), splitFirst_eq a [b] hnd (by simp)]
    simp only [pure_bind, unwrapO_some]
    rw [mergeTwo_eq _ _ (by simp), mergeTwo_eq _ _ (by simp), pure_bind, pure_bind]
    have hca : ∀ q ∈ cr, q ∉ [a] := by
      intro q h1 h2
      rw [List.mem_singleton] at h2
      exact (List.nodup_append.mp (List.nodup_append.mp ho.left).1).2.2 q (mem_dd.mpr h1) a (by simp) h2
    have e : dd (cr ++ [a]) = dd cr ++ [a] := by rw [dd_append hca, dd_single]
    have o2 : Own s (dd (cr ++ [a]) ++ dd [b] ++ L) := by
      rw [e, dd_single]
      simpa using ho
    rcases toffoli_dd (cr ++ [a]) [b] L s (by simp) (by simp) o2 with ⟨h1, s', h2⟩ | h
    · refine .inl ⟨fun h => h1 ?_, s', bind_err h2⟩
      exact h.sublist (List.Sublist.append_left (by simp) cr)
    · rw [e, dd_single] at h
      exact .inr ⟨hnd, bind_congr_at h⟩

end Verif
