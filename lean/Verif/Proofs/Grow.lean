import Verif.Proofs.History

/-! # What builder calls add to the circuit -/

namespace Verif
open Classical RegOps CircuitBuilder TempBuilder LawfulReg

/-- `s'` arises from `s` by adding well-formed circuit elements, counting the measurements -/
def Grow (s s' : LocalBuilder) (P : List ℕ × CObj → Prop) : Prop :=
  s.n ≤ s'.n ∧ ∃ seg, s'.pipeline = s.pipeline ++ seg ∧
    (∀ e ∈ seg, EntryOK s'.n e ∧ e.2.n = e.1.length ∧ P e) ∧
    s'.measurements = s.measurements + measCount seg

theorem EntryOK.mono {n m : ℕ} {e : List ℕ × CObj} (h : EntryOK n e) (hm : n ≤ m) : EntryOK m e :=
  ⟨h.1, fun q hq => lt_of_lt_of_le (h.2.1 q hq) hm, h.2.2⟩

theorem measCount_append (p q : Pipeline) : measCount (p ++ q) = measCount p + measCount q := by
  unfold measCount; rw [List.countP_append]

theorem Grow.refl (s : LocalBuilder) (P : List ℕ × CObj → Prop) : Grow s s P := ⟨le_refl _, [], by simp, by simp, by simp [measCount]⟩

theorem Grow.trans {s s1 s2 : LocalBuilder} {P : List ℕ × CObj → Prop} (h : Grow s s1 P) (h' : Grow s1 s2 P) :
    Grow s s2 P := by
  obtain ⟨a1, p, a2, a3, a4⟩ := h
  obtain ⟨b1, q, b2, b3, b4⟩ := h'
  refine ⟨le_trans a1 b1, p ++ q, by rw [b2, a2, List.append_assoc], ?_, by rw [b4, a4, measCount_append, add_assoc]⟩
  intro e he
  rcases List.mem_append.mp he with he | he
  · exact ⟨(a3 e he).1.mono b1, (a3 e he).2⟩
  · exact b3 e he

/-- a gate other than a global phase, or any element if `g` does not hold -/
def Gatey (g : Prop) (e : List ℕ × CObj) : Prop := g → ∃ u, e.2.object = .unitary u ∧ ∀ ρ, u ≠ .GlobalPhase ρ

theorem measCount_unitary (seg : Pipeline) (h : ∀ e ∈ seg, ∃ u, e.2.object = .unitary u) : measCount seg = 0 := by
  unfold measCount
  rw [List.countP_eq_zero]
  intro e he
  obtain ⟨u, hu⟩ := h e he
  simp [isMeas, hu]

/-- all ways a call can end without a panic -/
def Grows (m : M LocalBuilder (List Reg)) (args : List Reg) (g : Prop) : Prop :=
  ∀ (s : LocalBuilder) (L : List ℕ), (∀ r ∈ args, r ≠ []) → Own s (args.flatten ++ L) →
    (∀ out s', m s = .ok out s' → Grow s s' (Gatey g)) ∧ (∀ s', m s = .error .error s' → Grow s s' (Gatey g))

theorem grows_emits {m : M LocalBuilder (List Reg)} {args out : List Reg} {seg : Pipeline} {g : Prop} (h : Emits m out seg)
    (hs : ∀ (s : LocalBuilder) (L : List ℕ), Own s L → (∀ q ∈ args.flatten, q ∈ L) → ∀ e ∈ seg, SegU s.n e ∧ ∀ q ∈ e.1, q ∈ L) :
    Grows m args g := by
  intro s L hne how
  refine ⟨?_, ?_⟩
  · intro o s' he
    rw [h s] at he
    cases he
    have := hs s _ how (fun q hq => by simp [hq])
    refine ⟨le_refl _, seg, rfl, fun e he => ⟨(this e he).1.1.1, (this e he).1.1.2.1, fun _ => (this e he).1.1.2.2⟩, ?_⟩
    rw [measCount_unitary seg fun e he => ⟨_, ((this e he).1.1.2.2.choose_spec).1⟩]; rfl
  · intro s' he
    rw [h s] at he; cases he

theorem grows_state {m : M LocalBuilder (List Reg)} {args : List Reg} {g : Prop}
    (h : ∀ s L, (∀ r ∈ args, r ≠ []) → Own s (args.flatten ++ L) →
      (∀ out s', m s = .ok out s' → s'.n ≥ s.n ∧ s'.pipeline = s.pipeline ∧ s'.measurements = s.measurements) ∧
      (∀ s', m s = .error .error s' → s' = s)) : Grows m args g := by
  intro s L hne how
  obtain ⟨h1, h2⟩ := h s L hne how
  refine ⟨fun out s' he => ?_, fun s' he => ?_⟩
  · obtain ⟨a, b, c⟩ := h1 out s' he
    exact ⟨a, [], by simp [b], by simp, by simp [c, measCount]⟩
  · rw [h2 s' he]; exact Grow.refl _ _

theorem grows_err {m : M LocalBuilder (List Reg)} {args : List Reg} {g : Prop} (h : ∀ s, m s = .error .error s) :
    Grows m args g := by
  intro s L _ how
  refine ⟨fun o s' he => ?_, fun s' he => ?_⟩
  · rw [h s] at he; cases he
  · rw [h s] at he; cases he; exact Grow.refl _ _

theorem grows_liftE {α : Type} {args : List Reg} {g : Prop} (e : Except Fail α) (f : α → List Reg) :
    Grows (liftE e >>= fun a => pure (f a)) args g := by
  intro s L hne how
  cases e with
  | error e =>
    refine ⟨fun o s' he => (by cases he), fun s' he => ?_⟩
    cases he; exact Grow.refl _ _
  | ok a =>
    refine ⟨fun o s' he => ?_, fun s' he => (by cases he)⟩
    cases he
    exact Grow.refl _ _

theorem Grows.of_eq {m m' : M LocalBuilder (List Reg)} {args : List Reg} {g : Prop} (h : Grows m' args g) (e : m = m') :
    Grows m args g := e ▸ h

theorem grows_of {m : M LocalBuilder (List Reg)} {args : List Reg} {g : Prop}
    (h : (∀ r ∈ args, r ≠ []) → args.flatten.Nodup → Grows m args g) : Grows m args g := by
  intro s L hne how
  exact h hne (how.sub (List.sublist_append_left _ _)).left s L hne how

theorem segOK_one {b : LocalBuilder} {L : List ℕ} (h : Own b L) (r : Reg) (hn : r.Nodup) (hr : ∀ q ∈ r, q ∈ L) (u : UObj)
    (hu : u.Shape r.length) (hg : (∀ ρ, u ≠ .GlobalPhase ρ) ∧ ∀ d, u ≠ .MAT d) (k : ℕ) (hk : k = r.length) :
    ∀ e ∈ [((r, ⟨k, .unitary u⟩) : List ℕ × CObj)], SegU b.n e ∧ ∀ q ∈ e.1, q ∈ L := by
  intro e he
  rw [List.mem_singleton] at he
  subst he
  refine ⟨⟨⟨⟨hn, fun q hq => h.mem_lt (hr q hq), ?_⟩, hk, u, rfl, hg.1⟩, fun d hd => absurd (by simpa using hd) (hg.2 d)⟩, hr⟩
  intro v hv
  cases hv
  exact hu

theorem Call.grows (c : Call) (hc : c.NoRepeat) (hs : c.Sized) : Grows c.run c.args c.Gates := by
  cases c with
  | register n =>
    refine grows_state fun s L _ how => ?_
    by_cases hn : n = 0
    · subst hn
      have e : (Call.register 0).run s = .error .panic s := rfl
      refine ⟨fun o s' he => (by rw [e] at he; cases he), fun s' he => (by rw [e] at he; cases he)⟩
    · have e : (Call.register n).run s = .ok [List.range' s.n n] { s with n := s.n + n } := by
        have h1 : Reg.new (List.range' s.n n) = some (List.range' s.n n) := by
          unfold Reg.new; rw [if_neg (by simpa using hn)]
        have : (LocalBuilder.register n) s = .ok (List.range' s.n n) { s with n := s.n + n } := by
          unfold LocalBuilder.register
          rw [bind_ok (get_run s), h1]; rfl
        show (do let r ← LocalBuilder.register n; pure [r]) s = _
        rw [bind_ok this]; rfl
      refine ⟨fun o s' he => ?_, fun s' he => by rw [e] at he; cases he⟩
      rw [e] at he
      cases he
      exact ⟨by simp, rfl, rfl⟩
  | merge a b =>
    refine grows_of fun hne hn => ?_
    refine Grows.of_eq (grows_liftE (.ok (a ++ b)) (fun r => [r])) ?_
    show (do let r ← mergeTwo a b; pure [r]) = _
    rw [mergeTwo_eq _ _ (by simp [hne a (by simp [Call.args])])]
    rfl
  | mergeMany rs =>
    refine grows_of fun hne hn => ?_
    by_cases hrs : rs = []
    · subst hrs
      exact grows_emits (out := []) (seg := []) (by exact Emits.pure []) (by simp)
    · refine Grows.of_eq (grows_liftE (.ok rs.flatten) (fun r => [r])) ?_
      show (do let r ← mergeRegisters rs; pure r.toList) = _
      rw [mergeRegisters_ne rs hrs (by simpa [Call.args] using hne)]
      rfl
  | split r idx =>
    refine Grows.of_eq (grows_liftE (splitE r idx) SplitResult.regs) ?_
    show (do let s ← splitRel r idx; pure s.regs) = _
    rw [splitRel_eq]
  | splitAbs r idx =>
    refine Grows.of_eq (grows_liftE (splitE r (idx.filterMap fun a => r.find? (fun i => i == a))) SplitResult.regs) ?_
    show (do let s ← Verif.splitAbs r idx; pure s.regs) = _
    unfold Verif.splitAbs
    rw [splitRel_eq]
  | splitAll r =>
    refine grows_of fun hne hn => ?_
    have hr := hne r (by simp [Call.args])
    simp only [Call.args, List.flatten_cons, List.flatten_nil, List.append_nil] at hn
    refine Grows.of_eq (grows_liftE (.ok (r.map fun q => [q])) id) ?_
    show (Verif.splitAll r) = _
    rw [splitAll_eq r hr hn]; rfl
  | splitFirst r =>
    refine grows_of fun hne hn => ?_
    have hr := hne r (by simp [Call.args])
    simp only [Call.args, List.flatten_cons, List.flatten_nil, List.append_nil] at hn
    match r, hr with
    | [q], _ =>
      refine Grows.of_eq (grows_liftE (.ok [[q]]) id) ?_
      show (do let s ← Verif.splitFirst [q]; pure (s.1.toList ++ [s.2])) = _
      rw [splitFirst_single]; rfl
    | q :: p :: b, _ =>
      refine Grows.of_eq (grows_liftE (.ok [[q], p :: b]) id) ?_
      show (do let s ← Verif.splitFirst (q :: p :: b); pure (s.1.toList ++ [s.2])) = _
      rw [splitFirst_eq q (p :: b) hn (by simp)]; rfl
  | splitLast r =>
    refine grows_of fun hne hn => ?_
    have hr := hne r (by simp [Call.args])
    simp only [Call.args, List.flatten_cons, List.flatten_nil, List.append_nil] at hn
    rcases List.eq_nil_or_concat r with rfl | ⟨b, q, rfl⟩
    · exact absurd rfl hr
    · rw [List.concat_eq_append] at *
      by_cases hb : b = []
      · subst hb
        refine Grows.of_eq (grows_liftE (.ok [[q]]) id) ?_
        show (do let s ← Verif.splitLast [q]; pure (s.1 :: s.2.toList)) = _
        rw [splitLast_single]; rfl
      · refine Grows.of_eq (grows_liftE (.ok [b, [q]]) id) ?_
        show (do let s ← Verif.splitLast (b ++ [q]); pure (s.1 :: s.2.toList)) = _
        rw [splitLast_eq b q hn hb]; rfl
  | splitGroups r groups =>
    refine grows_state fun s L hne how => ?_
    have hr := hne r (by simp [Call.args])
    have hn : r.Nodup := by
      have := (how.sub (List.sublist_append_left _ _)).left
      simpa [Call.args] using this
    have e : (Call.splitGroups r groups).run = (do let s ← Verif.splitGroups r groups; pure s.regs) := rfl
    cases hs : (Verif.splitGroups r groups) s with
    | error e1 s1 =>
      rw [e, bind_err hs]
      refine ⟨fun o s' he => by (cases he), fun s' he => ?_⟩
      have hs1 : s1 = s := splitGroups_err_state r groups hr hn s s1 e1 hs
      cases he
      exact hs1
    | ok res s1 =>
      rw [e, bind_ok hs]
      refine ⟨fun o s' he => ?_, fun s' he => by (cases he)⟩
      obtain ⟨h0, h1, h2⟩ := splitGroups_perm r groups hr hn s s1 res hs
      cases he
      rw [h0]
      exact ⟨le_refl _, rfl, rfl⟩
  | object r c =>
    refine grows_of fun hne hn => ?_
    have hr := hne r (by simp [Call.args])
    simp only [Call.args, List.flatten_cons, List.flatten_nil, List.append_nil] at hn
    obtain ⟨u, hu, hsh⟩ := hs
    obtain ⟨n, o⟩ := c
    simp only at hu hsh
    subst hu
    have gen : ∀ seg : Pipeline, (Emits (LocalBuilder.applyCO r ⟨n, .unitary u⟩) r seg) →
        (∀ e ∈ seg, e.1.Nodup ∧ (∀ q ∈ e.1, q ∈ r) ∧ n = e.1.length ∧ e.2 = ⟨n, .unitary u⟩) →
        Grows (Call.object r ⟨n, .unitary u⟩).run [r] (Call.object r ⟨n, .unitary u⟩).Gates := by
      intro seg h1 h2 s L hne how
      have h3 := emits_one h1 s
      refine ⟨fun o s' he => ?_, fun s' he => ?_⟩
      · have he' : (do let r ← LocalBuilder.applyCO r ⟨n, .unitary u⟩; pure [r]) s = .ok o s' := he
        rw [h3] at he'
        cases he'
        refine ⟨le_refl _, seg, rfl, ?_, ?_⟩
        · intro e he
          obtain ⟨a1, a2, a3, a4⟩ := h2 e he
          refine ⟨⟨a1, ?_, ?_⟩, by rw [a4, ← a3], ?_⟩
          · intro q hq
            exact how.mem_lt (by simp [a2 q hq])
          · intro v hv
            rw [a4] at hv; cases hv; rw [← a3]; exact hsh
          · intro hg
            refine ⟨u, by rw [a4], fun ρ hρ => hg ρ (by rw [hρ])⟩
        · rw [measCount_unitary seg fun e he => ⟨u, by rw [(h2 e he).2.2.2]⟩]; rfl
      · have he' : (do let r ← LocalBuilder.applyCO r ⟨n, .unitary u⟩; pure [r]) s = .error .error s' := he
        rw [h3] at he'
        cases he'
    by_cases h1 : n = 1
    · subst h1
      refine gen _ (applyCO_one_emits r hr hn _) ?_
      intro e he
      simp only [List.mem_map] at he
      obtain ⟨q, hq, rfl⟩ := he
      exact ⟨by simp, by simpa using hq, rfl, rfl⟩
    · by_cases h2 : n = r.length
      · refine gen _ (applyCO_n_emits r _ h2 h1) ?_
        intro e he
        rw [List.mem_singleton] at he
        subst he
        exact ⟨hn, fun q hq => hq, h2, rfl⟩
      · exact grows_err (err_one (applyCO_err r _ h2 h1))
  | named g r =>
    refine grows_of fun hne hn => ?_
    have hr := hne r (by simp [Call.args])
    simp only [Call.args, List.flatten_cons, List.flatten_nil, List.append_nil] at hn
    have se : ∀ u : UObj, u.Shape 1 → ((∀ ρ, u ≠ .GlobalPhase ρ) ∧ ∀ d, u ≠ .MAT d) → ∀ (s : LocalBuilder) (L : List ℕ), Own s L →
        (∀ q ∈ [r].flatten, q ∈ L) → ∀ e ∈ each r u, SegU s.n e ∧ ∀ q ∈ e.1, q ∈ L := by
      intro u hu hg s L how hL
      exact segOK_each how r (by simpa using hL) u hu hg
    cases g
    · exact grows_emits (emits_one (x_emits r hr hn)) (se _ rfl (by simp))
    · exact grows_emits (emits_one (y_emits r hr hn)) (se _ rfl (by simp))
    · exact grows_emits (emits_one (z_emits r hr hn)) (se _ rfl (by simp))
    · exact grows_emits (emits_one (h_emits r hr hn)) (se _ rfl (by simp))
    · exact grows_emits (emits_one (s_emits r hr hn)) (se _ rfl (by simp))
    · exact grows_emits (emits_one (t_emits r hr hn)) (se _ rfl (by simp))
    · exact grows_emits (emits_one (sDagger_emits r hr hn)) fun s L h1 h2 =>
        segOK_append (se .Z rfl (by simp) s L h1 h2) (se .S rfl (by simp) s L h1 h2)
    · exact grows_emits (emits_one (tDagger_emits r hr hn)) fun s L h1 h2 =>
        segOK_append (segOK_append (se .Z rfl (by simp) s L h1 h2) (se .S rfl (by simp) s L h1 h2))
          (se .T rfl (by simp) s L h1 h2)
  | cnot c r =>
    refine grows_of fun hne hn => ?_
    have hc := hne c (by simp [Call.args])
    have hr := hne r (by simp [Call.args])
    simp only [Call.args, List.flatten_cons, List.flatten_nil, List.append_nil] at hn
    by_cases h1 : 1 < c.length
    · exact grows_err (err_one (cnot_err c r h1))
    · obtain ⟨q, rfl⟩ := List.length_eq_one_iff.mp (show c.length = 1 by
        have := List.length_pos_of_ne_nil hc; omega)
      exact grows_emits (emits_two (cnot_emits q r hr hn)) fun s L h1 h2 =>
        segOK_cnots h1 q r (List.nodup_cons.mp hn).1 (by simpa [Call.args] using h2)
  | swap a b =>
    refine grows_of fun hne hn => ?_
    have ha := hne a (by simp [Call.args])
    simp only [Call.args, List.flatten_cons, List.flatten_nil, List.append_nil] at hn
    by_cases hl : a.length = b.length
    · refine grows_emits (emits_two (swap_emits a b hl ha hn)) fun s L h1 h2 => ?_
      intro e he
      unfold swapSeg at he
      rw [List.mem_flatten] at he
      obtain ⟨l, hl', he⟩ := he
      simp only [List.mem_map, Prod.exists] at hl'
      obtain ⟨p, q, hpq, rfl⟩ := hl'
      obtain ⟨hp, hq⟩ := List.of_mem_zip hpq
      have hne : p ≠ q := (List.nodup_append.mp hn).2.2 p hp q hq
      have hpL : p ∈ L := h2 p (by simp [Call.args, hp])
      have hqL : q ∈ L := h2 q (by simp [Call.args, hq])
      have i1 := segOK_cnots h1 p [q] (by simpa using hne) (by simp [hpL, hqL])
      have i2 := segOK_cnots h1 q [p] (by simpa using hne.symm) (by simp [hpL, hqL])
      exact segOK_append i1 (segOK_append i2 i1) e he
    · exact grows_err (err_one (swap_err a b hl))
  | basicToffoli c r =>
    refine grows_of fun hne hn => ?_
    have hr := hne r (by simp [Call.args])
    simp only [Call.args, List.flatten_cons, List.flatten_nil, List.append_nil] at hn
    by_cases hl : c.length = 2
    · obtain ⟨a, b, rfl⟩ := List.length_eq_two.mp hl
      exact grows_emits (emits_two (basicToffoli_emits a b r hr hn)) fun s L h1 h2 =>
        segOK_toffoli h1 a b r hn (by simpa [Call.args] using h2)
    · exact grows_err (err_one (basicToffoli_err c r hl))
  | toffoli c r =>
    intro s L hne how
    have hc := hne c (by simp [Call.args])
    have hr := hne r (by simp [Call.args])
    simp only [Call.args, List.flatten_cons, List.flatten_nil, List.append_nil] at how
    obtain ⟨s1, h1, _, h3, h4⟩ := toffoli_does (fun _ => 0) c r L s hc hr how
    have e : (Call.toffoli c r).run s = .ok [c, r] s1 := by
      show (do let p ← Verif.toffoli c r; pure [p.1, p.2]) s = _
      rw [bind_ok h1]; rfl
    refine ⟨fun o s' he => ?_, fun s' he => by rw [e] at he; cases he⟩
    rw [e] at he
    cases he
    obtain ⟨seg, q1, q2, -⟩ := h4.seg
    refine ⟨h4.n_le, seg, q1, fun e he => ⟨(q2 e he).1.1, (q2 e he).1.2.1, fun _ => (q2 e he).1.2.2⟩, ?_⟩
    rw [measCount_unitary seg fun e he => ⟨_, ((q2 e he).1.2.2.choose_spec).1⟩]
    exact h4.meas
  | rz r θ =>
    refine grows_of fun hne hn => ?_
    simp only [Call.args, List.flatten_cons, List.flatten_nil, List.append_nil] at hn
    exact grows_emits (emits_one (rz_emits r θ)) fun s L h1 h2 =>
      segOK_one h1 r hn (by simpa [Call.args] using h2) (.Rz _) hs (by simp) _ rfl
  | rx r θ =>
    refine grows_of fun hne hn => ?_
    have hr := hne r (by simp [Call.args])
    simp only [Call.args, List.flatten_cons, List.flatten_nil, List.append_nil] at hn
    refine grows_emits (emits_one (rx_emits r hr hn _ _ (rz_emits r θ))) fun s L h1 h2 => ?_
    have h2' : ∀ q ∈ r, q ∈ L := by simpa [Call.args] using h2
    exact segOK_append (segOK_each h1 r h2' .H rfl (by simp)) (segOK_append (segOK_one h1 r hn h2' (.Rz _) hs (by simp) _ rfl)
      (segOK_each h1 r h2' .H rfl (by simp)))
  | ry r θ =>
    refine grows_of fun hne hn => ?_
    have hr := hne r (by simp [Call.args])
    simp only [Call.args, List.flatten_cons, List.flatten_nil, List.append_nil] at hn
    refine grows_emits (emits_one (ry_emits r hr hn _ _ (rz_emits r (-θ)))) fun s L h1 h2 => ?_
    have h2' : ∀ q ∈ r, q ∈ L := by simpa [Call.args] using h2
    exact segOK_append (segOK_append (segOK_each h1 r h2' .Z rfl (by simp)) (segOK_each h1 r h2' .S rfl (by simp)))
      (segOK_append (segOK_each h1 r h2' .H rfl (by simp)) (segOK_append (segOK_one h1 r hn h2' (.Rz _) hs (by simp) _ rfl)
      (segOK_append (segOK_each h1 r h2' .H rfl (by simp)) (segOK_each h1 r h2' .S rfl (by simp)))))
  | rzPiBy r m =>
    refine grows_of fun hne hn => ?_
    simp only [Call.args, List.flatten_cons, List.flatten_nil, List.append_nil] at hn
    by_cases hm : m = 0
    · subst hm; exact grows_err (err_one fun s => rfl)
    · exact grows_emits (emits_one (rzPiBy_emits r m hm)) fun s L h1 h2 =>
        segOK_one h1 r hn (by simpa [Call.args] using h2) (.Rz _) hs (by simp) _ rfl
  | globalPhase r θ =>
    intro s L hne how
    have e := emits_one (globalPhase_emits r θ) s
    have hn : r.Nodup := by
      have := (how.sub (List.sublist_append_left _ _)).left
      simpa [Call.args] using this
    refine ⟨fun o s' he => ?_, fun s' he => ?_⟩
    · have he' : (do let r ← LocalBuilder.applyGlobalPhase r θ; pure [r]) s = .ok o s' := he
      rw [e] at he'
      cases he'
      refine ⟨le_refl _, _, rfl, ?_, rfl⟩
      intro e he
      rw [List.mem_singleton] at he
      subst he
      refine ⟨⟨hn, fun q hq => how.mem_lt (by simp [Call.args]; exact Or.inl hq), ?_⟩, rfl, fun h => h.elim⟩
      intro u hu
      cases hu
      exact List.length_pos_of_ne_nil (hne r (by simp [Call.args]))
    · have he' : (do let r ← LocalBuilder.applyGlobalPhase r θ; pure [r]) s = .error .error s' := he
      rw [e] at he'
      cases he'
  | measure r =>
    intro s L hne how
    have hn : r.Nodup := by
      have := (how.sub (List.sublist_append_left _ _)).left
      simpa [Call.args] using this
    refine ⟨fun o s' he => ?_, fun s' he => (by cases he)⟩
    cases he
    refine ⟨le_refl _, _, rfl, ?_, rfl⟩
    intro e he
    rw [List.mem_singleton] at he
    subst he
    exact ⟨⟨hn, fun q hq => how.mem_lt (by simp [Call.args]; exact Or.inl hq), fun u hu => by cases hu⟩, rfl, fun h => h.elim⟩
  | measureStochastic r =>
    intro s L hne how
    have hn : r.Nodup := by
      have := (how.sub (List.sublist_append_left _ _)).left
      simpa [Call.args] using this
    refine ⟨fun o s' he => ?_, fun s' he => (by cases he)⟩
    cases he
    refine ⟨le_refl _, _, rfl, ?_, rfl⟩
    intro e he
    rw [List.mem_singleton] at he
    subst he
    exact ⟨⟨hn, fun q hq => how.mem_lt (by simp [Call.args]; exact Or.inl hq), fun u hu => by cases hu⟩, rfl, fun h => h.elim⟩
  | makeTemp =>
    refine grows_state fun s L hne how => ?_
    simp only [Call.args, List.flatten_nil, List.nil_append] at how
    obtain ⟨t, s1, h1, h2, h3, h4, h5, _⟩ := makeTemp_local how
    have e : Call.makeTemp.run s = .ok [[t]] s1 := by
      show (do let r ← LocalBuilder.makeTempQubit; pure [r]) s = _
      rw [bind_ok h1]; rfl
    refine ⟨fun o s' he => ?_, fun s' he => by rw [e] at he; cases he⟩
    rw [e] at he
    cases he
    exact ⟨h4, h3, h5⟩
  | returnTemp r =>
    refine grows_state fun s L hne how => ?_
    have hr := hne r (by simp [Call.args])
    simp only [Call.args, List.flatten_cons, List.flatten_nil, List.append_nil] at how
    have hn : r.Nodup := (how.sub (List.sublist_append_left _ _)).left
    have e : (Call.returnTemp r).run s = .ok [] { s with zeroedQubits := s.zeroedQubits ++ r.map fun q => [q] } := by
      have : LocalBuilder.returnTemp r s = .ok () { s with zeroedQubits := s.zeroedQubits ++ r.map fun q => [q] } := by
        unfold LocalBuilder.returnTemp
        rw [splitAll_eq r hr hn]; rfl
      show (do LocalBuilder.returnTemp r; pure []) s = _
      rw [bind_ok this]; rfl
    refine ⟨fun o s' he => ?_, fun s' he => by rw [e] at he; cases he⟩
    rw [e] at he
    cases he
    exact ⟨le_refl _, rfl, rfl⟩

/-! ## histories -/

theorem Later.hist {allowed : Call → Prop} {s0 s : LocalBuilder} {l0 live : List Reg} (h0 : Hist allowed s0 l0)
    (h : Later allowed s0 l0 s live) : Hist allowed s live := by
  induction h with
  | start => exact h0
  | ok c _ a b d ih => exact Hist.ok c ih a b d
  | err c _ a b d ih => exact Hist.err c ih a b d
  | drop _ b ih => exact Hist.drop ih b

theorem Hist.mono {A B : Call → Prop} (hAB : ∀ c, A c → B c) {s : LocalBuilder} {live : List Reg} (h : Hist A s live) :
    Hist B s live := by
  induction h with
  | start => exact .start
  | ok c _ a b d ih => exact Hist.ok c ih (hAB c a) b d
  | err c _ a b d ih => exact Hist.err c ih (hAB c a) b d
  | drop _ b ih => exact Hist.drop ih b

theorem Hist.step {allowed : Call → Prop} (hA : ∀ c, allowed c → c.NoRepeat ∧ c.Sized) (g : Prop)
    (hg : ∀ c, allowed c → g → c.Gates) {s : LocalBuilder} {live rest : List Reg} (h : Hist allowed s live) (c : Call)
    (hc : allowed c) (hp : live.Perm (c.args ++ rest)) :
    (∀ out s', c.run s = .ok out s' → Grow s s' (Gatey g)) ∧ (∀ s', c.run s = .error .error s' → Grow s s' (Gatey g)) := by
  obtain ⟨i1, i2⟩ := (h.mono (B := Call.NoRepeat) fun c hc => (hA c hc).1).own
  have hne : ∀ r ∈ c.args ++ rest, r ≠ [] := fun r hr => i2 r (hp.mem_iff.mpr hr)
  have how : Own s (c.args.flatten ++ rest.flatten) := by
    rw [← List.flatten_append]; exact i1.perm hp.flatten
  obtain ⟨h1, h2⟩ := Call.grows c (hA c hc).1 (hA c hc).2 s rest.flatten (fun r hr => hne r (by simp [hr])) how
  have w : ∀ s', Grow s s' (Gatey c.Gates) → Grow s s' (Gatey g) := by
    rintro s' ⟨a, seg, b, d, e⟩
    exact ⟨a, seg, b, fun e he => ⟨(d e he).1, (d e he).2.1, fun hgg => (d e he).2.2 (hg c hc hgg)⟩, e⟩
  exact ⟨fun out s' he => w _ (h1 out s' he), fun s' he => w _ (h2 s' he)⟩

theorem Later.grow {allowed : Call → Prop} (hA : ∀ c, allowed c → c.NoRepeat ∧ c.Sized) (g : Prop)
    (hg : ∀ c, allowed c → g → c.Gates) {s0 s : LocalBuilder} {l0 live : List Reg} (h0 : Hist allowed s0 l0)
    (h : Later allowed s0 l0 s live) : Grow s0 s (Gatey g) := by
  induction h with
  | start => exact Grow.refl _ _
  | ok c h a b d ih => exact ih.trans ((Hist.step hA g hg (h.hist h0) c a b).1 _ _ d)
  | err c h a b d ih => exact ih.trans ((Hist.step hA g hg (h.hist h0) c a b).2 _ d)
  | drop _ _ ih => exact ih

theorem Hist.later {allowed : Call → Prop} {s : LocalBuilder} {live : List Reg} (h : Hist allowed s live) :
    Later allowed LocalBuilder.default [] s live := by
  induction h with
  | start => exact .start
  | ok c _ a b d ih => exact Later.ok c ih a b d
  | err c _ a b d ih => exact Later.err c ih a b d
  | drop _ b ih => exact Later.drop ih b

theorem Hist.grow {allowed : Call → Prop} (hA : ∀ c, allowed c → c.NoRepeat ∧ c.Sized) (g : Prop)
    (hg : ∀ c, allowed c → g → c.Gates) {s : LocalBuilder} {live : List Reg} (h : Hist allowed s live) :
    Grow LocalBuilder.default s (Gatey g) := Later.grow hA g hg .start h.later

end Verif
