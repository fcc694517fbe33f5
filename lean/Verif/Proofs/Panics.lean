import Verif.Spec.Panics
import Verif.Proofs.Grow
import Verif.Proofs.Groups
import Verif.Proofs.Rows

/-! # Calls that panic -/

namespace Verif
open Classical RegOps CircuitBuilder TempBuilder LawfulReg

theorem takeMany_bad (r : Reg) (is : List ℕ) : ∀ (used : List ℕ), ¬ (is.Nodup ∧ ∀ i ∈ is, i < r.length ∧ i ∉ used) →
    takeMany (slotsOf r used) is = .error .panic := by
  induction is with
  | nil => intro used h; simp at h
  | cons i is ih =>
    intro used h
    by_cases h1 : i < r.length ∧ i ∉ used
    · have hs : (slotsOf r used)[i]? = some (some [r.getD i 0]) := by
        unfold slotsOf
        rw [List.getElem?_map, List.getElem?_range h1.1]
        simp [h1.2]
      rw [takeMany, hs]
      simp only
      rw [slotsOf_set, ih (i :: used)]
      · rfl
      · rintro ⟨a, b⟩
        apply h
        refine ⟨List.nodup_cons.mpr ⟨fun hi => (b i hi).2 (by simp), a⟩, ?_⟩
        intro j hj
        rcases List.mem_cons.mp hj with rfl | hj
        · exact h1
        · exact ⟨(b j hj).1, fun hu => (b j hj).2 (by simp [hu])⟩
    · have hs : (slotsOf r used)[i]? = none ∨ (slotsOf r used)[i]? = some none := by
        unfold slotsOf
        by_cases hi : i < r.length
        · right
          have : i ∈ used := by by_contra hu; exact h1 ⟨hi, hu⟩
          rw [List.getElem?_map, List.getElem?_range hi]
          simp [this]
        · left
          rw [List.getElem?_eq_none]
          simpa using hi
      rw [takeMany]
      rcases hs with hs | hs <;> rw [hs]

section
variable {β : Type} [RegOps β] [LawfulReg β]

theorem groupsFold_any (r : Reg) (groups : List (List ℕ)) : ∀ (used : List ℕ) (acc : List Reg) (s : β),
    if groups.flatten.Nodup ∧ ∀ i ∈ groups.flatten, i < r.length ∧ i ∉ used then
      ∃ acc' used', (groups.foldlM (fun (acc : List Reg × List (Option Reg)) is => do
        let (subrs, slots) ← liftE (takeMany acc.2 is)
        let m ← mergeRegisters subrs
        pure (acc.1 ++ m.toList, slots)) (acc, slotsOf r used) : M β _) s = .ok (acc', slotsOf r used') s
    else (groups.foldlM (fun (acc : List Reg × List (Option Reg)) is => do
        let (subrs, slots) ← liftE (takeMany acc.2 is)
        let m ← mergeRegisters subrs
        pure (acc.1 ++ m.toList, slots)) (acc, slotsOf r used) : M β _) s = .error .panic s := by
  induction groups with
  | nil => intro used acc s; rw [if_pos (by simp)]; exact ⟨acc, used, rfl⟩
  | cons g groups ih =>
    intro used acc s
    rw [List.foldlM_cons]
    by_cases hg : g.Nodup ∧ ∀ i ∈ g, i < r.length ∧ i ∉ used
    · have hm : ∃ m, (mergeRegisters (g.map fun i => [r.getD i 0]) : M β _) = pure m := by
        by_cases h : g = []
        · subst h; exact ⟨none, rfl⟩
        · exact ⟨_, merge_at r g h⟩
      obtain ⟨m, hm⟩ := hm
      simp only
      rw [takeMany_eq r g used hg.1 hg.2]
      simp only [liftE_ok, pure_bind, hm]
      have := ih (g ++ used) (acc ++ m.toList) s
      have e : (groups.flatten.Nodup ∧ ∀ i ∈ groups.flatten, i < r.length ∧ i ∉ g ++ used) ↔
          ((g :: groups).flatten.Nodup ∧ ∀ i ∈ (g :: groups).flatten, i < r.length ∧ i ∉ used) := by
        rw [List.flatten_cons, List.nodup_append]
        simp only [List.mem_append, not_or]
        constructor
        · rintro ⟨a, b⟩
          refine ⟨⟨hg.1, a, fun x hx y hy e => (b y hy).2.1 (e ▸ hx)⟩, fun i hi => ?_⟩
          rcases hi with hi | hi
          · exact hg.2 i hi
          · exact ⟨(b i hi).1, (b i hi).2.2⟩
        · rintro ⟨⟨-, a, b⟩, c⟩
          exact ⟨a, fun i hi => ⟨(c i (.inr hi)).1, fun h => b i h i hi rfl, (c i (.inr hi)).2⟩⟩
      rw [if_congr e rfl rfl] at this
      exact this
    · rw [if_neg]
      · simp only
        rw [takeMany_bad r g used hg]
        simp only [liftE_error]
        rw [bind_err (bind_err (throw_run _ s))]
      · rintro ⟨a, b⟩
        rw [List.flatten_cons] at a
        exact hg ⟨(List.nodup_append.mp a).1, fun i hi => b i (by simp [hi])⟩

theorem splitGroups_any (r : Reg) (groups : List (List ℕ)) (hr : r ≠ []) (hn : r.Nodup) (s : β) :
    if groups.flatten.Nodup ∧ ∀ i ∈ groups.flatten, i < r.length then ∃ res, splitGroups r groups s = .ok res s
    else splitGroups r groups s = .error .panic s := by
  have := groupsFold_any r groups [] [] s
  simp only [List.not_mem_nil, not_false_eq_true, and_true] at this
  unfold splitGroups
  rw [splitAll_eq r hr hn]
  simp only [pure_bind]
  rw [← slotsOf_nil]
  split_ifs at this ⊢ with h
  · obtain ⟨acc', used', h1⟩ := this
    rw [bind_ok h1]
    simp only
    by_cases hl : (slotsOf r used').filterMap id = []
    · rw [hl, mergeRegisters_nil, pure_bind]
      exact ⟨_, rfl⟩
    · rw [mergeRegisters_ne _ hl (by
        rw [slotsOf_left]
        intro x hx
        obtain ⟨i, -, rfl⟩ := List.mem_map.mp hx
        simp), pure_bind]
      exact ⟨_, rfl⟩
  · rw [bind_err this]

end

theorem selectIndices_any (r : Reg) (idx : List ℕ) : (LocalBuilder.selectIndices r idx = none ↔ r.length ∈ idx) := by
  induction idx with
  | nil => simp [LocalBuilder.selectIndices]
  | cons i is ih =>
    rw [LocalBuilder.selectIndices]
    split_ifs with h
    · by_cases hi : i < r.length
      · rw [List.getElem?_eq_getElem hi]
        cases hs : LocalBuilder.selectIndices r is with
        | none =>
          rw [hs] at ih
          simp [ih.mp rfl]
        | some xs =>
          rw [hs] at ih
          have := (not_congr ih).mp (by simp)
          simp [this]; omega
      · have : i = r.length := by omega
        subst this
        simp
    · rw [ih]
      have : r.length ≠ i := by omega
      simp [this]

theorem splitRel_any (r : Reg) (hr : r ≠ []) (idx : List ℕ) (s : LocalBuilder) :
    if r.length ∈ idx then (splitRel r idx : M LocalBuilder _) s = .error .panic s else ∃ res, (splitRel r idx : M LocalBuilder _) s = .ok res s := by
  show if r.length ∈ idx then LocalBuilder.splitRel r idx s = .error .panic s else ∃ res, LocalBuilder.splitRel r idx s = .ok res s
  unfold LocalBuilder.splitRel
  split_ifs with h
  · rw [(selectIndices_any r idx).mpr h]; rfl
  · cases hs : LocalBuilder.selectIndices r idx with
    | none => exact absurd ((selectIndices_any r idx).mp hs) h
    | some sel =>
      simp only [unwrapO, pure_bind]
      cases h1 : Reg.new sel with
      | none =>
        have h2 : Reg.new (r.filter fun oi => true) = some r := by
          unfold Reg.new; rw [List.filter_true, if_neg (by simpa using hr)]
        simp only [h2]
        exact ⟨_, rfl⟩
      | some r1 =>
        simp only
        cases h2 : Reg.new (r.filter fun oi => !r1.contains oi) with
        | none => exact ⟨_, rfl⟩
        | some r2 => exact ⟨_, rfl⟩

theorem pure_one {α : Type} {f : α → List Reg} {m : M LocalBuilder α} {s s' : LocalBuilder} {a : α} (h : m s = .ok a s') :
    ∃ out s', (do let a ← m; pure (f a)) s = .ok out s' := ⟨f a, s', by rw [bind_ok h]; rfl⟩

/-- how a call ends, on registers the program owns -/
theorem Call.ends (c : Call) (s : LocalBuilder) (L : List ℕ) (hne : ∀ r ∈ c.args, r ≠ []) (how : Own s (c.args.flatten ++ L)) :
    (c.Panics → c.run s = .error .panic s) ∧ (c.Errs → c.run s = .error .error s) ∧
      (¬ c.Panics → ¬ c.Errs → ∃ out s', c.run s = .ok out s') := by
  have hnn := (how.sub (List.sublist_append_left _ _)).left
  cases c with
  | register n =>
    refine ⟨?_, fun h => h.elim, fun h _ => ?_⟩
    · rintro rfl; rfl
    · have h1 : Reg.new (List.range' s.n n) = some (List.range' s.n n) := by
        unfold Reg.new; rw [if_neg (by simpa [Call.Panics] using h)]
      have : (LocalBuilder.register n) s = .ok (List.range' s.n n) { s with n := s.n + n } := by
        unfold LocalBuilder.register
        rw [bind_ok (get_run s), h1]; rfl
      exact pure_one this
  | merge a b =>
    refine ⟨fun h => h.elim, fun h => h.elim, fun _ _ => ?_⟩
    have : (mergeTwo a b : M LocalBuilder _) = pure (a ++ b) := mergeTwo_eq _ _ (by simp [hne a (by simp [Call.args])])
    exact pure_one (s' := s) (by rw [this]; rfl)
  | mergeMany rs =>
    refine ⟨fun h => h.elim, fun h => h.elim, fun _ _ => ?_⟩
    by_cases hrs : rs = []
    · subst hrs
      exact pure_one (s' := s) (a := none) rfl
    · have : (mergeRegisters rs : M LocalBuilder _) = pure (some rs.flatten) := mergeRegisters_ne rs hrs (by simpa [Call.args] using hne)
      exact pure_one (s' := s) (by rw [this]; rfl)
  | split r idx =>
    have := splitRel_any r (hne r (by simp [Call.args])) idx s
    refine ⟨fun h => ?_, fun h => h.elim, fun h _ => ?_⟩
    · rw [if_pos (show r.length ∈ idx from h)] at this
      exact bind_err this
    · rw [if_neg (show r.length ∉ idx from h)] at this
      obtain ⟨res, h1⟩ := this
      exact pure_one h1
  | splitAbs r idx =>
    have := splitRel_any r (hne r (by simp [Call.args])) (idx.filterMap fun a => r.find? (fun i => i == a)) s
    have e : r.length ∈ (idx.filterMap fun a => r.find? (fun i => i == a)) ↔ r.length ∈ idx ∧ r.length ∈ r := by
      rw [List.mem_filterMap]
      constructor
      · rintro ⟨a, h1, h2⟩
        have h3 := List.find?_some h2
        have h4 := List.mem_of_find?_eq_some h2
        simp only [beq_iff_eq] at h3
        exact ⟨h3 ▸ h1, h4⟩
      · rintro ⟨h1, h2⟩
        refine ⟨_, h1, ?_⟩
        cases hf : r.find? (fun i => i == r.length) with
        | none =>
          rw [List.find?_eq_none] at hf
          exact absurd (hf _ h2) (by simp)
        | some x =>
          have := List.find?_some hf
          simp only [beq_iff_eq] at this
          rw [this]
    refine ⟨fun h => ?_, fun h => h.elim, fun h _ => ?_⟩
    · rw [if_pos (e.mpr h)] at this
      exact bind_err this
    · rw [if_neg (fun h' => h (e.mp h'))] at this
      obtain ⟨res, h1⟩ := this
      exact pure_one h1
  | splitAll r =>
    refine ⟨fun h => h.elim, fun h => h.elim, fun _ _ => ?_⟩
    have hr := hne r (by simp [Call.args])
    simp only [Call.args, List.flatten_cons, List.flatten_nil, List.append_nil] at hnn
    exact ⟨_, s, by show (Verif.splitAll r) s = _; rw [splitAll_eq r hr hnn]; rfl⟩
  | splitFirst r =>
    refine ⟨fun h => h.elim, fun h => h.elim, fun _ _ => ?_⟩
    have hr := hne r (by simp [Call.args])
    simp only [Call.args, List.flatten_cons, List.flatten_nil, List.append_nil] at hnn
    match r, hr with
    | [q], _ =>
      have : (Verif.splitFirst [q] : M LocalBuilder _) = _ := splitFirst_single q
      exact pure_one (s' := s) (by rw [this]; rfl)
    | q :: p :: b, _ =>
      have : (Verif.splitFirst (q :: p :: b) : M LocalBuilder _) = _ := splitFirst_eq q (p :: b) hnn (by simp)
      exact pure_one (s' := s) (by rw [this]; rfl)
  | splitLast r =>
    refine ⟨fun h => h.elim, fun h => h.elim, fun _ _ => ?_⟩
    have hr := hne r (by simp [Call.args])
    simp only [Call.args, List.flatten_cons, List.flatten_nil, List.append_nil] at hnn
    rcases List.eq_nil_or_concat r with rfl | ⟨b, q, rfl⟩
    · exact absurd rfl hr
    · rw [List.concat_eq_append] at *
      by_cases hb : b = []
      · subst hb
        have : (Verif.splitLast ([] ++ [q]) : M LocalBuilder _) = _ := splitLast_single q
        exact pure_one (s' := s) (by rw [this]; rfl)
      · have : (Verif.splitLast (b ++ [q]) : M LocalBuilder _) = _ := splitLast_eq b q hnn hb
        exact pure_one (s' := s) (by rw [this]; rfl)
  | splitGroups r groups =>
    have hr := hne r (by simp [Call.args])
    simp only [Call.args, List.flatten_cons, List.flatten_nil, List.append_nil] at hnn
    have := splitGroups_any r groups hr hnn s
    refine ⟨fun h => ?_, fun h => h.elim, fun h _ => ?_⟩
    · rw [if_neg h] at this
      exact bind_err this
    · rw [if_pos (not_not.mp h)] at this
      obtain ⟨res, h1⟩ := this
      exact pure_one h1
  | object r c =>
    have hr := hne r (by simp [Call.args])
    simp only [Call.args, List.flatten_cons, List.flatten_nil, List.append_nil] at hnn
    refine ⟨fun h => h.elim, fun h => ?_, fun _ h => ?_⟩
    · exact err_one (applyCO_err r _ h.1 h.2) s
    · obtain ⟨n, o⟩ := c
      by_cases h1 : n = 1
      · subst h1
        exact ⟨_, _, emits_one (applyCO_one_emits r hr hnn _) s⟩
      · have h2 : n = r.length := by
          by_contra h2
          exact h ⟨h2, h1⟩
        exact ⟨_, _, emits_one (applyCO_n_emits r ⟨n, o⟩ h2 h1) s⟩
  | named g r =>
    refine ⟨fun h => h.elim, fun h => h.elim, fun _ _ => ?_⟩
    have hr := hne r (by simp [Call.args])
    simp only [Call.args, List.flatten_cons, List.flatten_nil, List.append_nil] at hnn
    cases g
    · exact ⟨_, _, emits_one (x_emits r hr hnn) s⟩
    · exact ⟨_, _, emits_one (y_emits r hr hnn) s⟩
    · exact ⟨_, _, emits_one (z_emits r hr hnn) s⟩
    · exact ⟨_, _, emits_one (h_emits r hr hnn) s⟩
    · exact ⟨_, _, emits_one (s_emits r hr hnn) s⟩
    · exact ⟨_, _, emits_one (t_emits r hr hnn) s⟩
    · exact ⟨_, _, emits_one (sDagger_emits r hr hnn) s⟩
    · exact ⟨_, _, emits_one (tDagger_emits r hr hnn) s⟩
  | cnot c r =>
    have hc := hne c (by simp [Call.args])
    have hr := hne r (by simp [Call.args])
    simp only [Call.args, List.flatten_cons, List.flatten_nil, List.append_nil] at hnn
    refine ⟨fun h => h.elim, fun h => err_one (cnot_err c r h) s, fun _ h => ?_⟩
    obtain ⟨q, rfl⟩ := List.length_eq_one_iff.mp (show c.length = 1 by
      have := List.length_pos_of_ne_nil hc
      simp only [Call.Errs] at h; omega)
    exact ⟨_, _, emits_two (cnot_emits q r hr hnn) s⟩
  | swap a b =>
    have ha := hne a (by simp [Call.args])
    simp only [Call.args, List.flatten_cons, List.flatten_nil, List.append_nil] at hnn
    exact ⟨fun h => h.elim, fun h => err_one (swap_err a b h) s, fun _ h => ⟨_, _, emits_two (swap_emits a b (not_not.mp h) ha hnn) s⟩⟩
  | basicToffoli c r =>
    have hr := hne r (by simp [Call.args])
    simp only [Call.args, List.flatten_cons, List.flatten_nil, List.append_nil] at hnn
    refine ⟨fun h => h.elim, fun h => err_one (basicToffoli_err c r h) s, fun _ h => ?_⟩
    obtain ⟨a, b, rfl⟩ := List.length_eq_two.mp (not_not.mp h)
    exact ⟨_, _, emits_two (basicToffoli_emits a b r hr hnn) s⟩
  | toffoli c r =>
    refine ⟨fun h => h.elim, fun h => h.elim, fun _ _ => ?_⟩
    have hc := hne c (by simp [Call.args])
    have hr := hne r (by simp [Call.args])
    simp only [Call.args, List.flatten_cons, List.flatten_nil, List.append_nil] at how
    obtain ⟨s1, h1, -⟩ := toffoli_does (fun _ => 0) c r L s hc hr how
    exact pure_one h1
  | rz r θ => exact ⟨fun h => h.elim, fun h => h.elim, fun _ _ => ⟨_, _, emits_one (rz_emits r θ) s⟩⟩
  | rx r θ =>
    have hr := hne r (by simp [Call.args])
    simp only [Call.args, List.flatten_cons, List.flatten_nil, List.append_nil] at hnn
    exact ⟨fun h => h.elim, fun h => h.elim, fun _ _ => ⟨_, _, emits_one (rx_emits r hr hnn _ _ (rz_emits r θ)) s⟩⟩
  | ry r θ =>
    have hr := hne r (by simp [Call.args])
    simp only [Call.args, List.flatten_cons, List.flatten_nil, List.append_nil] at hnn
    exact ⟨fun h => h.elim, fun h => h.elim, fun _ _ => ⟨_, _, emits_one (ry_emits r hr hnn _ _ (rz_emits r (-θ))) s⟩⟩
  | rzPiBy r m =>
    refine ⟨fun h => h.elim, ?_, fun _ h => ⟨_, _, emits_one (rzPiBy_emits r m h) s⟩⟩
    rintro rfl
    exact err_one (m := LocalBuilder.rzPiBy r 0) (fun s => rfl) s
  | globalPhase r θ => exact ⟨fun h => h.elim, fun h => h.elim, fun _ _ => ⟨_, _, emits_one (globalPhase_emits r θ) s⟩⟩
  | measure r => exact ⟨fun h => h.elim, fun h => h.elim, fun _ _ => ⟨_, _, rfl⟩⟩
  | measureStochastic r => exact ⟨fun h => h.elim, fun h => h.elim, fun _ _ => ⟨_, _, rfl⟩⟩
  | makeTemp =>
    refine ⟨fun h => h.elim, fun h => h.elim, fun _ _ => ?_⟩
    simp only [Call.args, List.flatten_nil, List.nil_append] at how
    obtain ⟨t, s1, h1, -⟩ := makeTemp_local how
    exact pure_one h1
  | returnTemp r =>
    refine ⟨fun h => h.elim, fun h => h.elim, fun _ _ => ?_⟩
    have hr := hne r (by simp [Call.args])
    simp only [Call.args, List.flatten_cons, List.flatten_nil, List.append_nil] at hnn
    have : LocalBuilder.returnTemp r s = .ok () { s with zeroedQubits := s.zeroedQubits ++ r.map fun q => [q] } := by
      unfold LocalBuilder.returnTemp
      rw [splitAll_eq r hr hnn]; rfl
    exact ⟨[], _, by
      show (do LocalBuilder.returnTemp r; pure []) s = _
      rw [bind_ok this]; rfl⟩

end Verif
