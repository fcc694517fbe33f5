import Verif.Spec.Program
import Verif.Proofs.Groups

/-! # The routing of `program!` -/

namespace Verif
open RegOps LawfulReg

/-- register number `i` with the positions `used` taken -/
def row (rs : List Reg) (i : ℕ) (used : List (ℕ × ℕ)) : List (Option Reg) :=
  (List.range (rs.getD i []).length).map fun j => if (i, j) ∈ used then none else some [qubitAt rs (i, j)]

/-- all registers with the positions `used` taken -/
def slotsP (rs : List Reg) (used : List (ℕ × ℕ)) : Slots := (List.range rs.length).map fun i => row rs i used

theorem slotsP_nil (rs : List Reg) : slotsP rs [] = full rs := by
  unfold slotsP full row qubitAt
  apply List.ext_getElem
  · simp
  · intro i h1 h2
    simp at h1
    simp only [List.getElem_map, List.getElem_range, List.not_mem_nil, if_false, List.getD_eq_getElem _ _ h1]
    apply List.ext_getElem
    · simp
    · intro j h3 h4
      simp at h3
      simp [h3]

theorem slotsP_congr (rs : List Reg) (u v : List (ℕ × ℕ)) (h : ∀ p, HasPos rs p → (p ∈ u ↔ p ∈ v)) : slotsP rs u = slotsP rs v := by
  unfold slotsP row
  refine List.map_congr_left fun i hi => List.map_congr_left fun j hj => ?_
  have := h (i, j) ⟨List.mem_range.mp hi, List.mem_range.mp hj⟩
  simp [this]

theorem slotsP_get (rs : List Reg) (used : List (ℕ × ℕ)) (i : ℕ) :
    (slotsP rs used)[i]? = if i < rs.length then some (row rs i used) else none := by
  unfold slotsP
  rw [List.getElem?_map]
  by_cases h : i < rs.length
  · rw [List.getElem?_range h, if_pos h]; rfl
  · rw [if_neg h, List.getElem?_eq_none (by simpa using h)]; rfl

theorem slotsP_set (rs : List Reg) (u v : List (ℕ × ℕ)) (i : ℕ) (h : ∀ p : ℕ × ℕ, p.1 ≠ i → (p ∈ u ↔ p ∈ v)) :
    (slotsP rs u).set i (row rs i v) = slotsP rs v := by
  unfold slotsP
  apply List.ext_getElem
  · simp
  · intro j h1 h2
    simp only [List.getElem_set, List.getElem_map, List.getElem_range]
    by_cases hj : i = j
    · subst hj; rw [if_pos rfl]
    · rw [if_neg hj]
      unfold row
      refine List.map_congr_left fun k _ => ?_
      have := h (j, k) (fun e => hj e.symm)
      simp [this]

theorem row_get (rs : List Reg) (i : ℕ) (used : List (ℕ × ℕ)) (j : ℕ) :
    (row rs i used)[j]? = if j < (rs.getD i []).length then some (if (i, j) ∈ used then none else some [qubitAt rs (i, j)]) else none := by
  unfold row
  rw [List.getElem?_map]
  by_cases h : j < (rs.getD i []).length
  · rw [List.getElem?_range h, if_pos h]; rfl
  · rw [if_neg h, List.getElem?_eq_none (by simpa using h)]; rfl

theorem row_set_none (rs : List Reg) (i : ℕ) (used : List (ℕ × ℕ)) (j : ℕ) :
    (row rs i used).set j none = row rs i ((i, j) :: used) := by
  unfold row
  apply List.ext_getElem
  · simp
  · intro k h1 h2
    simp only [List.getElem_set, List.getElem_map, List.getElem_range]
    by_cases h : j = k
    · subst h; simp
    · rw [if_neg h]
      have : k ≠ j := fun e => h e.symm
      simp [this]

theorem row_set_some (rs : List Reg) (i : ℕ) (used : List (ℕ × ℕ)) (j : ℕ) :
    (row rs i used).set j (some [qubitAt rs (i, j)]) = row rs i (used.filter (· ≠ (i, j))) := by
  unfold row
  apply List.ext_getElem
  · simp
  · intro k h1 h2
    simp only [List.getElem_set, List.getElem_map, List.getElem_range]
    by_cases h : j = k
    · subst h; simp
    · rw [if_neg h]
      have : k ≠ j := fun e => h e.symm
      simp [this]

/-- the positions can be taken when those in `used` are gone -/
def Free (rs : List Reg) (used ps : List (ℕ × ℕ)) : Prop := ps.Nodup ∧ ∀ p ∈ ps, p.2 < (rs.getD p.1 []).length ∧ p ∉ used

theorem free_nil (rs : List Reg) (used : List (ℕ × ℕ)) : Free rs used [] := ⟨List.nodup_nil, by simp⟩

theorem free_append (rs : List Reg) (used ps qs : List (ℕ × ℕ)) :
    Free rs used (ps ++ qs) ↔ Free rs used ps ∧ Free rs (ps ++ used) qs := by
  unfold Free
  rw [List.nodup_append]
  constructor
  · rintro ⟨⟨h1, h2, h3⟩, h4⟩
    refine ⟨⟨h1, fun p hp => h4 p (by simp [hp])⟩, h2, fun p hp => ⟨(h4 p (by simp [hp])).1, ?_⟩⟩
    rw [List.mem_append, not_or]
    exact ⟨fun hp' => h3 p hp' p hp rfl, (h4 p (by simp [hp])).2⟩
  · rintro ⟨⟨h1, h2⟩, h3, h4⟩
    refine ⟨⟨h1, h3, fun p hp q hq e => ?_⟩, fun p hp => ?_⟩
    · subst e
      exact (h4 p hq).2 (by simp [hp])
    · rcases List.mem_append.mp hp with hp | hp
      · exact h2 p hp
      · exact ⟨(h4 p hp).1, fun hu => (h4 p hp).2 (by simp [hu])⟩

open Classical in
theorem takeMany_row (rs : List Reg) (i : ℕ) (is : List ℕ) (used : List (ℕ × ℕ)) :
    takeMany (row rs i used) is =
      if Free rs used (is.map fun j => (i, j)) then
        .ok (is.map fun j => [qubitAt rs (i, j)], row rs i ((is.map fun j => (i, j)) ++ used))
      else .error .panic := by
  induction is generalizing used with
  | nil => rw [List.map_nil, if_pos (free_nil rs used)]; rfl
  | cons j is ih =>
    rw [takeMany, row_get, List.map_cons]
    by_cases h : j < (rs.getD i []).length ∧ (i, j) ∉ used
    · rw [if_pos h.1, if_neg h.2]
      simp only
      rw [row_set_none, ih]
      have hf := free_append rs used [(i, j)] (is.map fun j => (i, j))
      have h1 : Free rs used [(i, j)] := ⟨by simp, by simpa using h⟩
      rw [List.singleton_append, List.singleton_append] at hf
      by_cases h2 : Free rs ((i, j) :: used) (is.map fun j => (i, j))
      · rw [if_pos h2, if_pos (hf.mpr ⟨h1, h2⟩)]
        simp only [bind, Except.bind, List.map_cons]
        congr 2
        unfold row
        refine List.map_congr_left fun k _ => ?_
        have : ((i, k) ∈ (is.map fun j => (i, j)) ++ (i, j) :: used) ↔ ((i, k) ∈ (i, j) :: (is.map fun j => (i, j)) ++ used) := by
          simp only [List.mem_append, List.mem_cons]; tauto
        simp only [this]
      · rw [if_neg h2, if_neg fun h3 => h2 (hf.mp h3).2]; rfl
    · have hno : ¬ Free rs used ((i, j) :: is.map fun j => (i, j)) := fun hf => h (hf.2 (i, j) (by simp))
      by_cases h1 : j < (rs.getD i []).length
      · have h2 : (i, j) ∈ used := by by_contra h2; exact h ⟨h1, h2⟩
        rw [if_pos h1, if_pos h2, if_neg hno]
      · rw [if_neg h1, if_neg hno]

theorem sel_indices (rs : List Reg) (used : List (ℕ × ℕ)) (s : Sel) :
    s.indices (slotsP rs used) = if s.1 < rs.length then .ok ((selPos rs s).map Prod.snd) else .error .panic := by
  unfold Sel.indices selPos
  rw [slotsP_get]
  by_cases h : s.1 < rs.length
  · rw [if_pos h, if_pos h]
    cases s.2 with
    | none => simp [row]
    | some is => simp [Function.comp_def]
  · rw [if_neg h, if_neg h]

theorem selPos_map (rs : List Reg) (s : Sel) : ((selPos rs s).map Prod.snd).map (fun j => (s.1, j)) = selPos rs s := by
  unfold selPos
  simp [Function.comp_def]

open Classical in
theorem takeSel_eq (rs : List Reg) (used : List (ℕ × ℕ)) (s : Sel) :
    takeSel (slotsP rs used) s =
      if s.1 < rs.length ∧ Free rs used (selPos rs s) then
        .ok ((selPos rs s).map fun p => [qubitAt rs p], slotsP rs (selPos rs s ++ used))
      else .error .panic := by
  unfold takeSel
  rw [sel_indices, slotsP_get]
  by_cases h : s.1 < rs.length
  · rw [if_pos h, if_pos h]
    simp only [bind, Except.bind]
    rw [takeMany_row, selPos_map]
    by_cases h2 : Free rs used (selPos rs s)
    · rw [if_pos h2, if_pos ⟨h, h2⟩]
      simp only
      rw [slotsP_set]
      · congr 2
        conv_rhs => rw [← selPos_map]
        simp [Function.comp_def]
      · intro p hp
        have : p ∉ selPos rs s := by
          unfold selPos
          simp only [List.mem_map, not_exists, not_and]
          rintro j _ rfl
          exact hp rfl
        simp [this]
    · rw [if_neg h2, if_neg fun h3 => h2 h3.2]
  · have hno : ¬ (s.1 < rs.length ∧ Free rs used (selPos rs s)) := fun h3 => h h3.1
    rw [if_neg h, if_neg h, if_neg hno]; rfl

open Classical in
theorem takeSels_eq (rs : List Reg) (g : List Sel) (used : List (ℕ × ℕ)) :
    takeSels (slotsP rs used) g =
      if (∀ s ∈ g, s.1 < rs.length) ∧ Free rs used (groupPos rs g) then
        .ok ((groupPos rs g).map fun p => [qubitAt rs p], slotsP rs (groupPos rs g ++ used))
      else .error .panic := by
  induction g generalizing used with
  | nil => rw [if_pos ⟨by simp, free_nil rs used⟩]; rfl
  | cons s g ih =>
    rw [takeSels, takeSel_eq]
    have hg : groupPos rs (s :: g) = selPos rs s ++ groupPos rs g := rfl
    have hf := free_append rs used (selPos rs s) (groupPos rs g)
    by_cases h1 : s.1 < rs.length ∧ Free rs used (selPos rs s)
    · rw [if_pos h1]
      simp only [bind, Except.bind]
      rw [ih]
      by_cases h2 : (∀ s ∈ g, s.1 < rs.length) ∧ Free rs (selPos rs s ++ used) (groupPos rs g)
      · rw [if_pos h2, if_pos, hg]
        · simp only [List.map_append]
          congr 2
          exact slotsP_congr _ _ _ fun p _ => by simp only [List.mem_append]; tauto
        · refine ⟨fun t ht => ?_, by rw [hg]; exact hf.mpr ⟨h1.2, h2.2⟩⟩
          rcases List.mem_cons.mp ht with rfl | ht
          · exact h1.1
          · exact h2.1 t ht
      · rw [if_neg h2, if_neg]
        rintro ⟨h3, h4⟩
        rw [hg] at h4
        exact h2 ⟨fun t ht => h3 t (by simp [ht]), (hf.mp h4).2⟩
    · rw [if_neg h1, if_neg]
      · rfl
      · rintro ⟨h3, h4⟩
        rw [hg] at h4
        exact h1 ⟨h3 s (by simp), (hf.mp h4).1⟩

section
variable {β : Type} [RegOps β] [LawfulReg β]

theorem mergeRegisters_none : (mergeRegisters [] : M β _) = pure none := mergeRegisters_nil

theorem merge_pos (rs : List Reg) (ps : List (ℕ × ℕ)) (h : ps ≠ []) :
    (mergeRegisters (ps.map fun p => [qubitAt rs p]) : M β _) = pure (some (ps.map (qubitAt rs))) := by
  rw [mergeRegisters_ne]
  · congr 2
    induction ps with
    | nil => rfl
    | cons p ps ih =>
      by_cases hp : ps = []
      · subst hp; rfl
      · simp only [List.map_cons, List.flatten_cons, List.singleton_append, List.cons.injEq, true_and]
        exact ih hp
  · simpa using h
  · intro x hx; simp at hx; obtain ⟨_, _, _, rfl⟩ := hx; simp

/-- what can be pulled out when the positions `used` are gone -/
def CanPull (rs : List Reg) (used : List (ℕ × ℕ)) (gs : List (List Sel)) : Prop :=
  (∀ g ∈ gs, groupPos rs g ≠ []) ∧ (∀ g ∈ gs, ∀ s ∈ g, s.1 < rs.length) ∧ Free rs used (gs.flatMap (groupPos rs))

open Classical in
theorem pullGroups_eq (rs : List Reg) (gs : List (List Sel)) (used : List (ℕ × ℕ)) :
    (pullGroups (slotsP rs used) gs : M β _) =
      if CanPull rs used gs then pure (gs.map (groupReg rs), slotsP rs (gs.flatMap (groupPos rs) ++ used))
      else throw .panic := by
  induction gs generalizing used with
  | nil => rw [if_pos ⟨by simp, by simp, free_nil rs used⟩]; rfl
  | cons g gs ih =>
    rw [pullGroups, takeSels_eq]
    have hf := free_append rs used (groupPos rs g) (gs.flatMap (groupPos rs))
    have hg : (g :: gs).flatMap (groupPos rs) = groupPos rs g ++ gs.flatMap (groupPos rs) := rfl
    by_cases h1 : (∀ s ∈ g, s.1 < rs.length) ∧ Free rs used (groupPos rs g)
    · rw [if_pos h1, liftE_ok]
      simp only [pure_bind]
      by_cases h0 : groupPos rs g = []
      · rw [h0, List.map_nil, mergeRegisters_none, if_neg fun h => h.1 g (by simp) h0]
        rfl
      · rw [merge_pos rs _ h0]
        simp only [pure_bind, unwrapO_some]
        rw [ih]
        by_cases h2 : CanPull rs (groupPos rs g ++ used) gs
        · rw [if_pos h2, if_pos]
          · simp only [pure_bind, List.map_cons, hg]
            congr 2
            exact slotsP_congr _ _ _ fun p _ => by simp only [List.mem_append]; tauto
          · refine ⟨fun t ht => ?_, fun t ht => ?_, by rw [hg]; exact hf.mpr ⟨h1.2, h2.2.2⟩⟩
            · rcases List.mem_cons.mp ht with rfl | ht
              · exact h0
              · exact h2.1 t ht
            · rcases List.mem_cons.mp ht with rfl | ht
              · exact h1.1
              · exact h2.2.1 t ht
        · rw [if_neg h2, if_neg]
          · rfl
          · rintro ⟨h3, h4, h5⟩
            rw [hg] at h5
            exact h2 ⟨fun t ht => h3 t (by simp [ht]), fun t ht => h4 t (by simp [ht]), (hf.mp h5).2⟩
    · rw [if_neg h1, if_neg]
      · rfl
      · rintro ⟨h3, h4, h5⟩
        rw [hg] at h5
        exact h1 ⟨h4 g (by simp), (hf.mp h5).1⟩

theorem canPull_iff (rs : List Reg) (gs : List (List Sel)) : CanPull rs [] gs ↔ ValidGroups rs gs := by
  constructor
  · rintro ⟨h1, h2, h3, h4⟩
    refine ⟨h1, h3, h2, fun p hp => ⟨?_, (h4 p hp).1⟩⟩
    have := (h4 p hp).1
    by_contra hc
    rw [List.getD_eq_default _ _ (by omega)] at this
    simp at this
  · rintro ⟨h1, h2, h3, h4⟩
    exact ⟨h1, h3, h2, fun p hp => ⟨(h4 p hp).2, by simp⟩⟩

/-! ## putting the qubits back -/

theorem putIndices_row (rs : List Reg) (i : ℕ) (is : List ℕ) (used : List (ℕ × ℕ)) (rest : List (Option Reg))
    (h : ∀ j ∈ is, j < (rs.getD i []).length) :
    putIndices (row rs i used) ((is.map fun j => some [qubitAt rs (i, j)]) ++ rest) is =
      .ok (row rs i (used.filter fun p => p ∉ is.map fun j => (i, j)), rest) := by
  induction is generalizing used with
  | nil => rw [putIndices]; simp
  | cons j is ih =>
    rw [List.map_cons, List.cons_append, putIndices]
    have hl : (row rs i used).length = (rs.getD i []).length := by simp [row]
    rw [if_pos (by rw [hl]; exact h j (by simp)), row_set_some, ih _ fun k hk => h k (by simp [hk])]
    congr 3
    rw [List.filter_filter]
    refine List.filter_congr fun p _ => ?_
    simp only [List.map_cons, List.mem_cons, not_or]
    by_cases h1 : p = (i, j) <;> simp [h1]

theorem putSels_eq (rs : List Reg) (g : List Sel) (used : List (ℕ × ℕ)) (rest : List (Option Reg))
    (h1 : ∀ s ∈ g, s.1 < rs.length) (h2 : ∀ p ∈ groupPos rs g, HasPos rs p) :
    putSels (slotsP rs used) (((groupPos rs g).map fun p => some [qubitAt rs p]) ++ rest) g =
      .ok (slotsP rs (used.filter fun p => p ∉ groupPos rs g)) := by
  induction g generalizing used with
  | nil => rw [putSels]; simp [groupPos]
  | cons s g ih =>
    have hg : groupPos rs (s :: g) = selPos rs s ++ groupPos rs g := rfl
    rw [putSels, sel_indices, slotsP_get, if_pos (h1 s (by simp)), if_pos (h1 s (by simp))]
    simp only [bind, Except.bind]
    have e : ((groupPos rs (s :: g)).map fun p => some [qubitAt rs p]) ++ rest =
        (((selPos rs s).map Prod.snd).map fun j => some [qubitAt rs (s.1, j)]) ++
          (((groupPos rs g).map fun p => some [qubitAt rs p]) ++ rest) := by
      rw [hg, List.map_append, List.append_assoc]
      congr 1
      conv_lhs => rw [← selPos_map]
      simp [Function.comp_def]
    rw [e, putIndices_row]
    · simp only
      rw [selPos_map, slotsP_set, ih]
      · congr 2
        rw [List.filter_filter]
        refine List.filter_congr fun p _ => ?_
        rw [hg]
        by_cases h3 : p ∈ selPos rs s <;> simp [h3]
      · exact fun t ht => h1 t (by simp [ht])
      · exact fun p hp => h2 p (by rw [hg]; simp [hp])
      · intro p hp
        have : p ∉ selPos rs s := by
          unfold selPos
          simp only [List.mem_map, not_exists, not_and]
          rintro j _ rfl
          exact hp rfl
        simp [this]
    · intro j hj
      simp only [List.mem_map] at hj
      obtain ⟨p, hp, rfl⟩ := hj
      have := (h2 p (by rw [hg]; simp [hp])).2
      have hp1 : p.1 = s.1 := by
        unfold selPos at hp
        simp only [List.mem_map] at hp
        obtain ⟨j, _, rfl⟩ := hp
        rfl
      rwa [hp1] at this

theorem putGroups_eq (rs : List Reg) (gs : List (List Sel)) (used : List (ℕ × ℕ)) (h0 : ∀ g ∈ gs, groupPos rs g ≠ [])
    (h1 : ∀ g ∈ gs, ∀ s ∈ g, s.1 < rs.length) (h2 : ∀ p ∈ gs.flatMap (groupPos rs), HasPos rs p)
    (hn : ∀ g ∈ gs, (groupReg rs g).Nodup) :
    (putGroups (slotsP rs used) (gs.map (groupReg rs)) gs : M β _) =
      pure (slotsP rs (used.filter fun p => p ∉ gs.flatMap (groupPos rs))) := by
  induction gs generalizing used with
  | nil => rw [List.map_nil, putGroups]; simp
  | cons g gs ih =>
    rw [List.map_cons, putGroups, splitAll_eq _ (by simpa [groupReg] using h0 g (by simp)) (hn g (by simp))]
    simp only [pure_bind]
    have e : (((groupReg rs g).map fun q => [q]).map some) = ((groupPos rs g).map fun p => some [qubitAt rs p]) ++ [] := by
      simp [groupReg, Function.comp_def]
    rw [e, putSels_eq rs g used [] (h1 g (by simp)) fun p hp => h2 p (by
      rw [List.flatMap_cons]; simp [hp]), liftE_ok]
    simp only [pure_bind]
    rw [ih _ (fun t ht => h0 t (by simp [ht])) (fun t ht => h1 t (by simp [ht]))
      (fun p hp => h2 p (by rw [List.flatMap_cons]; simp only [List.mem_append]; exact Or.inr hp)) (fun t ht => hn t (by simp [ht]))]
    congr 2
    rw [List.filter_filter]
    refine List.filter_congr fun p _ => ?_
    rw [List.flatMap_cons]
    by_cases h3 : p ∈ groupPos rs g <;> simp [h3]

end

end Verif
