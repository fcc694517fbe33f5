import Verif.Proofs.Reg
import Verif.Spec.Registers
import Mathlib.Data.List.GetD

/-! # `split_relative_index_groups` -/

namespace Verif
open RegOps LawfulReg

/-- the slots after the positions `used` have been taken -/
def slotsOf (r : Reg) (used : List ℕ) : List (Option Reg) :=
  (List.range r.length).map fun i => if i ∈ used then none else some [r.getD i 0]

theorem slotsOf_nil (r : Reg) : slotsOf r [] = (r.map fun q => [q]).map some := by
  unfold slotsOf
  apply List.ext_getElem
  · simp
  · intro i h1 h2
    simp at h1
    simp [h1]

theorem slotsOf_set (r : Reg) (used : List ℕ) (i : ℕ) :
    (slotsOf r used).set i none = slotsOf r (i :: used) := by
  unfold slotsOf
  apply List.ext_getElem
  · simp
  · intro j h1 h2
    simp only [List.getElem_set, List.getElem_map, List.getElem_range]
    by_cases h : i = j
    · subst h; simp
    · rw [if_neg h]
      have : j ≠ i := fun e => h e.symm
      simp [this]

theorem slotsOf_congr (r : Reg) (u v : List ℕ) (h : ∀ i, i ∈ u ↔ i ∈ v) : slotsOf r u = slotsOf r v := by
  unfold slotsOf
  simp [h]

theorem takeMany_eq (r : Reg) (is : List ℕ) : ∀ (used : List ℕ), is.Nodup → (∀ i ∈ is, i < r.length ∧ i ∉ used) →
    takeMany (slotsOf r used) is = .ok (is.map fun i => [r.getD i 0], slotsOf r (is ++ used)) := by
  induction is with
  | nil => intro used _ _; rfl
  | cons i is ih =>
    intro used hn h
    obtain ⟨h1, h2⟩ := h i (by simp)
    obtain ⟨n1, n2⟩ := List.nodup_cons.mp hn
    have hs : (slotsOf r used)[i]? = some (some [r.getD i 0]) := by
      unfold slotsOf
      rw [List.getElem?_map, List.getElem?_range h1]
      simp [h2]
    rw [takeMany, hs]
    simp only
    rw [slotsOf_set, ih (i :: used) n2]
    · simp only [bind, Except.bind, List.map_cons]
      rw [slotsOf_congr r (is ++ i :: used) (i :: is ++ used)]
      intro j; simp; tauto
    · intro j hj
      refine ⟨(h j (by simp [hj])).1, ?_⟩
      simp only [List.mem_cons, not_or]
      exact ⟨fun e => n1 (e ▸ hj), (h j (by simp [hj])).2⟩

theorem slotsOf_left (r : Reg) (used : List ℕ) :
    (slotsOf r used).filterMap id = ((List.range r.length).filter fun i => i ∉ used).map fun i => [r.getD i 0] := by
  unfold slotsOf
  induction List.range r.length with
  | nil => rfl
  | cons i l ih =>
    by_cases h : i ∈ used
    · simp only [List.map_cons, h, if_true, List.filterMap_cons, id, ih]
      rw [List.filter_cons_of_neg (by simp [h])]
      exact ih
    · simp only [List.map_cons, h, if_false, List.filterMap_cons, id, ih]
      rw [List.filter_cons_of_pos (by simp [h])]
      exact congrArg (List.cons _) ih

theorem flatten_single_map (f : ℕ → ℕ) (l : List ℕ) : (l.map fun i => [f i]).flatten = l.map f := by
  induction l with
  | nil => rfl
  | cons a l ih => simp [ih]

section
variable {β : Type} [RegOps β] [LawfulReg β]

theorem merge_at (r : Reg) (is : List ℕ) (h : is ≠ []) :
    (mergeRegisters (is.map fun i => [r.getD i 0]) : M β _) = pure (some (at' r is)) := by
  rw [mergeRegisters_ne]
  · rw [flatten_single_map (fun i => r.getD i 0)]; rfl
  · simpa using h
  · intro x hx; simp at hx; obtain ⟨_, _, rfl⟩ := hx; simp

theorem groupsFold_eq (r : Reg) (groups : List (List ℕ)) : ∀ (used : List ℕ) (acc : List Reg),
    (∀ g ∈ groups, g ≠ []) → groups.flatten.Nodup → (∀ i ∈ groups.flatten, i < r.length ∧ i ∉ used) →
    (groups.foldlM (fun (acc : List Reg × List (Option Reg)) is => do
        let (subrs, slots) ← liftE (takeMany acc.2 is)
        let m ← mergeRegisters subrs
        pure (acc.1 ++ m.toList, slots)) (acc, slotsOf r used) : M β _) =
      pure (acc ++ groups.map (at' r), slotsOf r (groups.flatten ++ used)) := by
  induction groups with
  | nil => intro used acc _ _ _; simp
  | cons g groups ih =>
    intro used acc hne hn h
    rw [List.flatten_cons] at hn
    obtain ⟨n1, n2, n3⟩ := List.nodup_append.mp hn
    rw [List.foldlM_cons]
    simp only
    rw [takeMany_eq r g used n1 (fun i hi => h i (by simp [hi]))]
    simp only [liftE_ok, pure_bind]
    rw [merge_at r g (hne g (by simp))]
    simp only [pure_bind]
    rw [ih (g ++ used) _ (fun g' hg' => hne g' (by simp [hg'])) n2]
    · rw [slotsOf_congr r (groups.flatten ++ (g ++ used)) ((g :: groups).flatten ++ used)]
      · simp
      · intro j; simp only [List.flatten_cons, List.mem_append]; tauto
    · intro i hi
      have := h i (by simp only [List.flatten_cons, List.mem_append]; exact Or.inr hi)
      refine ⟨this.1, ?_⟩
      rw [List.mem_append, not_or]
      exact ⟨fun hg => n3 i hg i hi rfl, this.2⟩

theorem splitGroups_eq (r : Reg) (groups : List (List ℕ)) (hr : r ≠ []) (hn : r.Nodup)
    (hne : ∀ g ∈ groups, g ≠ []) (hg : groups.flatten.Nodup) (hlt : ∀ i ∈ groups.flatten, i < r.length) :
    (splitGroups r groups : M β _) =
      pure (if ((List.range r.length).filter fun i => i ∉ groups.flatten) = [] then .allSelected (groups.map (at' r))
        else .remaining (groups.map (at' r)) (at' r ((List.range r.length).filter fun i => i ∉ groups.flatten))) := by
  unfold splitGroups
  rw [splitAll_eq r hr hn]
  simp only [pure_bind]
  rw [← slotsOf_nil, groupsFold_eq r groups [] [] hne hg (fun i hi => ⟨hlt i hi, by simp⟩)]
  simp only [pure_bind, List.nil_append, List.append_nil]
  rw [slotsOf_left]
  by_cases h : ((List.range r.length).filter fun i => i ∉ groups.flatten) = []
  · rw [if_pos h, h]; rfl
  · rw [if_neg h, merge_at r _ h]; rfl

end

/-- the qubits not selected, in original order -/
theorem filter_not_at (r : Reg) (hn : r.Nodup) (idx : List ℕ) (h : ∀ i ∈ idx, i < r.length) :
    (r.filter fun o => !(at' r idx).contains o) = at' r ((List.range r.length).filter fun i => i ∉ idx) := by
  have e : r = at' r (List.range r.length) := by
    unfold at'
    apply List.ext_getElem
    · simp
    · intro i h1 h2; simp [h1]
  refine (congrArg (List.filter fun o => !(at' r idx).contains o) e).trans ?_
  unfold at'
  rw [List.filter_map]
  congr 1
  apply List.filter_congr
  intro i hi
  have hi' : i < r.length := by simpa using hi
  rw [Bool.eq_iff_iff]
  simp only [Function.comp, List.contains_eq_mem, List.mem_map, Bool.not_eq_true', decide_eq_false_iff_not,
    decide_eq_true_eq]
  apply not_congr
  constructor
  · rintro ⟨j, hj, he⟩
    have hj' := h j hj
    rw [List.getD_eq_getElem _ _ hj', List.getD_eq_getElem _ _ hi'] at he
    rw [(List.Nodup.getElem_inj_iff hn).mp he] at hj
    exact hj
  · intro hj
    exact ⟨i, hj, rfl⟩

end Verif
