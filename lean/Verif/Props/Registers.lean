import Verif.Proofs.History
import Verif.Proofs.Groups

/-!
# C24–C28: registers

Registers are lists of qubit numbers; `at' r is` are the qubits of `r` at the positions `is`.
-/

namespace Verif.Props
open Verif RegOps

/-! ## C24 -/

/-- C24, full claim: whatever calls a program makes, the registers it owns and the pool of temporaries hold pairwise
different qubits below `n`. -/
def C24_claim : Prop := ∀ s live, Hist (fun _ => True) s live →
  (live.flatten ++ s.zeroedQubits.flatten).Nodup ∧ ∀ q ∈ live.flatten ++ s.zeroedQubits.flatten, q < s.n

/-- C24 fails: `split_register_relative` with a repeated index hands out the same qubit twice. -/
theorem C24_no_cloning_refuted : ¬ C24_claim := by
  intro h
  have h1 : Hist (fun _ => True) { pipeline := [], n := 2, zeroedQubits := [], measurements := 0 } [[0, 1]] :=
    Hist.ok (Call.register 2) Hist.start trivial (List.Perm.refl _) (by rfl)
  have h2 : Hist (fun _ => True) { pipeline := [], n := 2, zeroedQubits := [], measurements := 0 } [[0, 0], [1]] :=
    Hist.ok (Call.split [0, 1] [0, 0]) h1 trivial (List.Perm.refl _) (by rfl)
  have := (h _ _ h2).1
  simp at this

/-- C24 for programs that never name a position twice in one index list (`split_register_relative` and
`split_register_absolute`; the other calls are unrestricted, whether they succeed or return an error). Moreover no
register is ever empty and the pool holds single qubits. -/
theorem C24_no_cloning_partial {s : LocalBuilder} {live : List Reg} (h : Hist Call.NoRepeat s live) :
    (live.flatten ++ s.zeroedQubits.flatten).Nodup ∧ (∀ q ∈ live.flatten ++ s.zeroedQubits.flatten, q < s.n) ∧
      (∀ r ∈ live, r ≠ []) ∧ ∀ r ∈ s.zeroedQubits, r.length = 1 := by
  obtain ⟨h1, h2⟩ := h.own
  exact ⟨h1.nodup, h1.lt, h2, h1.pool⟩

/-- instance: allocate two registers, split the first in opposite order, merge across, add a gate, fail a `swap`
(losing its registers), borrow and return a temporary -/
example : ∃ s, Hist Call.NoRepeat s [[2, 3, 1]] ∧ s.n = 5 ∧ s.zeroedQubits = [[4]] := by
  have h1 := Hist.ok (allowed := Call.NoRepeat) (Call.register 2) Hist.start trivial (List.Perm.refl _) (by rfl)
  have h2 := Hist.ok (rest := [[0, 1]]) (Call.register 2) h1 trivial (List.Perm.refl _) (by rfl)
  have h3 := Hist.ok (rest := [[2, 3]]) (Call.split [0, 1] [1]) h2 (by simp [Call.NoRepeat])
    (by exact List.Perm.swap _ _ _) (by rfl)
  have h4 := Hist.ok (rest := [[0]]) (Call.merge [2, 3] [1]) h3 trivial
    (by exact ((List.Perm.swap _ _ _).cons _).trans (List.Perm.swap _ _ _) |>.trans (List.Perm.refl _)) (by rfl)
  have h5 := Hist.drop (r := [0]) h4 (by exact List.Perm.swap _ _ _)
  have h6 := Hist.ok (rest := [[2, 3, 1]]) Call.makeTemp h5 trivial (List.Perm.refl _) (by rfl)
  have h7 := Hist.ok (rest := [[2, 3, 1]]) (Call.returnTemp [4]) h6 trivial (List.Perm.refl _) (by rfl)
  exact ⟨_, h7, rfl, rfl⟩

/-! ## C25 -/

/-- C25. `split_all_register` returns the qubits in order, whatever the builder, and merging restores the register. -/
theorem C25_split_all (r : Reg) (hr : r ≠ []) (hn : r.Nodup) (s : LocalBuilder) :
    splitAll r s = .ok (r.map fun q => [q]) s ∧ mergeRegisters (r.map fun q => [q]) s = .ok (some r) s := by
  rw [splitAll_eq r hr hn, mergeSingles r hr]
  exact ⟨rfl, rfl⟩

/-- C25. Merging registers concatenates them. -/
theorem C25_merge (rs : List Reg) (hr : ∀ r ∈ rs, r ≠ []) (s : LocalBuilder) :
    mergeRegisters rs s = .ok (if rs = [] then none else some rs.flatten) s := by
  by_cases h : rs = []
  · subst h; rfl
  · rw [mergeRegisters_ne rs h hr, if_neg h]; rfl

/-- C25. `split_register_relative` returns the qubits at the positions asked for, in the order asked for, and the
others in their original order. -/
theorem C25_split_relative (r : Reg) (hn : r.Nodup) (idx : List ℕ) (hi : ∀ i ∈ idx, i < r.length)
    (hr : r ≠ []) (s : LocalBuilder) :
    splitRel r idx s =
      .ok (if idx = [] then .unselected r
        else if ∀ i < r.length, i ∈ idx then .selected (at' r idx)
        else .split (at' r idx) (at' r ((List.range r.length).filter fun i => i ∉ idx))) s := by
  have e : (splitRel r idx : M LocalBuilder _) = liftE (splitE r idx) := LawfulReg.splitRel_eq r idx
  have hs : LocalBuilder.selectIndices r idx = some (at' r idx) := selectIndices_eq r idx hi
  have hsplit : splitE r idx = .ok (if idx = [] then .unselected r
        else if ∀ i < r.length, i ∈ idx then .selected (at' r idx)
        else .split (at' r idx) (at' r ((List.range r.length).filter fun i => i ∉ idx))) := by
    unfold splitE
    rw [hs]
    simp only
    by_cases h1 : idx = []
    · subst h1
      have : (r.filter fun o => !(at' r []).contains o) = r := by simp [at']
      rw [this, if_pos (by rfl), if_neg hr, if_pos rfl]
    · rw [if_neg (by simpa [at'] using h1), if_neg h1, filter_not_at r hn idx hi]
      by_cases h2 : ∀ i < r.length, i ∈ idx
      · rw [if_pos h2, if_pos]
        simp only [at', List.map_eq_nil_iff, List.filter_eq_nil_iff, List.mem_range, decide_eq_true_eq, not_not]
        exact h2
      · rw [if_neg h2, if_neg]
        simp only [at', List.map_eq_nil_iff, List.filter_eq_nil_iff, List.mem_range, decide_eq_true_eq, not_not]
        exact h2
  rw [e, hsplit]; rfl

/-- C25. `split_first_qubit` -/
theorem C25_split_first (q : ℕ) (b : Reg) (h : (q :: b).Nodup) (s : LocalBuilder) :
    splitFirst (q :: b) s = .ok (if b = [] then (none, [q]) else (some [q], b)) s := by
  by_cases hb : b = []
  · subst hb; rw [splitFirst_single]; rfl
  · rw [splitFirst_eq q b h hb, if_neg hb]; rfl

/-- C25. `split_last_qubit` -/
theorem C25_split_last (a : Reg) (q : ℕ) (h : (a ++ [q]).Nodup) (s : LocalBuilder) :
    splitLast (a ++ [q]) s = .ok (if a = [] then ([q], none) else (a, some [q])) s := by
  by_cases ha : a = []
  · subst ha
    have := splitLast_single (β := LocalBuilder) q
    show splitLast [q] s = _
    rw [this]; rfl
  · rw [splitLast_eq a q h ha, if_neg ha]; rfl

/-- C25. `split_relative_index_groups` returns one register per group with the qubits in the order asked for, and the
remaining qubits (if any) in their original order. -/
theorem C25_split_groups (r : Reg) (groups : List (List ℕ)) (hr : r ≠ []) (hn : r.Nodup)
    (hne : ∀ g ∈ groups, g ≠ []) (hg : groups.flatten.Nodup) (hlt : ∀ i ∈ groups.flatten, i < r.length)
    (s : LocalBuilder) :
    splitGroups r groups s =
      .ok (if ∀ i < r.length, i ∈ groups.flatten then .allSelected (groups.map (at' r))
        else .remaining (groups.map (at' r))
          (at' r ((List.range r.length).filter fun i => i ∉ groups.flatten))) s := by
  rw [splitGroups_eq r groups hr hn hne hg hlt]
  have e : ((List.range r.length).filter fun i => i ∉ groups.flatten) = [] ↔ ∀ i < r.length, i ∈ groups.flatten := by
    simp only [List.filter_eq_nil_iff, List.mem_range, decide_eq_true_eq, not_not]
  by_cases h : ∀ i < r.length, i ∈ groups.flatten
  · rw [if_pos h, if_pos (e.mpr h)]; rfl
  · rw [if_neg h, if_neg (fun hh => h (e.mp hh))]; rfl

/-- C25. A group naming a position twice, or one already taken, makes `split_relative_index_groups` panic rather than
clone a qubit. -/
theorem C25_split_groups_sound (r : Reg) (groups : List (List ℕ)) (hr : r ≠ []) (hn : r.Nodup) (s s' : LocalBuilder)
    (res : SplitManyResult) (h : splitGroups r groups s = .ok res s') :
    s' = s ∧ res.regs.flatten.Perm r ∧ ∀ a ∈ res.regs, a ≠ [] :=
  splitGroups_perm r groups hr hn s s' res h

/-- C25. `get_selected` gives the groups asked for; `get_all_selected` gives them as `Ok` if nothing of the register is left
over, and as `Err` otherwise. -/
theorem C25_get_selected (r : Reg) (groups : List (List ℕ)) (hr : r ≠ []) (hn : r.Nodup)
    (hne : ∀ g ∈ groups, g ≠ []) (hg : groups.flatten.Nodup) (hlt : ∀ i ∈ groups.flatten, i < r.length)
    (s s' : LocalBuilder) (res : SplitManyResult) (h : splitGroups r groups s = .ok res s') :
    res.getSelected = groups.map (at' r) ∧
    ((∀ i < r.length, i ∈ groups.flatten) → res.getAllSelected = .ok (groups.map (at' r))) ∧
    ((∃ i < r.length, i ∉ groups.flatten) → res.getAllSelected = .error (groups.map (at' r))) := by
  rw [C25_split_groups r groups hr hn hne hg hlt s] at h
  by_cases hc : ∀ i < r.length, i ∈ groups.flatten
  · rw [if_pos hc] at h
    cases h
    refine ⟨rfl, fun _ => rfl, ?_⟩
    rintro ⟨i, hi, hi'⟩
    exact absurd (hc i hi) hi'
  · rw [if_neg hc] at h
    cases h
    exact ⟨rfl, fun h => absurd h hc, fun _ => rfl⟩

/-- instances on the register `[4, 7, 5, 9]` -/
example (s : LocalBuilder) : (SplitManyResult.remaining [[5], [9, 4]] [7]).getAllSelected = .error [[5], [9, 4]] :=
  (C25_get_selected [4, 7, 5, 9] [[2], [3, 0]] (by simp) (by simp) (by simp) (by simp) (by simp) s s _ (by rfl)).2.2 ⟨1, by simp, by simp⟩

example (s : LocalBuilder) : splitRel [4, 7, 5, 9] [2, 0] s = .ok (.split [5, 4] [7, 9]) s := by
  rw [C25_split_relative _ (by simp) _ (by simp) (by simp)]; rfl

example (s : LocalBuilder) : splitGroups [4, 7, 5, 9] [[3], [2, 0]] s = .ok (.remaining [[9], [5, 4]] [7]) s := by
  rw [C25_split_groups _ _ (by simp) (by simp) (by simp) (by simp) (by simp)]; rfl

example (s : LocalBuilder) : splitLast [4, 7, 5, 9] s = .ok ([4, 7, 5], some [9]) s :=
  C25_split_last [4, 7, 5] 9 (by simp) s

/-! ## C26 -/

/-- C26, full claim: exactly the qubits of `r` whose number occurs in `idx` are selected. -/
def C26_claim : Prop := ∀ (r : Reg) (idx : List ℕ) (s s' : LocalBuilder) (a b : Reg), r.Nodup → idx.Nodup →
  splitAbs r idx s = .ok (.split a b) s' → ∀ q ∈ r, (q ∈ a ↔ q ∈ idx)

/-- C26 fails: the qubit number is used as a position. From the register `[1, 2]` qubit 1 is asked for and qubit 2 is
returned. -/
theorem C26_split_absolute_refuted : ¬ C26_claim := by
  intro h
  have := h [1, 2] [1] LocalBuilder.default LocalBuilder.default [2] [1] (by simp) (by simp) (by rfl) 1 (by simp)
  simp at this

/-- C26 fails also by panicking: qubit 2 of the register `[1, 2]` is asked for. -/
theorem C26_split_absolute_panics (s : LocalBuilder) : splitAbs [1, 2] [2] s = .error .panic s := rfl

/-- C26 for a register that holds the qubits `0, …, k-1` in order: the qubits named by `idx` are selected (in the
order of `idx`), the others remain in order. -/
theorem C26_split_absolute_partial (k : ℕ) (hk : 0 < k) (idx : List ℕ) (hi : ∃ i ∈ idx, i < k)
    (s : LocalBuilder) :
    splitAbs (List.range k) idx s =
      .ok (if ∀ q < k, q ∈ idx then .selected (idx.filter (· < k))
        else .split (idx.filter (· < k)) ((List.range k).filter fun q => q ∉ idx)) s := by
  have e : (idx.filterMap fun a => (List.range k).find? (fun i => i == a)) = idx.filter (· < k) := by
    clear hi
    induction idx with
    | nil => rfl
    | cons a idx ih =>
      rw [List.filterMap_cons]
      by_cases ha : a < k
      · have : (List.range k).find? (fun i => i == a) = some a := by
          rw [List.find?_range_eq_some]
          refine ⟨by simp, by simpa using ha, ?_⟩
          intro j hj; simp; omega
        rw [this, List.filter_cons_of_pos (by simpa using ha), ih]
      · have : (List.range k).find? (fun i => i == a) = none := by
          rw [List.find?_eq_none]
          intro x hx; simp at hx ⊢; omega
        rw [this, List.filter_cons_of_neg (by simpa using ha), ih]
  have hid : ∀ l : List ℕ, (∀ i ∈ l, i < k) → at' (List.range k) l = l := by
    intro l hl
    unfold at'
    conv_rhs => rw [← List.map_id l]
    apply List.map_congr_left
    intro i hi'
    have := hl i hi'
    simp [this]
  have hne : idx.filter (· < k) ≠ [] := by
    obtain ⟨i, h1, h2⟩ := hi
    intro hh
    rw [List.filter_eq_nil_iff] at hh
    exact hh i h1 (by simpa using h2)
  unfold splitAbs
  rw [e, C25_split_relative (List.range k) List.nodup_range _ (by intro i hi; simpa using (List.mem_filter.mp hi).2)
    (by intro hh; have := congrArg List.length hh; simp at this; omega), if_neg hne]
  have hid2 : at' (List.range k) (idx.filter (· < k)) = idx.filter (· < k) :=
    hid _ (by intro i hi; simpa using (List.mem_filter.mp hi).2)
  have hf : ((List.range (List.range k).length).filter fun i => i ∉ idx.filter (· < k)) =
      (List.range k).filter fun q => q ∉ idx := by
    rw [List.length_range]
    apply List.filter_congr
    intro i hi
    simp at hi
    simp [hi]
  rw [hid2, hf, hid _ (by intro i hi; simpa using (List.mem_filter.mp hi).1)]
  have hc : (∀ i < (List.range k).length, i ∈ idx.filter (· < k)) ↔ ∀ q < k, q ∈ idx := by
    rw [List.length_range]
    refine forall_congr' fun i => forall_congr' fun hi => ?_
    simp [hi]
  by_cases h : ∀ q < k, q ∈ idx
  · rw [if_pos h, if_pos (hc.mpr h)]
  · rw [if_neg h, if_neg (fun hh => h (hc.mp hh))]

example (s : LocalBuilder) : splitAbs [0, 1, 2, 3] [2, 0, 8] s = .ok (.split [2, 0] [1, 3]) s := by
  have := C26_split_absolute_partial 4 (by simp) [2, 0, 8] ⟨2, by simp, by simp⟩ s
  rw [show List.range 4 = [0, 1, 2, 3] from rfl] at this
  rw [this]; rfl

/-! ## C27 -/

/-- C27, full claim: indices that are not positions of the register make no difference. -/
def C27_claim : Prop := ∀ (r : Reg) (idx : List ℕ) (s : LocalBuilder), r ≠ [] →
  splitRel r idx s = splitRel r (idx.filter (· < r.length)) s

/-- C27 fails: the index equal to the size of the register makes the call panic. -/
theorem C27_ignored_refuted : ¬ C27_claim := by
  intro h
  have h1 : splitRel [5] [0, 1] LocalBuilder.default = .error .panic LocalBuilder.default := by rfl
  have h2 : splitRel [5] ([0, 1].filter (· < [5].length)) LocalBuilder.default =
      .ok (.selected [5]) LocalBuilder.default := by rfl
  have := h [5] [0, 1] LocalBuilder.default (by simp)
  rw [h1, h2] at this
  cases this

/-- C27 in general: the call panics whenever the size of the register is among the indices. -/
theorem C27_size_panics (r : Reg) (idx : List ℕ) (h : r.length ∈ idx) (s : LocalBuilder) :
    splitRel r idx s = .error .panic s := by
  have hs : LocalBuilder.selectIndices r idx = none := by
    induction idx with
    | nil => simp at h
    | cons i idx ih =>
      rw [LocalBuilder.selectIndices]
      by_cases hi : i = r.length
      · subst hi; simp
      · have h' : r.length ∈ idx := by simp at h; tauto
        rw [ih h']
        split
        · cases r[i]? <;> rfl
        · rfl
  have e : (splitRel r idx : M LocalBuilder _) = liftE (splitE r idx) := LawfulReg.splitRel_eq r idx
  rw [e, splitE, hs]; rfl

/-- C27 for indices larger than the size of the register. -/
theorem C27_ignored_partial (r : Reg) (idx : List ℕ) (h : r.length ∉ idx) (s : LocalBuilder) :
    splitRel r idx s = splitRel r (idx.filter (· < r.length)) s := by
  have hs : LocalBuilder.selectIndices r idx = LocalBuilder.selectIndices r (idx.filter (· < r.length)) := by
    induction idx with
    | nil => rfl
    | cons i idx ih =>
      simp only [List.mem_cons, not_or] at h
      by_cases hi : i < r.length
      · rw [List.filter_cons_of_pos (by simpa using hi), LocalBuilder.selectIndices, LocalBuilder.selectIndices,
          if_pos (by omega), if_pos (by omega), ih h.2]
      · rw [List.filter_cons_of_neg (by simpa using hi), LocalBuilder.selectIndices, if_neg (by omega), ih h.2]
  have e : ∀ i, (splitRel r i : M LocalBuilder _) = liftE (splitE r i) := LawfulReg.splitRel_eq r
  rw [e, e, splitE, splitE, hs]

example (s : LocalBuilder) : splitRel [3, 5] [7, 1] s = .ok (.split [5] [3]) s := by
  rw [C27_ignored_partial _ _ (by simp)]; rfl

/-- C26, what the call does for every register and index list: the numbers of qubits of the register are taken as positions. It panics exactly if the size of
the register is the number of one of its qubits and is asked for; numbers above it are ignored. Missing for the full property: it is false. -/
theorem C26_positions_partial (r : Reg) (hn : r.Nodup) (hr : r ≠ []) (idx : List ℕ) (s : LocalBuilder) :
    splitAbs r idx s = if r.length ∈ r ∧ r.length ∈ idx then .error .panic s
      else .ok (if ∀ i ∈ idx, i ∈ r → ¬ i < r.length then .unselected r
        else if ∀ i < r.length, i ∈ idx ∧ i ∈ r then .selected (at' r (idx.filter fun i => i ∈ r ∧ i < r.length))
        else .split (at' r (idx.filter fun i => i ∈ r ∧ i < r.length)) (at' r ((List.range r.length).filter fun i => ¬ (i ∈ idx ∧ i ∈ r)))) s := by
  have e : (idx.filterMap fun a => r.find? (fun i => i == a)) = idx.filter (· ∈ r) := by
    induction idx with
    | nil => rfl
    | cons a idx ih =>
      rw [List.filterMap_cons]
      by_cases ha : a ∈ r
      · have : r.find? (fun i => i == a) = some a := by
          cases h : r.find? (fun i => i == a) with
          | none => exact absurd (List.find?_eq_none.mp h a ha) (by simp)
          | some b => rw [show b = a by simpa using List.find?_some h]
        rw [this, List.filter_cons_of_pos (by simpa using ha), ih]
      · have : r.find? (fun i => i == a) = none := by
          rw [List.find?_eq_none]
          intro x hx hxa
          exact ha (by rw [← show x = a by simpa using hxa]; exact hx)
        rw [this, List.filter_cons_of_neg (by simpa using ha), ih]
  unfold splitAbs
  rw [e]
  by_cases hp : r.length ∈ r ∧ r.length ∈ idx
  · rw [if_pos hp]
    exact C27_size_panics r _ (by simp [hp.1, hp.2]) s
  · rw [if_neg hp, C27_ignored_partial r _ (by simp; tauto) s, List.filter_filter, C25_split_relative r hn _ (by simp; tauto) hr]
    have e2 : (idx.filter fun i => decide (i < r.length) && decide (i ∈ r)) = idx.filter fun i => decide (i ∈ r ∧ i < r.length) :=
      List.filter_congr fun i _ => by rw [Bool.decide_and, Bool.and_comm]
    have e3 : ((List.range r.length).filter fun i => i ∉ idx.filter fun i => decide (i ∈ r ∧ i < r.length)) =
        (List.range r.length).filter fun i => ¬ (i ∈ idx ∧ i ∈ r) :=
      List.filter_congr fun i hi => by
        have := List.mem_range.mp hi
        simp [this]
    rw [e2, e3]
    congr 1
    refine if_congr ?_ rfl (if_congr ?_ rfl rfl)
    · rw [List.filter_eq_nil_iff]
      simp
    · refine forall_congr' fun i => forall_congr' fun hi => ?_
      simp [hi]

/-- qubits 2 and 1 of `[2, 0, 7, 1, 5]` are asked for: those at the positions 2 and 1 are given -/
example (s : LocalBuilder) : splitAbs [2, 0, 7, 1, 5] [2, 1, 7, 3] s = .ok (.split [7, 0] [2, 1, 5]) s := by
  rw [C26_positions_partial _ (by simp) (by simp)]; rfl

example (s : LocalBuilder) : splitAbs [2, 0, 3] [3] s = .error .panic s := by
  rw [C26_positions_partial _ (by simp) (by simp), if_pos (by simp)]

/-! ## C28 -/

/-- C28. A one-qubit object is added once per qubit, in order. -/
theorem C28_broadcast (r : Reg) (hr : r ≠ []) (hn : r.Nodup) (o : ObjType) (s : LocalBuilder) :
    CircuitBuilder.applyCO r ⟨1, o⟩ s =
      .ok r { s with pipeline := s.pipeline ++ r.map fun q => ([q], ⟨1, o⟩) } := applyCO_one_emits r hr hn o s

/-- C28. An object of the size of the register is added once. -/
theorem C28_same_size (r : Reg) (hr : r ≠ []) (hn : r.Nodup) (c : CObj) (h : c.n = r.length) (s : LocalBuilder) :
    CircuitBuilder.applyCO r c s = .ok r { s with pipeline := s.pipeline ++ [(r, c)] } := by
  by_cases h1 : c.n = 1
  · obtain ⟨n, o⟩ := c
    simp only at h h1
    subst h1
    obtain ⟨q, rfl⟩ := List.length_eq_one_iff.mp h.symm
    exact C28_broadcast [q] (by simp) (by simp) o s
  · exact applyCO_n_emits r c h h1 s

/-- C28. Otherwise the call returns an error and the builder is as before. -/
theorem C28_mismatch (r : Reg) (c : CObj) (h : c.n ≠ r.length) (h1 : c.n ≠ 1) (s : LocalBuilder) :
    CircuitBuilder.applyCO r c s = .error .error s := applyCO_err r c h h1 s

/-- C28. `pipeline_depth` counts the elements: it grows by the number of qubits for a one-qubit object, by one for an object of the size of
the register. -/
theorem C28_depth (r : Reg) (hr : r ≠ []) (hn : r.Nodup) (c : CObj) (h : c.n = 1 ∨ c.n = r.length) (s : LocalBuilder) :
    ∃ s', CircuitBuilder.applyCO r c s = .ok r s' ∧
      s'.pipelineDepth = s.pipelineDepth + (if c.n = 1 then r.length else 1) := by
  by_cases h1 : c.n = 1
  · obtain ⟨n, o⟩ := c
    simp only at h1
    subst h1
    exact ⟨_, C28_broadcast r hr hn o s, by simp [LocalBuilder.pipelineDepth]⟩
  · exact ⟨_, C28_same_size r hr hn c (h.resolve_left h1) s, by simp [LocalBuilder.pipelineDepth, h1]⟩

example (s : LocalBuilder) : ∃ s', CircuitBuilder.applyCO [3, 1, 0] ⟨1, .unitary .H⟩ s = .ok [3, 1, 0] s' ∧
    s'.pipelineDepth = s.pipelineDepth + 3 := by
  simpa using C28_depth [3, 1, 0] (by simp) (by simp) ⟨1, .unitary .H⟩ (.inl rfl) s

example (s : LocalBuilder) : CircuitBuilder.applyCO [3, 1] ⟨1, .unitary .H⟩ s =
    .ok [3, 1] { s with pipeline := s.pipeline ++ [([3], ⟨1, .unitary .H⟩), ([1], ⟨1, .unitary .H⟩)] } :=
  C28_broadcast [3, 1] (by simp) (by simp) _ s

example (s : LocalBuilder) : CircuitBuilder.applyCO [3, 1, 2] ⟨2, .unitary .CNOT⟩ s = .error .error s :=
  C28_mismatch _ _ (by simp) (by simp) s

end Verif.Props
