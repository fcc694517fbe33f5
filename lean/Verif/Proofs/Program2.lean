import Verif.Proofs.Program
import Verif.Proofs.Sim2

/-! # Lines and programs -/

namespace Verif
open RegOps LawfulReg Rooted

theorem qubitAt_mem (rs : List Reg) (p : ℕ × ℕ) (hp : HasPos rs p) : qubitAt rs p ∈ rs.flatten := by
  unfold qubitAt
  have h2 := hp.2
  rw [List.getD_eq_getElem _ _ h2]
  have h1 := hp.1
  rw [List.mem_flatten]
  refine ⟨rs.getD p.1 [], ?_, List.getElem_mem h2⟩
  rw [List.getD_eq_getElem _ _ h1]
  exact List.getElem_mem h1

theorem qubitAt_inj (rs : List Reg) (hn : rs.flatten.Nodup) (p q : ℕ × ℕ) (hp : HasPos rs p) (hq : HasPos rs q)
    (h : qubitAt rs p = qubitAt rs q) : p = q := by
  obtain ⟨i, j⟩ := p
  obtain ⟨i', j'⟩ := q
  rw [List.nodup_flatten] at hn
  obtain ⟨n1, n2⟩ := hn
  unfold qubitAt at h
  have hp2 := hp.2
  have hq2 := hq.2
  simp only at h hp2 hq2
  have ei := List.getD_eq_getElem rs [] hp.1
  have ei' := List.getD_eq_getElem rs [] hq.1
  rw [List.getD_eq_getElem _ _ hp2, List.getD_eq_getElem _ _ hq2] at h
  by_cases hi : i = i'
  · subst hi
    have hnd : (rs.getD i []).Nodup := n1 _ (by rw [ei]; exact List.getElem_mem _)
    rw [hnd.getElem_inj_iff] at h
    rw [h]
  · exfalso
    have hd : List.Disjoint (rs.getD i []) (rs.getD i' []) := by
      rw [ei, ei']
      rw [List.pairwise_iff_getElem] at n2
      rcases Nat.lt_or_gt_of_ne hi with hlt | hlt
      · exact n2 i i' hp.1 hq.1 hlt
      · exact (n2 i' i hq.1 hp.1 hlt).symm
    exact hd (List.getElem_mem hp2) (h ▸ List.getElem_mem hq2)

theorem groups_flatten (rs : List Reg) (gs : List (List Sel)) :
    (gs.map (groupReg rs)).flatten = (gs.flatMap (groupPos rs)).map (qubitAt rs) := by
  induction gs with
  | nil => rfl
  | cons g gs ih => rw [List.map_cons, List.flatten_cons, ih, List.flatMap_cons, List.map_append]; rfl

theorem groups_nodup (rs : List Reg) (hn : rs.flatten.Nodup) (gs : List (List Sel)) (hv : ValidGroups rs gs) :
    (gs.map (groupReg rs)).flatten.Nodup ∧ ∀ q ∈ (gs.map (groupReg rs)).flatten, q ∈ rs.flatten := by
  rw [groups_flatten]
  constructor
  · exact hv.nodup.map_on fun p hp q hq => qubitAt_inj rs hn p q (hv.pos p hp) (hv.pos q hq)
  · intro q hq
    obtain ⟨p, hp, rfl⟩ := List.mem_map.mp hq
    exact qubitAt_mem rs p (hv.pos p hp)

section
variable {β : Type} [Conditionable β] [LawfulReg β]

open Classical in
theorem runLine_eq (rs : List Reg) (l : Line β) :
    runLine (full rs) l = if ValidGroups rs l.groups then
        l.call rs >>= fun a => putGroups (slotsP rs (l.groups.flatMap (groupPos rs))) a l.groups
      else throw .panic := by
  unfold runLine
  rw [← slotsP_nil, pullGroups_eq]
  by_cases h : ValidGroups rs l.groups
  · rw [if_pos ((canPull_iff rs _).mpr h), if_pos h, pure_bind, List.append_nil]
    cases l with
    | plain f gs => rfl
    | control mask f gs =>
      simp only [Line.groups, Line.call]
      cases gs.map (groupReg rs) with
      | nil => rfl
      | cons cr rs' =>
        cases mask <;> simp only [bind_assoc, pure_bind]
  · rw [if_neg fun hc => h ((canPull_iff rs _).mp hc), if_neg h]; rfl

theorem putBack (rs : List Reg) (hn : rs.flatten.Nodup) (gs : List (List Sel)) (hv : ValidGroups rs gs) :
    (putGroups (slotsP rs (gs.flatMap (groupPos rs))) (gs.map (groupReg rs)) gs : M β _) = pure (full rs) := by
  rw [putGroups_eq rs gs _ hv.ne hv.reg hv.pos, ← slotsP_nil]
  · congr 1
    refine slotsP_congr _ _ _ fun p _ => ?_
    simp
  · intro g hg
    have := (groups_nodup rs hn gs hv).1
    exact (List.nodup_flatten.mp this).1 _ (List.mem_map_of_mem hg)

theorem runLine_ok {rs : List Reg} (hn : rs.flatten.Nodup) {l : Line β} (hv : ValidGroups rs l.groups) {s s' : β}
    (h : l.call rs s = .ok (l.groups.map (groupReg rs)) s') : runLine (full rs) l s = .ok (full rs) s' := by
  rw [runLine_eq, if_pos hv, bind_ok h, putBack rs hn _ hv]
  rfl

theorem runLine_err {rs : List Reg} {l : Line β} (hv : ValidGroups rs l.groups) {s s' : β} {e : Fail}
    (h : l.call rs s = .error e s') : runLine (full rs) l s = .error e s' := by
  rw [runLine_eq, if_pos hv, bind_err h]

theorem runLine_invalid {rs : List Reg} {l : Line β} (hv : ¬ ValidGroups rs l.groups) (s : β) :
    runLine (full rs) l s = .error .panic s := by
  rw [runLine_eq, if_neg hv]
  rfl

theorem mergeSlots_full (rs : List Reg) (hr : ∀ r ∈ rs, r ≠ []) : (mergeSlots (full rs) : M β _) = pure rs := by
  induction rs with
  | nil => rfl
  | cons r rs ih =>
    have h1 : (r.map fun q => some [q]).filterMap id = r.map fun q => [q] := by
      rw [List.filterMap_map]
      induction r with
      | nil => rfl
      | cons q r ih => simp [Function.comp_def]
    show (mergeSlots ((r.map fun q => some [q]) :: full rs) : M β _) = _
    rw [mergeSlots, h1, mergeSingles r (hr r (by simp)), pure_bind, unwrapO_some, pure_bind, ih fun t ht => hr t (by simp [ht]), pure_bind]

theorem split_full (rs : List Reg) (hr : ∀ r ∈ rs, r ≠ []) (hn : ∀ r ∈ rs, r.Nodup) :
    (rs.mapM fun r => splitAll r : M β _) = pure (rs.map fun r => r.map fun q => [q]) := by
  induction rs with
  | nil => rfl
  | cons r rs ih =>
    rw [List.mapM_cons, splitAll_eq r (hr r (by simp)) (hn r (by simp)), pure_bind,
      ih (fun t ht => hr t (by simp [ht])) (fun t ht => hn t (by simp [ht])), pure_bind]
    rfl

theorem program_eq (rs : List Reg) (hr : ∀ r ∈ rs, r ≠ []) (hn : rs.flatten.Nodup) (lines : List (Line β)) :
    program rs lines = lines.foldlM runLine (full rs) >>= mergeSlots := by
  unfold program
  rw [split_full rs hr (List.nodup_flatten.mp hn).1, pure_bind]
  have : (rs.map fun r => r.map fun q => [q]).map (fun qs => qs.map some) = full rs := by
    simp [full, Function.comp_def]
  rw [this]

theorem lines_run {rs : List Reg} (hn : rs.flatten.Nodup) (lines : List (Line β)) (hv : ∀ l ∈ lines, ValidGroups rs l.groups)
    {s s' : β} (h : Runs rs lines s s') : lines.foldlM runLine (full rs) s = .ok (full rs) s' := by
  induction lines generalizing s with
  | nil =>
    have : s' = s := h
    subst this
    rfl
  | cons l ls ih =>
    obtain ⟨s1, h1, h2⟩ := h
    rw [List.foldlM_cons, bind_ok (runLine_ok hn (hv l (by simp)) h1)]
    exact ih (fun t ht => hv t (by simp [ht])) h2

theorem program_run {rs : List Reg} (hr : ∀ r ∈ rs, r ≠ []) (hn : rs.flatten.Nodup) (lines : List (Line β))
    (hv : ∀ l ∈ lines, ValidGroups rs l.groups) {s s' : β} (h : Runs rs lines s s') : program rs lines s = .ok rs s' := by
  rw [program_eq rs hr hn, bind_ok (lines_run hn lines hv h), mergeSlots_full rs hr]
  rfl

/-- the first failing line ends the program -/
theorem program_fail {rs : List Reg} (hr : ∀ r ∈ rs, r ≠ []) (hn : rs.flatten.Nodup) (pre post : List (Line β)) (l : Line β)
    (hv : ∀ k ∈ pre, ValidGroups rs k.groups) {s s' s'' : β} {e : Fail} (h : Runs rs pre s s')
    (hl : runLine (full rs) l s' = .error e s'') : program rs (pre ++ l :: post) s = .error e s'' := by
  rw [program_eq rs hr hn, List.foldlM_append]
  refine bind_err ?_
  rw [bind_ok (lines_run hn pre hv h), List.foldlM_cons]
  exact bind_err hl

end

section
variable {β : Type} [Conditionable β] [Rooted β] [LawfulReg β] {ang : Rot → ℝ}

/-- a line, given the effect of its call -/
theorem Does.line {rs : List Reg} (hn : rs.flatten.Nodup) {l : Line β} (hv : ValidGroups rs l.groups) {s : β} {L : List ℕ}
    {U : Asg → Wave} (h : Does ang (l.call rs) s (l.groups.map (groupReg rs)) L U) :
    Does ang (runLine (full rs) l) s (full rs) L U := by
  obtain ⟨s', h1, h2⟩ := h
  exact ⟨s', runLine_ok hn hv h1, h2⟩

theorem Does.program {rs : List Reg} (hr : ∀ r ∈ rs, r ≠ []) (hn : rs.flatten.Nodup) {lines : List (Line β)} {s : β}
    {L : List ℕ} {U : Asg → Wave} (h : Does ang (lines.foldlM runLine (full rs)) s (full rs) L U) :
    Does ang (Verif.program rs lines) s rs L U := by
  obtain ⟨s', h1, h2⟩ := h
  refine ⟨s', ?_, h2⟩
  rw [program_eq rs hr hn, bind_ok h1, mergeSlots_full rs hr]
  rfl

end

end Verif
