import Verif.Spec.Schedule
import Mathlib.Data.List.Nodup
import Mathlib.Data.List.Induction

namespace Verif
variable {K : Type}

theorem evs_nodup (len : ℕ) : ((List.range len).flatMap fun r => [Ev.start r, Ev.finish r]).Nodup := by
  rw [List.nodup_flatMap]
  refine ⟨fun r _ => by simp, ?_⟩
  apply List.Pairwise.imp _ (List.nodup_range (n := len))
  intro a b hab
  simp [Function.onFun, List.disjoint_left, hab]

theorem schedule_prefix (len : ℕ) (orig : List K) (hlen : orig.length = len) (task : ℕ → K → Option K)
    (g : ℕ → K) (hg : ∀ r (h : r < len), task r (orig[r]'(by omega)) = some (g r))
    (pre post : List Ev) (h : IsSchedule len (pre ++ post)) :
    ∃ s, pre.foldlM (parStep task) { out := orig, pend := fun _ => none } = some s ∧ s.out.length = len ∧
      (∀ r (hr' : r < len) (hr : r < s.out.length), s.out[r] = if Ev.finish r ∈ pre then g r else orig[r]'(by omega)) ∧
      (∀ r, Ev.start r ∈ pre → s.pend r = some (g r)) := by
  induction pre using List.reverseRecOn generalizing post with
  | nil => exact ⟨_, rfl, hlen, by simp, by simp⟩
  | append_singleton pre e ih =>
    rw [List.append_assoc] at h
    obtain ⟨s, hs, hl, hout, hpend⟩ := ih ([e] ++ post) h
    have hnd : (pre ++ ([e] ++ post)).Nodup := h.1.nodup_iff.mpr (evs_nodup len)
    have hmem : e ∈ (List.range len).flatMap fun r => [Ev.start r, Ev.finish r] := by
      apply (h.1.mem_iff).mp; simp
    rw [List.foldlM_append, hs]
    simp only [Option.bind_eq_bind, Option.bind_some, List.foldlM_cons, List.foldlM_nil]
    cases e with
    | start r =>
      have hr : r < len := by simpa using hmem
      have hnf : Ev.finish r ∉ pre := by
        intro hin
        obtain ⟨p1, p2, hp⟩ := List.append_of_mem hin
        have := h.2 p1 (p2 ++ ([Ev.start r] ++ post)) r (by rw [hp]; simp)
        have hsp : Ev.start r ∈ pre := by rw [hp]; simp [this]
        rw [List.nodup_append] at hnd
        exact hnd.2.2 _ hsp _ (by simp) rfl
      have hcell : s.out[r]? = some (orig[r]'(by omega)) := by
        rw [List.getElem?_eq_getElem (by omega), hout r hr (by omega), if_neg hnf]
      refine ⟨{ s with pend := fun i => if i = r then some (g r) else s.pend i }, ?_, hl, ?_, ?_⟩
      · simp [parStep, hcell, hg r hr]
      · intro r' hr'' hr'
        simp only [List.mem_append, List.mem_singleton, reduceCtorEq, or_false]
        exact hout r' hr'' hr'
      · intro r' hr'
        simp only [List.mem_append, List.mem_singleton, Ev.start.injEq] at hr'
        simp only
        by_cases e : r' = r
        · rw [if_pos e, e]
        · rw [if_neg e]
          exact hpend r' (hr'.resolve_right e)
    | finish r =>
      have hr : r < len := by simpa using hmem
      have hst : Ev.start r ∈ pre := h.2 pre post r (by simp)
      refine ⟨{ s with out := s.out.set r (g r) }, ?_, ?_, ?_, ?_⟩
      · simp only [parStep, hpend r hst, Option.bind_eq_bind, Option.bind_some, hl, hr, if_true]
        rfl
      · simpa using hl
      · intro r' hr'' hr'
        simp only [List.mem_append, List.mem_singleton, Ev.finish.injEq]
        rw [List.getElem_set]
        by_cases e : r = r'
        · subst e; simp
        · have e' : ¬ r' = r := fun h => e h.symm
          simp only [e, e', if_false, or_false]
          exact hout r' hr'' (by simpa using hr')
      · intro r' hr'
        simp only [List.mem_append, List.mem_singleton, reduceCtorEq, or_false] at hr'
        exact hpend r' hr'

theorem runSchedule_eq (orig : List K) (task : ℕ → K → Option K)
    (g : ℕ → K) (hg : ∀ r (h : r < orig.length), task r orig[r] = some (g r))
    (evs : List Ev) (h : IsSchedule orig.length evs) :
    runSchedule task evs orig = some ((List.range orig.length).map g) := by
  obtain ⟨s, hs, hl, hout, _⟩ := schedule_prefix orig.length orig rfl task g hg evs [] (by simpa using h)
  rw [runSchedule, hs, Option.map_some]
  congr 1
  apply List.ext_getElem
  · simp [hl]
  · intro r h1 h2
    have hr : r < orig.length := by omega
    rw [hout r hr h1, if_pos]
    · simp
    · apply (h.1.mem_iff).mpr
      simp [hr]

end Verif
