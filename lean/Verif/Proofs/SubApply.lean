import Verif.Proofs.Temp
import Verif.Proofs.Rename
import Verif.Proofs.Groups
import Verif.Proofs.InverseSub

/-! # Applying subcircuits -/

namespace Verif
open Classical RegOps CircuitBuilder TempBuilder Rooted

theorem slots_foldl_set (R : Reg) (is : List ℕ) (used : List ℕ) :
    (is.zip ((at' R is).map fun q => [q])).foldl (fun sl p => sl.set p.1 (some p.2)) (slotsOf R (is ++ used)) =
      slotsOf R (used.filter fun i => i ∉ is) := by
  apply List.ext_getElem?
  intro j
  have key : ∀ (l : List (ℕ × Reg)) (sl : List (Option Reg)), (∀ p ∈ l, p.2 = [R.getD p.1 0]) →
      (l.foldl (fun sl p => sl.set p.1 (some p.2)) sl)[j]? =
        if j ∈ l.map Prod.fst ∧ j < sl.length then some (some [R.getD j 0]) else sl[j]? := by
    intro l
    induction l with
    | nil => intro sl _; simp
    | cons p l ih =>
      intro sl h
      rw [List.foldl_cons, ih _ fun p' hp' => h p' (by simp [hp'])]
      simp only [List.map_cons, List.mem_cons, List.length_set]
      by_cases h1 : j ∈ l.map Prod.fst ∧ j < sl.length
      · rw [if_pos h1, if_pos ⟨Or.inr h1.1, h1.2⟩]
      · rw [if_neg h1, List.getElem?_set]
        by_cases h2 : p.1 = j
        · subst h2
          by_cases h3 : p.1 < sl.length
          · rw [if_pos rfl, if_pos h3, if_pos ⟨Or.inl rfl, h3⟩, h p (by simp)]
          · rw [if_pos rfl, if_neg h3, if_neg (fun hh => h3 hh.2), List.getElem?_eq_none (by omega)]
        · rw [if_neg h2, if_neg]
          rintro ⟨h3 | h3, h4⟩
          · exact h2 h3.symm
          · exact h1 ⟨h3, h4⟩
  have hz : is.zip ((at' R is).map fun q => [q]) = is.map fun i => (i, [R.getD i 0]) := by
    unfold at'
    rw [List.map_map, List.zip_map_right, ← List.zip_map_right]
    induction is with
    | nil => rfl
    | cons i is ih => rw [List.map_cons, List.zip_cons_cons, ih]; rfl
  rw [hz, key _ _ (by intro p hp; simp only [List.mem_map] at hp; obtain ⟨i, _, rfl⟩ := hp; rfl)]
  simp only [List.map_map]
  have : (is.map (Prod.fst ∘ fun i => (i, [R.getD i 0]))) = is := by
    rw [show (Prod.fst ∘ fun i => (i, [R.getD i 0])) = (id : ℕ → ℕ) from rfl, List.map_id]
  rw [this]
  unfold slotsOf
  simp only [List.length_map, List.length_range, List.getElem?_map]
  by_cases hj : j < R.length
  · rw [List.getElem?_range hj]
    by_cases h : j ∈ is <;> simp [h, hj]
  · rw [List.getElem?_eq_none (by simp; omega)]
    simp [hj]

theorem slots_some (R : Reg) : (slotsOf R []).all Option.isSome = true := by
  unfold slotsOf
  simp

theorem slots_mapM (R : Reg) : (slotsOf R []).mapM id = some (R.map fun q => [q]) := by
  rw [slotsOf_nil]
  induction R with
  | nil => rfl
  | cons q R ih =>
    rw [List.map_cons, List.map_cons, List.mapM_cons, ih]
    rfl

section
variable {β : Type} [TempBuilder β] [LawfulReg β]

theorem applyEntry_of {R : Reg} (hR : R.Nodup) {e : List ℕ × CObj} (he : e.1 ≠ []) (hn : e.1.Nodup)
    (hl : ∀ i ∈ e.1, i < R.length) {s s' : β} (h : applyCO (at' R e.1) e.2 s = .ok (at' R e.1) s') :
    applyEntry (slotsOf R []) e s = .ok (slotsOf R []) s' := by
  unfold applyEntry
  rw [takeMany_eq R e.1 [] hn fun i hi => ⟨hl i hi, by simp⟩]
  simp only [liftE_ok, pure_bind]
  rw [merge_at R e.1 he]
  simp only [pure_bind, unwrapO_some]
  rw [bind_ok h, splitAll_eq (at' R e.1) (by simpa [at'] using he) (at_nodup R hR e.1 hn hl)]
  simp only [pure_bind]
  have h2 : (e.1.zip ((at' R e.1).map fun q => [q])).foldl (fun sl p => sl.set p.1 (some p.2)) (slotsOf R (e.1 ++ [])) =
      slotsOf R [] := slots_foldl_set R e.1 []
  rw [h2, if_pos (slots_some R)]
  rfl
end

/-- the elements of a circuit, on the qubits `R` -/
theorem foldEntries_emits {R : Reg} (hR : R.Nodup) (sc : Pipeline)
    (h : ∀ e ∈ sc, e.1 ≠ [] ∧ e.1.Nodup ∧ (∀ i ∈ e.1, i < R.length) ∧ e.2.n = e.1.length) :
    Emits (sc.foldlM applyEntry (slotsOf R [])) (slotsOf R []) (rename R sc) := by
  induction sc with
  | nil => exact Emits.pure _
  | cons e sc ih =>
    obtain ⟨h1, h2, h3, h4⟩ := h e (by simp)
    rw [List.foldlM_cons]
    refine Emits.bind (p := [(at' R e.1, e.2)]) (fun s => ?_) (ih fun e' he' => h e' (by simp [he']))
    refine applyEntry_of hR h1 h2 h3 ?_
    have := applyCO_reg_emits (at' R e.1) e.2.object s
    rw [at_length, ← h4] at this
    exact this

/-- the temporaries a circuit needs beside a register of size `k` -/
theorem pipeline_run {β : Type} [Conditionable β] [Rooted β] [Sim β] {s : β} {L : List ℕ} {sc : Pipeline} {r : Reg}
    (hr : r ≠ []) (hn : r.Nodup) {m : ℕ} (hm : maxIndex sc = some m) (hk : r.length ≤ m + 1)
    (ho : Own (root s) (r ++ L))
    (H : ∀ (t : Reg) (s1 : β), t.length = m + 1 - r.length → ctl s1 = ctl s → Own (root s1) (r ++ t ++ L) →
      (root s1).pipeline = (root s).pipeline → (root s).n ≤ (root s1).n → (root s1).measurements = (root s).measurements →
      (∀ q ∈ t, q ∈ (root s).zeroedQubits.flatten ∨ (root s).n ≤ q) →
      (∀ x, Clean (root s) x → Clean (root s1) x ∧ ∀ q ∈ t, x q = false) →
      ∃ s2, sc.foldlM applyEntry (slotsOf (r ++ t) []) s1 = .ok (slotsOf (r ++ t) []) s2 ∧ Own (root s2) (r ++ t ++ L)) :
    ∃ (t : Reg) (s1 s2 s3 : β), t.length = m + 1 - r.length ∧ ctl s1 = ctl s ∧ Own (root s1) (r ++ t ++ L) ∧
      (root s1).pipeline = (root s).pipeline ∧ (root s).n ≤ (root s1).n ∧ (root s1).measurements = (root s).measurements ∧
      (∀ q ∈ t, q ∈ (root s).zeroedQubits.flatten ∨ (root s).n ≤ q) ∧
      (∀ x, Clean (root s) x → Clean (root s1) x ∧ ∀ q ∈ t, x q = false) ∧
      sc.foldlM applyEntry (slotsOf (r ++ t) []) s1 = .ok (slotsOf (r ++ t) []) s2 ∧
      applyPipelineObjects sc r s = .ok r s3 ∧ ctl s3 = ctl s2 ∧ Own (root s3) (r ++ L) ∧
      (root s3).pipeline = (root s2).pipeline ∧ (root s3).n = (root s2).n ∧
      (root s3).measurements = (root s2).measurements ∧
      (root s3).zeroedQubits = (root s2).zeroedQubits ++ t.map (fun q => [q]) ∧
      ∀ x, Clean (root s2) x → (∀ q ∈ t, x q = false) → Clean (root s3) x := by
  unfold applyPipelineObjects
  simp only
  rw [splitAll_eq r hr hn]
  simp only [pure_bind]
  rw [hm]
  simp only [unwrapO_some, pure_bind]
  rw [if_neg (by omega)]
  by_cases h0 : 1 + m - r.length = 0
  · rw [if_pos h0]
    have e0 : m + 1 - r.length = 0 := by omega
    obtain ⟨s2, h1, h2⟩ := H [] s (by simpa using e0.symm) rfl (by simpa using ho) rfl (le_refl _) rfl (by simp)
      fun x hx => ⟨hx, by simp⟩
    refine ⟨[], s, s2, s2, by simpa using e0.symm, rfl, by simpa using ho, rfl, le_refl _, rfl, by simp,
      fun x hx => ⟨hx, by simp⟩, h1, ?_, rfl, by simpa using h2, rfl, rfl, rfl, by simp, fun x hx _ => hx⟩
    rw [List.append_nil] at h1
    rw [← slotsOf_nil, bind_ok h1, slots_mapM]
    simp only [unwrapO_some, pure_bind]
    rw [if_neg (by simp), List.drop_eq_nil_of_le (by simp), mergeRegisters_nil, pure_bind,
      List.take_of_length_le (by simp), mergeSingles r hr]
    rfl
  · rw [if_neg h0]
    obtain ⟨t, s1, g1, g2, g3, g4, g5, g6, g7, g8, g9⟩ := makeTempRegister_sim (n := 1 + m - r.length) (by omega) ho
    have g4' : Own (root s1) (r ++ t ++ L) := g4.perm (by
      rw [← List.append_assoc]; exact List.perm_append_comm.append_right L)
    have e0 : t.length = m + 1 - r.length := by omega
    obtain ⟨s2, h1, h2⟩ := H t s1 e0 g3 g4' g5 g6 g7 g8 g9
    have ht : t ≠ [] := by rintro rfl; simp at g2; omega
    have htn : t.Nodup := (List.nodup_append.mp g4.left).1
    obtain ⟨b, k1, k2, k3, k4, k5, k6, k7⟩ := returnTempR_local t ht (h2.perm (by
      show (r ++ t ++ L).Perm (t ++ (r ++ L))
      rw [← List.append_assoc]; exact List.perm_append_comm.append_right L))
    obtain ⟨s3, j1, j2, j3⟩ := Sim.returnTemp (β := β) (s := s2) k1
    subst j2
    refine ⟨t, s1, s2, s3, e0, g3, g4', g5, g6, g7, g8, g9, h1, ?_, j3, k2, k3, k4, k5, k6, k7⟩
    rw [bind_ok g1, splitAll_eq t ht htn]
    simp only [pure_bind]
    rw [← List.map_append, ← slotsOf_nil, bind_ok h1, slots_mapM]
    simp only [unwrapO_some, pure_bind]
    rw [if_neg (by simp)]
    have ed : ((r ++ t).map fun q => [q]).drop r.length = t.map fun q => [q] := by
      rw [List.map_append, List.drop_left' (by simp)]
    have et : ((r ++ t).map fun q => [q]).take r.length = r.map fun q => [q] := by
      rw [List.map_append, List.take_left' (by simp)]
    rw [ed, et, mergeSingles t ht, pure_bind]
    simp only
    rw [bind_ok j1, mergeSingles r hr]
    rfl

/-- `apply_subcircuit` of a `LocalBuilder` -/
theorem applySub_local {s : LocalBuilder} {L : List ℕ} {sc : Pipeline} {r : Reg} (hr : r ≠ []) {m : ℕ}
    (hm : maxIndex sc = some m) (hk : r.length ≤ m + 1)
    (h : ∀ e ∈ sc, e.1 ≠ [] ∧ e.1.Nodup ∧ e.2.n = e.1.length) (ho : Own s (r ++ L)) :
    ∃ t s', applyPipelineObjects sc r s = .ok r s' ∧ t.length = m + 1 - r.length ∧ (r ++ t ++ L).Nodup ∧
      (∀ q ∈ t, q ∈ s.zeroedQubits.flatten ∨ s.n ≤ q) ∧ s'.pipeline = s.pipeline ++ rename (r ++ t) sc ∧
      s.n ≤ s'.n ∧ (∀ q ∈ r ++ t, q < s'.n) ∧ s'.measurements = s.measurements ∧ Own s' (r ++ L) ∧
      (∀ q ∈ t, q ∈ s'.zeroedQubits.flatten) ∧
      ∀ x, Clean s x → (∀ q ∈ t, x q = false) ∧ ∀ y, (∀ q, q ∉ r ++ t → y q = x q) → (∀ q ∈ t, y q = false) → Clean s' y := by
  have hn : r.Nodup := (List.nodup_append.mp ho.left).1
  have hlt : ∀ e ∈ sc, ∀ i ∈ e.1, i ≤ m := ((maxIndex_iff sc m).mp hm).2
  have hfold : ∀ t : Reg, t.length = m + 1 - r.length → (r ++ t).Nodup →
      Emits (sc.foldlM applyEntry (slotsOf (r ++ t) [])) (slotsOf (r ++ t) []) (rename (r ++ t) sc) := by
    intro t ht hnt
    refine foldEntries_emits hnt sc fun e he => ⟨(h e he).1, (h e he).2.1, fun i hi => ?_, (h e he).2.2⟩
    have := hlt e he i hi
    simp only [List.length_append]
    omega
  obtain ⟨t, s1, s2, s3, h1, h2, h3, h4, h5, h6, h7, h8, h9, k1, k2, k3, k4, k5, k6, k7, k8⟩ :=
    pipeline_run (s := s) hr hn hm hk ho (by
      intro t s1 ht _ ho1 _ _ _ _ _
      exact ⟨_, hfold t ht (List.nodup_append.mp ho1.left).1 s1, ho1.pipe _⟩)
  have hnt : (r ++ t).Nodup := (List.nodup_append.mp h3.left).1
  have e2 := hfold t h1 hnt s1
  rw [e2] at h9
  injection h9 with _ h9
  subst h9
  refine ⟨t, s3, k1, h1, h3.left, h7, ?_, ?_, ?_, ?_, k3, ?_, ?_⟩
  · rw [show s3.pipeline = _ from k4]
    show s1.pipeline ++ _ = _
    rw [show s1.pipeline = s.pipeline from h4]
  · rw [show s3.n = _ from k5]; exact h5
  · intro q hq
    rw [show s3.n = _ from k5]
    exact h3.mem_lt (by simp at hq ⊢; tauto)
  · exact (show s3.measurements = _ from k6).trans h6
  · intro q hq
    rw [show s3.zeroedQubits = _ from k7]
    simp [flatten_singles, hq]
  · intro x hx
    obtain ⟨c1, c2⟩ := h8 x hx
    refine ⟨c2, fun y hy ht => k8 y ?_ ht⟩
    intro q hq
    by_cases hm : q ∈ r ++ t
    · rcases List.mem_append.mp hm with hm | hm
      · exfalso
        rcases hq with hq | hq
        · exact h3.not_pool (b := s1) (by simp [hm]) hq
        · have := h3.mem_lt (q := q) (by simp [hm])
          have : q < s1.n := this
          have : s1.n ≤ q := hq
          omega
      · exact ht q hm
    · rw [hy q hm]
      exact c1 q hq

end Verif
