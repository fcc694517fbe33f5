import Verif.Proofs.Apply
import Verif.Proofs.Iter2
import Mathlib.Algebra.Ring.Int.Defs

namespace Verif
open Finset MatrixOp

variable {K : Type} [Semiring K] [DecidableEq K]

omit [DecidableEq K] in
theorem ampAt_append (a b : List K) (io c : ℕ) :
    ampAt (a ++ b) io c = ampAt a io c + ampAt b (io + a.length) c := by
  unfold ampAt
  by_cases h : c < io
  · have : c < io + a.length := by omega
    simp [h, this]
  · by_cases h2 : c < io + a.length
    · rw [if_neg h, if_neg h, if_pos h2, List.getElem?_append_left (by omega), add_zero]
    · rw [if_neg h, if_neg h, if_neg h2, List.getElem?_append_right (by omega),
        List.getElem?_eq_none (by omega : a.length ≤ c - io)]
      simp [Nat.sub_sub]

theorem rowVal_append (n : ℕ) (op : MatrixOp K) (a b : List K) (io row : ℕ) :
    rowVal n op (a ++ b) io row = rowVal n op a io row + rowVal n op b (io + a.length) row := by
  unfold rowVal
  rw [← sum_add_distrib]
  exact sum_congr rfl (fun s _ => by rw [ampAt_append, mul_add])

theorem rowVal_nil (n : ℕ) (op : MatrixOp K) (io row : ℕ) : rowVal n op [] io row = 0 := by
  unfold rowVal
  apply sum_eq_zero
  intro s _
  simp [ampAt]

omit [DecidableEq K] in
theorem ampAt_zero_offset (v : List K) (c : ℕ) (h : c < v.length) : ampAt v 0 c = v[c] := by
  simp [ampAt, h]

/-- writing the controls and the inner part separately -/
theorem f2s_append (n : ℕ) (C R : List ℕ) (x : ℕ) :
    f2s n (C ++ R) x = f2s n C x * 2 ^ R.length + f2s n R x := by
  apply Nat.eq_of_testBit_eq
  intro i
  rw [Nat.mul_comm, Nat.testBit_two_pow_mul_add _ (f2s_lt n R x), testBit_f2s]
  simp only [List.length_append]
  by_cases h1 : i < R.length
  · rw [if_pos h1, dif_pos (by omega), testBit_f2s, dif_pos h1]
    rw [List.getElem_append_right (by omega)]
    congr 3; omega
  · rw [if_neg h1, testBit_f2s]
    by_cases h2 : i < C.length + R.length
    · rw [dif_pos h2, dif_pos (by omega), List.getElem_append_left (by omega)]
      congr 3; omega
    · rw [dif_neg h2, dif_neg (by omega)]

theorem ctrl_bits_iff (n : ℕ) (C R : List ℕ) (x : ℕ) :
    (∀ i, i < C.length → (f2s n (C ++ R) x).testBit (R.length + i) = true) ↔
      ∀ c ∈ C, x.testBit (n - 1 - c) = true := by
  constructor
  · intro h c hc
    obtain ⟨j, hj, rfl⟩ := List.mem_iff_getElem.mp hc
    have := h (C.length - 1 - j) (by omega)
    rw [testBit_f2s, dif_pos (by simp; omega), List.getElem_append_left (by simp; omega)] at this
    rw [← this]
    congr 3
    simp; omega
  · intro h i hi
    rw [testBit_f2s, dif_pos (by simp; omega), List.getElem_append_left (by simp; omega)]
    exact h _ (List.getElem_mem _)

omit [DecidableEq K] in
theorem embed_control (n : ℕ) (C : List ℕ) (op : MatrixOp K) (hnd : (C ++ op.indices).Nodup)
    (hidx : ∀ i ∈ C ++ op.indices, i < n) (r c : ℕ) (hr : r < 2 ^ n) (hc : c < 2 ^ n) :
    embed n (C ++ op.indices) (opMat (newControl C op.indices op)) r c =
      if ∀ q ∈ C, r.testBit (n - 1 - q) = true then embed n op.indices (opMat op) r c
      else if r = c then 1 else 0 := by
  classical
  have hlen : (C ++ op.indices).length - C.length = op.indices.length := by simp
  have hmat : ∀ a b, opMat (newControl C op.indices op) a b = ctrlMat C.length op.indices.length (opMat op) a b := by
    intro a b; simp only [newControl, opMat, hlen]
  have hsub : ∀ a b, AgreeOff n op.indices a b → AgreeOff n (C ++ op.indices) a b := by
    intro a b h q hq hm
    exact h q hq (fun hm' => hm (by simp [hm']))
  have hmod : ∀ x, f2s n (C ++ op.indices) x % 2 ^ op.indices.length = f2s n op.indices x := by
    intro x
    rw [f2s_append, Nat.mul_comm, Nat.mul_add_mod, Nat.mod_eq_of_lt (f2s_lt _ _ _)]
  unfold embed
  rw [hmat, readQubits_eq, readQubits_eq, readQubits_eq, readQubits_eq]
  unfold ctrlMat
  simp only [ctrl_bits_iff, hmod]
  by_cases hA : ∀ q ∈ C, r.testBit (n - 1 - q) = true
  · simp only [if_pos hA]
    by_cases hag : AgreeOff n op.indices r c
    · have hB : ∀ q ∈ C, c.testBit (n - 1 - q) = true := by
        intro q hq
        have hqR : q ∉ op.indices := by
          rw [List.nodup_append] at hnd
          exact fun hm => hnd.2.2 q hq q hm rfl
        rw [← hag q (hidx q (by simp [hq])) hqR]
        exact hA q hq
      rw [if_pos hag, if_pos (hsub _ _ hag), if_pos hB]
    · rw [if_neg hag]
      by_cases hag' : AgreeOff n (C ++ op.indices) r c
      · rw [if_pos hag', if_neg]
        intro hB
        apply hag
        intro q hq hm
        by_cases hqC : q ∈ C
        · rw [hA q hqC, hB q hqC]
        · exact hag' q hq (by simp [hqC, hm])
      · rw [if_neg hag']
  · simp only [if_neg hA]
    by_cases e : r = c
    · subst e
      rw [if_pos rfl, if_pos rfl, if_pos (show AgreeOff n (C ++ op.indices) r r from fun _ _ _ => rfl)]
    · rw [if_neg e]
      by_cases hag' : AgreeOff n (C ++ op.indices) r c
      · rw [if_pos hag', if_neg]
        intro he
        apply e
        have h1 := s2f_f2s_of_agree n (C ++ op.indices) c r hnd hidx
          (agree_of_testBit n _ r c hidx hr hc hag')
        rw [← he, s2f_f2s n _ r hnd hidx] at h1
        exact h1
      · rw [if_neg hag']

/-! ### Several ops at once -/

/-- no row of the op is empty -/
def NoEmptyRow (op : MatrixOp K) : Prop :=
  ∀ row l, row < 2 ^ op.indices.length → items op op.indices.length row = some l → l ≠ []

theorem noEmptyRow_of_ne (op : MatrixOp K) (hwf : op.WF)
    (h : ∀ r < 2 ^ op.indices.length, ∃ c < 2 ^ op.indices.length, opMat op r c ≠ 0) : NoEmptyRow op := by
  intro row l hr hl he
  subst he
  obtain ⟨l', h1, h2⟩ := items_spec op hwf row hr
  rw [hl] at h1
  cases h1
  obtain ⟨c, hc, hne⟩ := h row hr
  exact hne (h2.2 c hc).symm

theorem sum_digits (a w : ℕ) (g : ℕ → K) :
    ∑ c ∈ range (2 ^ (a + w)), g c = ∑ x ∈ range (2 ^ a), ∑ y ∈ range (2 ^ w), g (x * 2 ^ w + y) := by
  rw [Nat.pow_add]
  generalize 2 ^ a = A
  induction A with
  | zero => simp
  | succ A ih =>
    rw [sum_range_succ, Nat.succ_mul, sum_range_add, ih]

omit [DecidableEq K] in
theorem sum_flatMap' {α : Type} (l : List α) (f : α → List K) :
    (l.flatMap f).sum = (l.map (fun a => (f a).sum)).sum := by
  induction l with
  | nil => rfl
  | cons a l ih => rw [List.flatMap_cons, List.sum_append, ih, List.map_cons, List.sum_cons]

theorem opsItems_spec (ops : List (MatrixOp K)) (hwf : ∀ op ∈ ops, op.WF) (hne : ∀ op ∈ ops, NoEmptyRow op)
    (row : ℕ) :
    ∃ ls, opsItems (ops.zip (ops.map (fun o => o.indices.length))) row = some ls ∧
      ls.length = ops.length ∧ (∀ l ∈ ls, l ≠ []) ∧
      (∀ p ∈ (ops.map (fun o => o.indices.length)).zip ls, ∀ e ∈ p.2, e.1 < 2 ^ p.1) ∧
      ∀ x : ℕ → K, ((combos ls).map (fun c =>
          (c.map Prod.snd).prod * x (concatCol (ops.map (fun o => o.indices.length)) c))).sum =
        ∑ c ∈ range (2 ^ (ops.map (fun o => o.indices.length)).sum), kronRowsReversed ops row c * x c := by
  induction ops generalizing row with
  | nil => exact ⟨[], rfl, rfl, by simp, by simp, by simp [combos, concatCol, kronRowsReversed]⟩
  | cons op ops ih =>
    obtain ⟨ls, h1, h2, h3, h4, h5⟩ := ih (fun o h => hwf o (by simp [h])) (fun o h => hne o (by simp [h]))
      (row / 2 ^ op.indices.length)
    have hlt : row % 2 ^ op.indices.length < 2 ^ op.indices.length := Nat.mod_lt _ (Nat.two_pow_pos _)
    obtain ⟨l, g1, g2⟩ := items_spec op (hwf op (by simp)) _ hlt
    refine ⟨l :: ls, ?_, by simp [h2], ?_, ?_, ?_⟩
    · simp only [List.map_cons, List.zip_cons_cons, opsItems, Nat.one_shiftLeft, Nat.and_two_pow_sub_one_eq_mod,
        Nat.shiftRight_eq_div_pow, g1, h1, Option.bind_eq_bind, Option.bind_some]
    · intro l' hl'
      rcases List.mem_cons.mp hl' with rfl | hl'
      · exact hne op (by simp) _ _ hlt g1
      · exact h3 l' hl'
    · intro p hp e he
      rw [List.map_cons, List.zip_cons_cons, List.mem_cons] at hp
      rcases hp with rfl | hp
      · exact g2.1 e he
      · exact h4 p hp e he
    · intro x
      simp only [combos, List.map_flatMap, List.map_map, List.map_cons, List.sum_cons]
      rw [sum_flatMap', sum_digits]
      have := g2.sum (fun col => ∑ y ∈ range (2 ^ (ops.map (fun o => o.indices.length)).sum),
        kronRowsReversed ops (row / 2 ^ op.indices.length) y *
          x (col * 2 ^ (ops.map (fun o => o.indices.length)).sum + y))
      have hr : ∀ a b, b < 2 ^ (ops.map (fun o => o.indices.length)).sum →
          kronRowsReversed (op :: ops) row (a * 2 ^ (ops.map (fun o => o.indices.length)).sum + b) =
          opMat op (row % 2 ^ op.indices.length) a * kronRowsReversed ops (row / 2 ^ op.indices.length) b := by
        intro a b hb
        simp only [kronRowsReversed]
        rw [Nat.mul_comm a, Nat.mul_add_div (Nat.two_pow_pos _), Nat.div_eq_of_lt hb, Nat.mul_add_mod,
          Nat.mod_eq_of_lt hb, Nat.add_zero]
      rw [sum_congr rfl (fun a _ => sum_congr rfl (fun b hb => by rw [hr a b (mem_range.mp hb), mul_assoc]))]
      rw [sum_congr rfl (fun a _ => (mul_sum _ _ _).symm), ← this]
      congr 1
      apply List.map_congr_left
      intro e _
      rw [← h5, ← List.sum_map_mul_left]
      congr 1
      apply List.map_congr_left
      intro c _
      simp [concatCol, mul_assoc]

theorem mapM_numIndices (ops : List (MatrixOp K)) (h : ∀ op ∈ ops, op.WF) :
    ops.mapM numIndices = some (ops.map (fun o => o.indices.length)) := by
  apply mapM_some
  intro op ho
  have := h op ho
  cases op <;> simp_all [numIndices, indices, MatrixOp.WF]

theorem sumForOpsCols_eq (ops : List (MatrixOp K)) (hwf : ∀ op ∈ ops, op.WF) (hne : ∀ op ∈ ops, NoEmptyRow op)
    (row : ℕ) (x : ℕ → K) (f : ℕ × K → Option K) (hf : ∀ e, f e = some (e.2 * x e.1)) :
    sumForOpsCols row ops f =
      some (∑ c ∈ range (2 ^ (ops.map (fun o => o.indices.length)).sum), kronRowsReversed ops row c * x c) := by
  obtain ⟨ls, h1, h2, h3, h4, h5⟩ := opsItems_spec ops hwf hne row
  unfold sumForOpsCols
  simp only [mapM_numIndices ops hwf, Option.bind_eq_bind, Option.bind_some, h1]
  rw [drain_multi_new _ ls (by simp [h2]) h3]
  simp only [Option.bind_some]
  rw [mapM_some _ f (fun e => e.2 * x e.1) (fun e _ => hf e)]
  simp only [Option.bind_some]
  congr 1
  rw [← h5, List.map_map, total_eq]
  congr 1
  apply List.map_congr_left
  intro c hc
  rw [mem_combos] at hc
  rw [Function.comp_apply, combine_eq K _ c (0, 1) (by simp [hc.length_eq, h2])]
  · simp
  · intro p hp
    obtain ⟨i, hi, rfl⟩ := List.mem_iff_getElem.mp hp
    rw [List.getElem_zip]
    simp only [List.length_zip] at hi
    have hi' : i < ls.length := by have := hc.length_eq; omega
    have := h4 ((ops.map (fun o => o.indices.length))[i], ls[i])
      (by rw [List.mem_iff_getElem]; exact ⟨i, by simp; simp at hi; omega, by simp⟩)
    apply this
    exact List.Forall₂.get hc (by omega) hi'

theorem mapM_matIndices (ops : List (MatrixOp K)) (hwf : ∀ op ∈ ops, op.WF) :
    ops.mapM matIndices = some (ops.map indices) :=
  mapM_some _ _ _ (fun op ho => matIndices_eq op (hwf op ho))

theorem applyOps_many (n : ℕ) (a b : MatrixOp K) (ops : List (MatrixOp K)) (hwf : ∀ op ∈ a :: b :: ops, op.WF)
    (hne : ∀ op ∈ a :: b :: ops, NoEmptyRow op) (hnd : ((a :: b :: ops).flatMap indices).Nodup)
    (hidx : ∀ i ∈ (a :: b :: ops).flatMap indices, i < n) (input output : List K) (io oo : ℕ)
    (hlen : oo + output.length ≤ 2 ^ n) :
    applyOps n (a :: b :: ops) input output io oo = some (output.zipIdx.map (fun p => p.1 +
      ∑ c ∈ range (2 ^ n), embed n ((a :: b :: ops).flatMap indices) (kronRowsReversed (a :: b :: ops)) (oo + p.2) c *
        ampAt input io c)) := by
  have hfl : ((a :: b :: ops).map indices).flatten = (a :: b :: ops).flatMap indices := rfl
  rw [applyOps]
  simp only [mapM_matIndices _ hwf, Option.bind_eq_bind, Option.bind_some]
  rw [hfl]
  generalize hL : a :: b :: ops = L at *
  apply mapM_some
  · intro p hp
    have hp2 : p.2 < output.length := by
      obtain ⟨x, i⟩ := p
      rw [List.mem_zipIdx_iff_getElem?] at hp
      exact (List.getElem?_eq_some_iff.mp hp).1
    simp only [fullToSub_eq n _ (oo + p.2) hidx, Option.bind_some]
    rw [sumForOpsCols_eq L hwf hne _ (fun s => ampAt input io (s2f n (L.flatMap indices) s (oo + p.2))) _
      (fun e => colValue_eq n _ _ io input e hidx)]
    simp only [Option.bind_some]
    rw [← embed_sum n _ hnd hidx _ _ _ (by omega)]
    congr 3
    rw [List.length_flatMap]
  · rintro _ h; cases h
  · intro h; cases h

end Verif
