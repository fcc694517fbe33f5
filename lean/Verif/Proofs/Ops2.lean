import Verif.Proofs.Ops
import Verif.Model.Measure
import Mathlib.Data.Complex.BigOperators
import Mathlib.Algebra.Star.BigOperators

namespace Verif
open Finset MatrixOp

variable {K : Type}

/-! ### Little-endian reordering -/

theorem flipCols_eq (n : ℕ) (h1 : 1 ≤ n) (h2 : n ≤ 64) (v : List (ℕ × K)) :
    flipCols n v = some (v.map fun e => (rev n e.1, e.2)) := by
  unfold flipCols
  apply mapM_some
  intro e _
  rw [flipBits_eq_rev n e.1 h1 h2]; rfl

theorem map_range_zipIdx {α : Type} (l : List α) : l.zipIdx = (List.range l.length).pmap
    (fun i h => (l[i]'h, i)) (fun i h => List.mem_range.mp h) := by
  apply List.ext_getElem
  · simp
  · intro i h1 h2
    simp

/-- rows sorted by flipped number: row `i` of the result is row `rev i` of the data -/
theorem reorderRows_spec (n : ℕ) (h1 : 1 ≤ n) (h2 : n ≤ 64) (dat : List (List (ℕ × K)))
    (hlen : dat.length = 2 ^ n) :
    ∃ m, reorderRows n dat = some m ∧ m.length = 2 ^ n ∧
      ∀ r, r < 2 ^ n → m[r]? = (dat[rev n r]?).map (fun v => v.map fun e => (rev n e.1, e.2)) := by
  have e1 : dat.mapM (flipCols n) = some (dat.map fun v => v.map fun e => (rev n e.1, e.2)) :=
    mapM_some _ _ _ (fun v _ => flipCols_eq n h1 h2 v)
  generalize hd : (dat.map fun v => v.map fun e => (rev n e.1, e.2)) = d at e1
  have hdl : d.length = 2 ^ n := by rw [← hd]; simpa using hlen
  have e2 : (d.zipIdx.mapM fun p => (flipBits n p.2).map fun k => (k, p.1)) =
      some (d.zipIdx.map fun p => (rev n p.2, p.1)) :=
    mapM_some _ _ _ (fun p _ => by rw [flipBits_eq_rev n p.2 h1 h2]; rfl)
  -- the sorted list
  let target : List (ℕ × List (ℕ × K)) := (List.range (2 ^ n)).map fun r => (r, (d[rev n r]?).getD [])
  have hperm : (d.zipIdx.map fun p => (rev n p.2, p.1)).Perm target := by
    rw [List.perm_ext_iff_of_nodup]
    · rintro ⟨k, v⟩
      simp only [target, List.mem_map, List.mem_range, Prod.mk.injEq, Prod.exists]
      constructor
      · rintro ⟨v', i, hm, rfl, rfl⟩
        rw [List.mem_zipIdx_iff_getElem?] at hm
        have hi : i < d.length := (List.getElem?_eq_some_iff.mp hm).1
        refine ⟨rev n i, rev_lt n i, rfl, ?_⟩
        rw [rev_rev n i (by omega)]
        simp only at hm
        rw [hm]; rfl
      · rintro ⟨r, hr, rfl, rfl⟩
        have hb := rev_lt n r
        refine ⟨_, rev n r, ?_, rev_rev n r hr, rfl⟩
        rw [List.mem_zipIdx_iff_getElem?]
        simp only
        rw [List.getElem?_eq_getElem (by omega)]; rfl
    · have : ((d.zipIdx.map fun p => (rev n p.2, p.1)).map Prod.fst).Nodup := by
        rw [List.map_map]
        have : (Prod.fst ∘ fun p : List (ℕ × K) × ℕ => (rev n p.2, p.1)) = rev n ∘ Prod.snd := rfl
        rw [this, ← List.map_map, List.zipIdx_map_snd]
        apply List.Nodup.map_on _ (List.nodup_range' ..)
        intro x hx y hy hxy
        rw [List.mem_range'_1] at hx hy
        rw [← rev_rev n x (by omega), ← rev_rev n y (by omega), hxy]
      exact List.Nodup.of_map _ this
    · have : (target.map Prod.fst).Nodup := by
        simp only [target, List.map_map]
        exact (List.nodup_range (n := 2 ^ n)).map (fun a b h => h)
      exact List.Nodup.of_map _ this
  have hsorted : ((d.zipIdx.map fun p => (rev n p.2, p.1)).mergeSort fun a b => decide (a.1 ≤ b.1)) = target := by
    have hs1 := List.pairwise_mergeSort (le := fun (a b : ℕ × List (ℕ × K)) => decide (a.1 ≤ b.1))
      (by intro a b c; simp; omega) (by intro a b; simp; omega) (d.zipIdx.map fun p => (rev n p.2, p.1))
    have hp1 := (List.mergeSort_perm (d.zipIdx.map fun p => (rev n p.2, p.1))
      (fun a b => decide (a.1 ≤ b.1))).trans hperm
    have hs2 : target.Pairwise (fun a b => decide (a.1 ≤ b.1) = true) := by
      simp only [target, List.pairwise_map, decide_eq_true_eq]
      exact List.pairwise_le_range
    apply List.Perm.eq_of_pairwise _ hs1 hs2 hp1
    intro a b ha hb hab hba
    have ha' := hp1.mem_iff.mp ha
    simp only [target, List.mem_map, List.mem_range] at ha' hb
    obtain ⟨x, _, rfl⟩ := ha'
    obtain ⟨y, _, rfl⟩ := hb
    simp only [decide_eq_true_eq] at hab hba
    rw [show x = y by omega]
  refine ⟨target.map Prod.snd, ?_, by simp [target], ?_⟩
  · simp only [reorderRows, Option.bind_eq_bind, e1, Option.bind_some]
    rw [e2]
    simp only [Option.bind_some, hsorted]
  · intro r hr
    have hb := rev_lt n r
    simp only [target, List.map_map, List.getElem?_map, List.getElem?_range hr, Option.map_some, Function.comp_apply]
    rw [← hd, List.getElem?_map, List.getElem?_eq_getElem (by omega)]
    rfl

theorem normSq_sum_unitary (N : ℕ) (U : ℕ → ℕ → ℂ)
    (h : ∀ r c, r < N → c < N → ∑ s ∈ range N, star (U s r) * U s c = if r = c then 1 else 0) (v : ℕ → ℂ) :
    ∑ r ∈ range N, Complex.normSq (∑ c ∈ range N, U r c * v c) = ∑ c ∈ range N, Complex.normSq (v c) := by
  apply Complex.ofReal_injective
  rw [Complex.ofReal_sum, Complex.ofReal_sum]
  have hn : ∀ z : ℂ, ((Complex.normSq z : ℝ) : ℂ) = star z * z := by
    intro z; rw [Complex.normSq_eq_conj_mul_self]; rfl
  simp only [hn, star_sum, star_mul']
  have : ∀ r, (∑ c ∈ range N, star (U r c) * star (v c)) * (∑ c ∈ range N, U r c * v c) =
      ∑ a ∈ range N, ∑ b ∈ range N, (star (v a) * v b) * (star (U r a) * U r b) := by
    intro r
    rw [sum_mul_sum]
    apply sum_congr rfl; intro a _; apply sum_congr rfl; intro b _; ring
  simp only [this]
  rw [sum_comm]
  apply sum_congr rfl
  intro a ha
  rw [sum_comm]
  rw [sum_eq_single a]
  · rw [← mul_sum, h a a (mem_range.mp ha) (mem_range.mp ha), if_pos rfl, mul_one]
  · intro b hb hne
    rw [← mul_sum, h a b (mem_range.mp ha) (mem_range.mp hb), if_neg (Ne.symm hne), mul_zero]
  · intro hn; exact absurd ha hn

theorem probMagnitude_eq (v : List ℂ) : probMagnitude v = ∑ c ∈ range v.length, Complex.normSq (ampAt v 0 c) := by
  unfold probMagnitude
  induction v using List.reverseRecOn with
  | nil => simp
  | append_singleton v x ih =>
    rw [List.map_append, List.sum_append, ih, List.length_append, List.length_singleton, sum_range_succ]
    congr 1
    · apply sum_congr rfl
      intro c hc
      have := mem_range.mp hc
      simp [ampAt, this, List.getElem?_append_left]
    · simp [ampAt]

end Verif
