import Verif.Proofs.Apply2
import Verif.Model.Ops

/-! Algebra of embedded matrices. -/

namespace Verif
open Finset MatrixOp

variable {K : Type} [Semiring K]

theorem AgreeOff.symm' {n : ℕ} {idx : List ℕ} {x y : ℕ} (h : AgreeOff n idx x y) : AgreeOff n idx y x :=
  fun q hq hm => (h q hq hm).symm

theorem AgreeOff.trans' {n : ℕ} {idx : List ℕ} {x y z : ℕ} (h : AgreeOff n idx x y) (h' : AgreeOff n idx y z) :
    AgreeOff n idx x z :=
  fun q hq hm => (h q hq hm).trans (h' q hq hm)

theorem agreeOff_s2f (n : ℕ) (idx : List ℕ) (hidx : ∀ i ∈ idx, i < n) (s r : ℕ) :
    AgreeOff n idx r (s2f n idx s r) := by
  intro q hq hm
  rw [testBit_s2f_not_mem]
  intro i hi he
  apply hm
  have := hidx i hi
  rwa [show q = i by omega]

/-- embedding is multiplicative -/
theorem embed_mul [DecidableEq K] (n : ℕ) (idx : List ℕ) (hn : idx.Nodup) (hidx : ∀ i ∈ idx, i < n) (A B : ℕ → ℕ → K)
    (r d : ℕ) (hr : r < 2 ^ n) :
    ∑ c ∈ range (2 ^ n), embed n idx A r c * embed n idx B c d =
      embed n idx (fun i j => ∑ s ∈ range (2 ^ idx.length), A i s * B s j) r d := by
  rw [← embed_sum n idx hn hidx A (fun c => embed n idx B c d) r hr]
  unfold embed
  by_cases h : AgreeOff n idx r d
  · rw [if_pos h, readQubits_eq, readQubits_eq]
    apply sum_congr rfl
    intro s hs
    rw [if_pos ((agreeOff_s2f n idx hidx s r).symm'.trans' h), readQubits_eq,
      f2s_s2f n idx s r hn hidx (mem_range.mp hs)]
  · rw [if_neg h]
    apply sum_eq_zero
    intro s hs
    rw [if_neg (fun h' => h ((agreeOff_s2f n idx hidx s r).trans' h')), mul_zero]

theorem embed_one (n : ℕ) (idx : List ℕ) (hn : idx.Nodup) (hidx : ∀ i ∈ idx, i < n) (r c : ℕ) (hr : r < 2 ^ n)
    (hc : c < 2 ^ n) : embed n idx (fun i j => if i = j then (1 : K) else 0) r c = if r = c then 1 else 0 := by
  unfold embed
  by_cases e : r = c
  · subst e
    rw [if_pos (show AgreeOff n idx r r from fun _ _ _ => rfl), if_pos rfl]
    exact if_pos rfl
  · rw [if_neg e]
    by_cases hag : AgreeOff n idx r c
    · rw [if_pos hag]
      apply if_neg
      intro he
      apply e
      rw [readQubits_eq, readQubits_eq] at he
      have h1 := s2f_f2s_of_agree n idx c r hn hidx (agree_of_testBit n _ r c hidx hr hc hag)
      rw [← he, s2f_f2s n _ r hn hidx] at h1
      exact h1
    · rw [if_neg hag]

theorem embed_congr (n : ℕ) (idx : List ℕ) (A B : ℕ → ℕ → K)
    (h : ∀ i j, i < 2 ^ idx.length → j < 2 ^ idx.length → A i j = B i j) (r c : ℕ) :
    embed n idx A r c = embed n idx B r c := by
  unfold embed
  rw [h _ _ (by rw [readQubits_eq]; exact f2s_lt _ _ _) (by rw [readQubits_eq]; exact f2s_lt _ _ _)]

theorem embed_swap (n : ℕ) (idx : List ℕ) (A : ℕ → ℕ → K) (r c : ℕ) :
    embed n idx (fun i j => A j i) r c = embed n idx A c r := by
  unfold embed
  by_cases h : AgreeOff n idx r c
  · rw [if_pos h, if_pos h.symm']
  · rw [if_neg h, if_neg (fun h' => h h'.symm')]

theorem embed_star [StarRing K] (n : ℕ) (idx : List ℕ) (A : ℕ → ℕ → K) (r c : ℕ) :
    embed n idx (fun i j => star (A i j)) r c = star (embed n idx A r c) := by
  unfold embed
  split <;> simp

end Verif
