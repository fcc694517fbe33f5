import Verif.Model.Bits
import Mathlib.Data.List.Nodup
import Mathlib.Tactic.Ring
import Mathlib.Tactic.NormNum
import Mathlib.Tactic.Linarith

namespace Verif

theorem getBit_eq (x i : ℕ) : getBit x i = x.testBit i := by
  simp [getBit, Nat.testBit, Nat.and_comm]

theorem testBit_setBit (x i : ℕ) (v : Bool) (j : ℕ) :
    (setBit x i v).testBit j = if j = i then v else x.testBit j := by
  unfold setBit
  by_cases h : j = i
  · subst h
    cases v <;> simp [Nat.one_shiftLeft, Nat.testBit_two_pow]
  · have h' : i ≠ j := fun e => h e.symm
    cases v <;> simp [Nat.one_shiftLeft, Nat.testBit_two_pow, h, h']

/-- Successive `setBit`s. -/
def foldSet (ps : List (ℕ × Bool)) (base : ℕ) : ℕ :=
  ps.foldl (fun a p => setBit a p.1 p.2) base

theorem foldSet_not_mem (ps : List (ℕ × Bool)) (base p : ℕ) (h : p ∉ ps.map Prod.fst) :
    (foldSet ps base).testBit p = base.testBit p := by
  induction ps generalizing base with
  | nil => rfl
  | cons a l ih =>
    simp only [List.map_cons, List.mem_cons, not_or] at h
    have := ih (setBit base a.1 a.2) h.2
    simp only [foldSet, List.foldl_cons] at this ⊢
    rw [this, testBit_setBit, if_neg h.1]

theorem foldSet_mem (ps : List (ℕ × Bool)) (base p : ℕ) (v : Bool)
    (hn : (ps.map Prod.fst).Nodup) (h : (p, v) ∈ ps) :
    (foldSet ps base).testBit p = v := by
  induction ps generalizing base with
  | nil => simp at h
  | cons a l ih =>
    simp only [List.map_cons, List.nodup_cons] at hn
    rcases List.mem_cons.mp h with h | h
    · subst h
      have := foldSet_not_mem l (setBit base p v) p hn.1
      simp only [foldSet, List.foldl_cons] at this ⊢
      rw [this, testBit_setBit, if_pos rfl]
    · exact ih _ hn.2 h

theorem bitPos_of_lt {n i : ℕ} (h : i < n) : bitPos n i = some (n - 1 - i) := by
  simp [bitPos, h]

/-- positions/values written by `fullToSub` -/
def f2sPairs (n : ℕ) (idx : List ℕ) (x : ℕ) : List (ℕ × Bool) :=
  idx.zipIdx.map (fun p => (idx.length - 1 - p.2, x.testBit (n - 1 - p.1)))

/-- positions/values written by `subToFull` -/
def s2fPairs (n : ℕ) (idx : List ℕ) (s : ℕ) : List (ℕ × Bool) :=
  idx.zipIdx.map (fun p => (n - 1 - p.1, s.testBit (idx.length - 1 - p.2)))

theorem foldlM_some {α β : Type} (l : List α) (f : β → α → Option β) (g : β → α → β) (b : β)
    (h : ∀ b, ∀ a ∈ l, f b a = some (g b a)) : l.foldlM f b = some (l.foldl g b) := by
  induction l generalizing b with
  | nil => rfl
  | cons a l ih =>
    rw [List.foldlM_cons, h b a (by simp)]
    simpa using ih (g b a) (fun b a' ha => h b a' (by simp [ha]))

theorem fullToSub_eq (n : ℕ) (idx : List ℕ) (x : ℕ) (h : ∀ i ∈ idx, i < n) :
    fullToSub n idx x = some (foldSet (f2sPairs n idx x) 0) := by
  unfold fullToSub
  rw [foldlM_some (g := fun acc p => setBit acc (idx.length - 1 - p.2) (x.testBit (n - 1 - p.1)))]
  · simp [foldSet, f2sPairs, List.foldl_map]
  · intro b a ha
    have : a.1 ∈ idx := List.fst_mem_of_mem_zipIdx ha
    simp [bitPos_of_lt (h _ this), getBit_eq]

theorem subToFull_eq (n : ℕ) (idx : List ℕ) (s base : ℕ) (h : ∀ i ∈ idx, i < n) :
    subToFull n idx s base = some (foldSet (s2fPairs n idx s) base) := by
  unfold subToFull
  rw [foldlM_some (g := fun acc p => setBit acc (n - 1 - p.1) (s.testBit (idx.length - 1 - p.2)))]
  · simp [foldSet, s2fPairs, List.foldl_map]
  · intro b a ha
    have : a.1 ∈ idx := List.fst_mem_of_mem_zipIdx ha
    simp [bitPos_of_lt (h _ this), getBit_eq]

/-- `fullToSub` as a total function (used when the indices are in range) -/
def f2s (n : ℕ) (idx : List ℕ) (x : ℕ) : ℕ := foldSet (f2sPairs n idx x) 0

/-- `subToFull` as a total function (used when the indices are in range) -/
def s2f (n : ℕ) (idx : List ℕ) (s base : ℕ) : ℕ := foldSet (s2fPairs n idx s) base

theorem f2sPairs_fst (n : ℕ) (idx : List ℕ) (x : ℕ) :
    (f2sPairs n idx x).map Prod.fst = (List.range idx.length).map (fun j => idx.length - 1 - j) := by
  rw [f2sPairs, List.map_map]
  apply List.ext_getElem
  · simp
  · intro i h1 h2
    simp

theorem f2sPairs_nodup (n : ℕ) (idx : List ℕ) (x : ℕ) :
    ((f2sPairs n idx x).map Prod.fst).Nodup := by
  rw [f2sPairs_fst]
  apply List.Nodup.map_on _ List.nodup_range
  intro a ha b hb hab
  simp at ha hb
  omega

theorem s2fPairs_fst (n : ℕ) (idx : List ℕ) (s : ℕ) :
    (s2fPairs n idx s).map Prod.fst = idx.map (fun q => n - 1 - q) := by
  rw [s2fPairs, List.map_map]
  apply List.ext_getElem
  · simp
  · intro i h1 h2
    simp

theorem s2fPairs_nodup (n : ℕ) (idx : List ℕ) (s : ℕ) (hn : idx.Nodup) (h : ∀ i ∈ idx, i < n) :
    ((s2fPairs n idx s).map Prod.fst).Nodup := by
  rw [s2fPairs_fst]
  apply List.Nodup.map_on _ hn
  intro a ha b hb hab
  have := h a ha
  have := h b hb
  omega

theorem testBit_f2s (n : ℕ) (idx : List ℕ) (x : ℕ) (i : ℕ) :
    (f2s n idx x).testBit i =
      if h : i < idx.length then x.testBit (n - 1 - idx[idx.length - 1 - i]) else false := by
  unfold f2s
  split
  · rename_i h
    apply foldSet_mem _ _ _ _ (f2sPairs_nodup n idx x)
    unfold f2sPairs
    rw [List.mem_map]
    refine ⟨(idx[idx.length - 1 - i], idx.length - 1 - i), ?_, ?_⟩
    · rw [List.mem_iff_getElem]
      exact ⟨idx.length - 1 - i, by simp; omega, by simp⟩
    · simp; omega
  · rename_i h
    rw [foldSet_not_mem]
    · simp
    · rw [f2sPairs_fst]
      simp
      omega

theorem testBit_s2f_mem (n : ℕ) (idx : List ℕ) (s base : ℕ) (hn : idx.Nodup)
    (h : ∀ i ∈ idx, i < n) (j : ℕ) (hj : j < idx.length) :
    (s2f n idx s base).testBit (n - 1 - idx[j]) = s.testBit (idx.length - 1 - j) := by
  apply foldSet_mem _ _ _ _ (s2fPairs_nodup n idx s hn h)
  unfold s2fPairs
  rw [List.mem_map]
  refine ⟨(idx[j], j), ?_, by simp⟩
  rw [List.mem_iff_getElem]
  exact ⟨j, by simpa using hj, by simp⟩

theorem testBit_s2f_not_mem (n : ℕ) (idx : List ℕ) (s base : ℕ) (p : ℕ)
    (h : ∀ q ∈ idx, n - 1 - q ≠ p) :
    (s2f n idx s base).testBit p = base.testBit p := by
  apply foldSet_not_mem
  rw [s2fPairs_fst]
  simpa using h

theorem f2s_lt (n : ℕ) (idx : List ℕ) (x : ℕ) : f2s n idx x < 2 ^ idx.length := by
  apply Nat.lt_pow_two_of_testBit
  intro i hi
  rw [testBit_f2s, dif_neg (by omega)]

theorem s2f_lt (n : ℕ) (idx : List ℕ) (s base : ℕ) (hb : base < 2 ^ n) (h : ∀ i ∈ idx, i < n) :
    s2f n idx s base < 2 ^ n := by
  apply Nat.lt_pow_two_of_testBit
  intro i hi
  rw [testBit_s2f_not_mem _ _ _ _ _ (by intro q hq; have := h q hq; omega)]
  exact Nat.testBit_lt_two_pow (lt_of_lt_of_le hb (Nat.pow_le_pow_right (by norm_num) hi))

theorem f2s_s2f (n : ℕ) (idx : List ℕ) (s base : ℕ) (hn : idx.Nodup) (h : ∀ i ∈ idx, i < n)
    (hs : s < 2 ^ idx.length) : f2s n idx (s2f n idx s base) = s := by
  apply Nat.eq_of_testBit_eq
  intro i
  rw [testBit_f2s]
  split
  · rename_i hi
    rw [testBit_s2f_mem n idx s base hn h _ (by omega)]
    congr 1; omega
  · rename_i hi
    exact (Nat.testBit_lt_two_pow
      (lt_of_lt_of_le hs (Nat.pow_le_pow_right (by norm_num) (by omega)))).symm

theorem s2f_f2s_of_agree (n : ℕ) (idx : List ℕ) (x base : ℕ) (hn : idx.Nodup)
    (h : ∀ i ∈ idx, i < n) (ha : ∀ p, (∀ q ∈ idx, n - 1 - q ≠ p) → x.testBit p = base.testBit p) :
    s2f n idx (f2s n idx x) base = x := by
  apply Nat.eq_of_testBit_eq
  intro p
  by_cases hp : ∃ q ∈ idx, n - 1 - q = p
  · obtain ⟨q, hq, rfl⟩ := hp
    obtain ⟨j, hj, rfl⟩ := List.mem_iff_getElem.mp hq
    rw [testBit_s2f_mem n idx _ base hn h _ hj, testBit_f2s, dif_pos (by omega)]
    congr 3; omega
  · push Not at hp
    rw [testBit_s2f_not_mem _ _ _ _ _ hp, ha p hp]

theorem s2f_f2s (n : ℕ) (idx : List ℕ) (x : ℕ) (hn : idx.Nodup) (h : ∀ i ∈ idx, i < n) :
    s2f n idx (f2s n idx x) x = x :=
  s2f_f2s_of_agree n idx x x hn h (fun _ _ => rfl)

end Verif
