import Verif.Proofs.Bits
import Verif.Spec.Bits

namespace Verif
open Spec

theorem testBit_bit_shift (num p k i : ℕ) :
    (((num >>> p) &&& 1) <<< k).testBit i = (decide (i = k) && num.testBit p) := by
  rw [Nat.testBit_shiftLeft, Nat.testBit_and, Nat.testBit_shiftRight]
  by_cases h : i = k
  · subst h; simp
  · simp only [h, decide_false, Bool.false_and]
    rcases Nat.lt_or_gt_of_ne h with h' | h'
    · simp; omega
    · have : Nat.testBit 1 (i - k) = false := by
        rw [show (1:ℕ) = 2 ^ 0 from rfl, Nat.testBit_two_pow]; simp; omega
      simp [this]

theorem testBit_extract_aux (num : ℕ) (l : List ℕ) (k acc i : ℕ) :
    ((l.zipIdx k).foldl (fun acc (p : ℕ × ℕ) => acc ||| (((num >>> p.1) &&& 1) <<< p.2)) acc).testBit i
      = (acc.testBit i || (if h : k ≤ i ∧ i < k + l.length then num.testBit (l[i - k]'(by omega)) else false)) := by
  induction l generalizing k acc with
  | nil => simp
  | cons a l ih =>
    rw [List.zipIdx_cons, List.foldl_cons, ih, Nat.testBit_or, testBit_bit_shift, Bool.or_assoc]
    congr 1
    by_cases h : i = k
    · subst h
      simp
    · simp only [h, decide_false, Bool.false_and, Bool.false_or, List.length_cons]
      by_cases h2 : k + 1 ≤ i ∧ i < k + 1 + l.length
      · have h3 : k ≤ i ∧ i < k + (l.length + 1) := by omega
        rw [dif_pos h2, dif_pos h3]
        congr 1
        rw [List.getElem_cons]
        rw [dif_neg (by omega)]
        congr 1
      · have h3 : ¬ (k ≤ i ∧ i < k + (l.length + 1)) := by omega
        rw [dif_neg h2, dif_neg h3]

theorem testBit_extractBits (num : ℕ) (l : List ℕ) (i : ℕ) :
    (extractBits num l).testBit i = if h : i < l.length then num.testBit l[i] else false := by
  unfold extractBits
  rw [testBit_extract_aux]
  by_cases h : i < l.length <;> simp [h]

theorem onesBelow_succ (s m : ℕ) :
    onesBelow s (m + 1) = (if s.testBit 0 then 1 else 0) + onesBelow (s >>> 1) m := by
  unfold onesBelow
  rw [List.range_succ_eq_map, List.filter_cons, List.filter_map]
  have : ((fun i => s.testBit i) ∘ Nat.succ) = fun i => (s >>> 1).testBit i := by
    funext i; simp [Nat.testBit_shiftRight, Nat.add_comm]
  rw [this]
  by_cases h : s.testBit 0 <;> simp [h]; omega

theorem zerosBelow_succ (s m : ℕ) :
    zerosBelow s (m + 1) = (if s.testBit 0 then 0 else 1) + zerosBelow (s >>> 1) m := by
  unfold zerosBelow
  rw [List.range_succ_eq_map, List.filter_cons, List.filter_map]
  have : ((fun i => !s.testBit i) ∘ Nat.succ) = fun i => !(s >>> 1).testBit i := by
    funext i; simp [Nat.testBit_shiftRight, Nat.add_comm]
  rw [this]
  by_cases h : s.testBit 0 <;> simp [h]; omega

theorem and_one_eq_zero (s : ℕ) : (s &&& 1 = 0) ↔ s.testBit 0 = false := by
  rw [Nat.and_one_is_mod, Nat.testBit_zero]; simp

theorem testBit_entwine_aux (i k sel off on res j : ℕ) :
    (entwineLoop i k sel off on res).testBit j =
      (res.testBit j || (decide (i ≤ j ∧ j < i + k) &&
        (if sel.testBit (j - i) then on.testBit (onesBelow sel (j - i))
         else off.testBit (zerosBelow sel (j - i))))) := by
  induction k generalizing i sel off on res with
  | zero => simp [entwineLoop]
  | succ k ih =>
    have hb : ∀ w : ℕ, ((w &&& 1) <<< i).testBit j = (decide (j = i) && w.testBit 0) := by
      intro w
      have := testBit_bit_shift w 0 i j
      simpa using this
    have key : ∀ (off' on' : ℕ) (w : ℕ),
        (entwineLoop (i+1) k (sel >>> 1) off' on' (res ||| ((w &&& 1) <<< i))).testBit j =
        (res.testBit j || ((decide (j = i) && w.testBit 0) || (decide (i + 1 ≤ j ∧ j < i + 1 + k) &&
          (if (sel >>> 1).testBit (j - (i+1)) then on'.testBit (onesBelow (sel >>> 1) (j - (i+1)))
           else off'.testBit (zerosBelow (sel >>> 1) (j - (i+1))))))) := by
      intro off' on' w
      rw [ih, Nat.testBit_or, hb, Bool.or_assoc]
    rw [entwineLoop]
    by_cases hs : sel.testBit 0
    · have hs' : ¬ (sel &&& 1 = 0) := by rw [and_one_eq_zero]; simp [hs]
      rw [if_neg hs']
      simp only [key]
      congr 1
      by_cases hj : j = i
      · subst hj; simp [hs, onesBelow]
      · by_cases hr : i + 1 ≤ j ∧ j < i + 1 + k
        · obtain ⟨d, rfl⟩ : ∃ d, j = i + 1 + d := ⟨j - (i+1), by omega⟩
          have e1 : i + 1 + d - (i + 1) = d := by omega
          have e2 : i + 1 + d - i = d + 1 := by omega
          have hr' : i ≤ i + 1 + d ∧ i + 1 + d < i + (k + 1) := by omega
          simp only [e1, e2, hr, hr', hj, decide_true, decide_false, Bool.false_and, Bool.true_and,
            Bool.false_or, onesBelow_succ, zerosBelow_succ, hs, if_true, Nat.testBit_shiftRight,
            Nat.add_comm 1 d, Nat.zero_add, and_self]
        · have hr' : ¬ (i ≤ j ∧ j < i + (k + 1)) := by omega
          simp only [hj, hr, hr', decide_false, Bool.false_and, Bool.or_self]
    · have hs' : (sel &&& 1 = 0) := by rw [and_one_eq_zero]; simpa using hs
      rw [if_pos hs']
      simp only [key]
      congr 1
      by_cases hj : j = i
      · subst hj; simp [hs, zerosBelow]
      · by_cases hr : i + 1 ≤ j ∧ j < i + 1 + k
        · obtain ⟨d, rfl⟩ : ∃ d, j = i + 1 + d := ⟨j - (i+1), by omega⟩
          have e1 : i + 1 + d - (i + 1) = d := by omega
          have e2 : i + 1 + d - i = d + 1 := by omega
          have hr' : i ≤ i + 1 + d ∧ i + 1 + d < i + (k + 1) := by omega
          simp only [e1, e2, hr, hr', hj, decide_true, decide_false, Bool.false_and, Bool.true_and,
            Bool.false_or, onesBelow_succ, zerosBelow_succ, hs, Nat.testBit_shiftRight,
            Nat.add_comm 1 d, Nat.zero_add, and_self, Bool.false_eq_true, if_false]
        · have hr' : ¬ (i ≤ j ∧ j < i + (k + 1)) := by omega
          simp only [hj, hr, hr', decide_false, Bool.false_and, Bool.or_self]

theorem testBit_entwineBits (n sel off on j : ℕ) :
    (entwineBits n sel off on).testBit j =
      (decide (j < n) && (if sel.testBit j then on.testBit (onesBelow sel j)
         else off.testBit (zerosBelow sel j))) := by
  unfold entwineBits
  rw [testBit_entwine_aux]
  simp

/-- the `i`-th selected position has exactly `i` selected positions below it -/
theorem onesBelow_positions (p : ℕ → Bool) (n i : ℕ) (hi : i < ((List.range n).filter p).length) :
    p ((List.range n).filter p)[i] = true ∧ ((List.range n).filter p)[i] < n ∧
    ((List.range (((List.range n).filter p)[i])).filter p).length = i := by
  induction n with
  | zero => simp at hi
  | succ n ih =>
    have hsplit : (List.range (n+1)).filter p = (List.range n).filter p ++ (if p n then [n] else []) := by
      rw [List.range_succ, List.filter_append]
      by_cases h : p n <;> simp [h]
    by_cases h1 : i < ((List.range n).filter p).length
    · have e : ((List.range (n+1)).filter p)[i] = ((List.range n).filter p)[i] := by
        simp only [hsplit]; rw [List.getElem_append_left h1]
      rw [e]
      obtain ⟨a, b, c⟩ := ih h1
      exact ⟨a, by omega, c⟩
    · have hp : p n = true := by
        by_contra hc
        rw [hsplit] at hi
        simp [hc] at hi
        omega
      have hl : i = ((List.range n).filter p).length := by
        rw [hsplit] at hi; simp [hp] at hi; omega
      have e : ((List.range (n+1)).filter p)[i] = n := by
        simp only [hsplit]
        rw [List.getElem_append_right (by omega)]
        simp [hp]
      rw [e]
      exact ⟨hp, by omega, hl.symm⟩

end Verif
