import Verif.Proofs.Bits

namespace Verif
namespace Word

theorem getBit_eq (x : Usize) (i : ℕ) (h : i < 64) : getBit x i = some (x.getLsbD i) := by
  have : ((x >>> i) &&& 1#64 != 0#64) = x.getLsbD i := by
    rw [Bool.eq_iff_iff]
    simp only [bne_iff_ne, ne_eq]
    rw [BitVec.eq_of_getLsbD_eq_iff.not]
    push Not
    constructor
    · rintro ⟨j, hj, hne⟩
      rw [BitVec.getLsbD_and, BitVec.getLsbD_one, BitVec.getLsbD_ushiftRight] at hne
      rcases Nat.eq_zero_or_pos j with rfl | hj0
      · simpa using hne
      · have : j ≠ 0 := by omega
        simp [this] at hne
    · intro hx
      exact ⟨0, by omega, by simp [hx]⟩
  simp [getBit, h, this]

theorem setBit_getLsbD (x y : Usize) (i : ℕ) (v : Bool) (hy : setBit x i v = some y) (j : ℕ) (hj : j < 64) :
    y.getLsbD j = if j = i then v else x.getLsbD j := by
  unfold setBit shlOne at hy
  split at hy
  · rename_i hi
    have h1 : (1#64 <<< i).getLsbD j = decide (j = i) := by
      rw [BitVec.getLsbD_shiftLeft, BitVec.getLsbD_one]
      by_cases h : j = i
      · subst h; simp [hj]
      · simp only [h, decide_false, hj, decide_true, Bool.true_and]
        simp
        omega
    cases v
    · simp only [Option.bind_eq_bind, Option.bind_some, Bool.false_eq_true, if_false, Option.some.injEq] at hy
      subst hy
      rw [BitVec.getLsbD_and, BitVec.getLsbD_not, h1]
      by_cases hji : j = i <;> simp [hji, hj, hi]
    · simp only [Option.bind_eq_bind, Option.bind_some, if_true, Option.some.injEq] at hy
      subst hy
      rw [BitVec.getLsbD_or, h1]
      by_cases hji : j = i <;> simp [hji]
  · simp at hy

theorem setBit_isSome (x : Usize) (i : ℕ) (v : Bool) (h : i < 64) : ∃ y, setBit x i v = some y := by
  unfold setBit shlOne
  cases v <;> simp [h]

theorem setBit_toNat (x : Usize) (i : ℕ) (v : Bool) (h : i < 64) :
    setBit x i v = some (BitVec.ofNat 64 (Verif.setBit x.toNat i v)) := by
  obtain ⟨y, hy⟩ := setBit_isSome x i v h
  rw [hy]
  congr 1
  apply BitVec.eq_of_getLsbD_eq
  intro j hj
  rw [setBit_getLsbD x y i v hy j hj, BitVec.getLsbD_ofNat]
  simp [testBit_setBit, hj, BitVec.testBit_toNat]

theorem setBit_lt (x i : ℕ) (v : Bool) (hx : x < 2 ^ 64) (h : i < 64) : Verif.setBit x i v < 2 ^ 64 := by
  apply Nat.lt_pow_two_of_testBit
  intro j hj
  rw [testBit_setBit, if_neg (by omega)]
  exact Nat.testBit_lt_two_pow (lt_of_lt_of_le hx (Nat.pow_le_pow_right (by norm_num) hj))

theorem setBit_ofNat (x i : ℕ) (v : Bool) (hx : x < 2 ^ 64) (h : i < 64) :
    setBit (BitVec.ofNat 64 x) i v = some (BitVec.ofNat 64 (Verif.setBit x i v)) := by
  rw [setBit_toNat _ _ _ h, BitVec.toNat_ofNat, Nat.mod_eq_of_lt hx]

theorem getBit_ofNat (x i : ℕ) (hx : x < 2 ^ 64) (h : i < 64) :
    getBit (BitVec.ofNat 64 x) i = some (Verif.getBit x i) := by
  rw [getBit_eq _ _ h, BitVec.getLsbD_ofNat, Verif.getBit_eq]
  simp [h]

theorem foldSet_word {α : Type} (l : List α) (f : Usize → α → Option Usize)
    (pos : α → ℕ) (val : α → Bool) (hpos : ∀ a ∈ l, pos a < 64)
    (hf : ∀ b, b < 2 ^ 64 → ∀ a ∈ l, f (BitVec.ofNat 64 b) a = setBit (BitVec.ofNat 64 b) (pos a) (val a))
    (base : ℕ) (hb : base < 2 ^ 64) :
    l.foldlM f (BitVec.ofNat 64 base) =
      some (BitVec.ofNat 64 (l.foldl (fun acc a => Verif.setBit acc (pos a) (val a)) base)) := by
  induction l generalizing base with
  | nil => rfl
  | cons a l ih =>
    rw [List.foldlM_cons, hf base hb a (by simp), setBit_ofNat _ _ _ hb (hpos a (by simp))]
    exact ih (fun a ha => hpos a (by simp [ha])) (fun b hb a ha => hf b hb a (by simp [ha])) _
      (setBit_lt _ _ _ hb (hpos a (by simp)))

theorem checkedSub_pos {n i : ℕ} (h : i < n) :
    (do let m ← checkedSub n 1; checkedSub m i : Option ℕ) = some (n - 1 - i) := by
  have h1 : 1 ≤ n := by omega
  have h2 : i ≤ n - 1 := by omega
  simp [checkedSub, h1, h2]

theorem fullToSub_word (n : ℕ) (idx : List ℕ) (x : ℕ) (hn : n ≤ 64) (hk : idx.length ≤ 64)
    (hx : x < 2 ^ 64) (h : ∀ i ∈ idx, i < n) :
    fullToSub n idx (BitVec.ofNat 64 x) = (Verif.fullToSub n idx x).map (BitVec.ofNat 64) := by
  rw [fullToSub_eq n idx x h]
  unfold fullToSub
  rw [show (0#64) = BitVec.ofNat 64 0 from rfl]
  rw [foldSet_word _ _ (fun p => idx.length - 1 - p.2) (fun p => x.testBit (n - 1 - p.1))]
  · simp [foldSet, f2sPairs, List.foldl_map]
  · intro a ha
    have : a.2 < idx.length := by have := List.snd_lt_add_of_mem_zipIdx ha; omega
    omega
  · intro b hb a ha
    have hm := h _ (List.fst_mem_of_mem_zipIdx ha)
    have h1 : 1 ≤ n := by omega
    have h2 : a.1 ≤ n - 1 := by omega
    simp [checkedSub, h1, h2, getBit_ofNat x (n - 1 - a.1) hx (by omega), Verif.getBit_eq]
  · norm_num

theorem subToFull_word (n : ℕ) (idx : List ℕ) (s base : ℕ) (hn : n ≤ 64) (hk : idx.length ≤ 64)
    (hs : s < 2 ^ 64) (hb : base < 2 ^ 64) (h : ∀ i ∈ idx, i < n) :
    subToFull n idx (BitVec.ofNat 64 s) (BitVec.ofNat 64 base) =
      (Verif.subToFull n idx s base).map (BitVec.ofNat 64) := by
  rw [subToFull_eq n idx s base h]
  unfold subToFull
  rw [foldSet_word _ _ (fun p => n - 1 - p.1) (fun p => s.testBit (idx.length - 1 - p.2))]
  · simp [foldSet, s2fPairs, List.foldl_map]
  · intro a ha
    have hm := h _ (List.fst_mem_of_mem_zipIdx ha)
    omega
  · intro b hb a ha
    have hm := h _ (List.fst_mem_of_mem_zipIdx ha)
    have h1 : 1 ≤ n := by omega
    have h2 : a.1 ≤ n - 1 := by omega
    have h3 : a.2 < idx.length := by have := List.snd_lt_add_of_mem_zipIdx ha; omega
    simp [checkedSub, h1, h2, getBit_ofNat s (idx.length - 1 - a.2) hs (by omega), Verif.getBit_eq]
  · exact hb

theorem flipBits_getLsbD (n : ℕ) (x : Usize) (h0 : 1 ≤ n) (h : n ≤ 64) :
    ∃ y, flipBits n x = some y ∧ ∀ i, y.getLsbD i = if i < n then x.getLsbD (n - 1 - i) else false := by
  have h1 : ¬ 64 < n := by omega
  have h2 : ¬ 64 ≤ 64 - n := by omega
  refine ⟨x.reverse >>> (64 - n), by simp [flipBits, h1, h2], ?_⟩
  intro i
  rw [BitVec.getLsbD_ushiftRight, BitVec.getLsbD_reverse]
  split
  · rw [BitVec.getMsbD_eq_getLsbD]
    have : 64 - n + i < 64 := by omega
    simp only [this, decide_true, Bool.true_and]
    congr 1; omega
  · rw [BitVec.getMsbD_eq_getLsbD]
    have : ¬ 64 - n + i < 64 := by omega
    simp [this]

end Word

theorem flipBits_spec (n x : ℕ) (h0 : 1 ≤ n) (h : n ≤ 64) :
    ∃ y, flipBits n x = some y ∧ ∀ i, y.testBit i = if i < n then x.testBit (n - 1 - i) else false := by
  have h1 : ¬ 64 < n := by omega
  have h2 : ¬ 64 ≤ 64 - n := by omega
  refine ⟨_, by simp only [flipBits, h1, h2, if_false]; rfl, ?_⟩
  intro i
  rw [Nat.testBit_shiftRight]
  split
  · rw [Nat.testBit_ofBits_lt _ _ (by omega)]
    congr 1; simp; omega
  · rw [Nat.testBit_ofBits_ge _ _ (by omega)]

end Verif
