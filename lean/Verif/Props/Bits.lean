import Verif.Proofs.Words
import Verif.Proofs.Entwine

/-!
# C01–C04, C57: bit utilities

The specification vocabulary is `BitVec.getLsbD` / `Nat.testBit` (the bit at a position).
-/

namespace Verif.Props
open Verif Verif.Spec

/-! ## C01 -/

/-- C01. On 64-bit words: `set_bit` panics exactly for positions ≥ 64; otherwise reading any bit back
gives the written value at the written position and the previous value elsewhere. -/
theorem C01_get_after_set (x : Word.Usize) (i : ℕ) (v : Bool) :
    (64 ≤ i → Word.setBit x i v = none) ∧
    (i < 64 → ∃ y, Word.setBit x i v = some y ∧
      ∀ j, Word.getBit y j = if j = i then some v else Word.getBit x j) := by
  constructor
  · intro h
    simp [Word.setBit, Word.shlOne, Nat.not_lt.mpr h]
  · intro h
    obtain ⟨y, hy⟩ := Word.setBit_isSome x i v h
    refine ⟨y, hy, ?_⟩
    intro j
    by_cases hj : j < 64
    · rw [Word.getBit_eq y j hj, Word.getBit_eq x j hj, Word.setBit_getLsbD x y i v hy j hj]
      by_cases e : j = i <;> simp [e]
    · have e : j ≠ i := by omega
      simp [Word.getBit, hj, e]

/-- C01. `get_bit` reads the bit of the word. -/
theorem C01_get_bit (x : Word.Usize) (j : ℕ) :
    Word.getBit x j = if j < 64 then some (x.getLsbD j) else none := by
  by_cases h : j < 64
  · rw [Word.getBit_eq x j h]; simp [h]
  · simp [Word.getBit, h]

/-- a concrete instance: clearing bit 3 of 13 (= 0b1101) -/
example : ∃ y, Word.setBit 13#64 3 false = some y ∧ Word.getBit y 2 = some true ∧
    Word.getBit y 3 = some false := by
  obtain ⟨y, hy, h⟩ := (C01_get_after_set 13#64 3 false).2 (by norm_num)
  refine ⟨y, hy, ?_, ?_⟩
  · rw [h]; decide
  · rw [h]; decide

/-! ## C02 -/

/-- C02. `flip_bits` reverses the low `n` bits and drops the rest. -/
theorem C02_flip_bits (n : ℕ) (x : Word.Usize) (h0 : 1 ≤ n) (h : n ≤ 64) :
    ∃ y, Word.flipBits n x = some y ∧
      ∀ i, y.getLsbD i = if i < n then x.getLsbD (n - 1 - i) else false :=
  Word.flipBits_getLsbD n x h0 h

/-- C02. flipping twice restores every word below `2^n`. -/
theorem C02_involution (n : ℕ) (x : Word.Usize) (h0 : 1 ≤ n) (h : n ≤ 64) (hx : x.toNat < 2 ^ n) :
    ∃ y, Word.flipBits n x = some y ∧ Word.flipBits n y = some x := by
  obtain ⟨y, hy, hy'⟩ := Word.flipBits_getLsbD n x h0 h
  obtain ⟨z, hz, hz'⟩ := Word.flipBits_getLsbD n y h0 h
  refine ⟨y, hy, ?_⟩
  rw [hz]
  congr 1
  apply BitVec.eq_of_getLsbD_eq
  intro i hi
  rw [hz' i]
  split
  · rw [hy', if_pos (by omega)]; congr 1; omega
  · rw [← BitVec.testBit_toNat]
    exact (Nat.testBit_lt_two_pow (lt_of_lt_of_le hx (Nat.pow_le_pow_right (by norm_num) (by omega)))).symm

/-- C02. zero qubits (or more than 64) overflow. -/
theorem C02_panics (n : ℕ) (x : Word.Usize) (h : n = 0 ∨ 64 < n) : Word.flipBits n x = none := by
  rcases h with rfl | h
  · simp [Word.flipBits]
  · simp [Word.flipBits, h]

/-- C02. the naturals version used by the later layers has the same bits. -/
theorem C02_nat (n x : ℕ) (h0 : 1 ≤ n) (h : n ≤ 64) :
    ∃ y, flipBits n x = some y ∧ ∀ i, y.testBit i = if i < n then x.testBit (n - 1 - i) else false :=
  flipBits_spec n x h0 h

example : ∃ y, Word.flipBits 4 10#64 = some y ∧ Word.flipBits 4 y = some 10#64 :=
  C02_involution 4 10#64 (by norm_num) (by norm_num) (by decide)

/-! ## C03 -/

/-- C03. `full_to_sub`: with indices in range the call succeeds; qubit `idx[j]` of the full index
(which lives at bit `n-1-idx[j]`) becomes bit `k-1-j` of the sub index, and the result is below `2^k`. -/
theorem C03_full_to_sub (n : ℕ) (idx : List ℕ) (x : ℕ) (h : ∀ i ∈ idx, i < n) :
    ∃ s, fullToSub n idx x = some s ∧ s < 2 ^ idx.length ∧
      ∀ j (hj : j < idx.length), s.testBit (idx.length - 1 - j) = x.testBit (n - 1 - idx[j]) := by
  refine ⟨f2s n idx x, fullToSub_eq n idx x h, f2s_lt n idx x, ?_⟩
  intro j hj
  rw [testBit_f2s, dif_pos (by omega)]
  congr 3; omega

/-- C03. `sub_to_full`: writes the sub index into the listed qubits and changes nothing else. -/
theorem C03_sub_to_full (n : ℕ) (idx : List ℕ) (s base : ℕ) (hn : idx.Nodup) (h : ∀ i ∈ idx, i < n) :
    ∃ x, subToFull n idx s base = some x ∧ (base < 2 ^ n → x < 2 ^ n) ∧
      (∀ j (hj : j < idx.length), x.testBit (n - 1 - idx[j]) = s.testBit (idx.length - 1 - j)) ∧
      (∀ q, q < n → q ∉ idx → x.testBit (n - 1 - q) = base.testBit (n - 1 - q)) ∧
      (∀ p, n ≤ p → x.testBit p = base.testBit p) := by
  refine ⟨s2f n idx s base, subToFull_eq n idx s base h, fun hb => s2f_lt n idx s base hb h,
    fun j hj => testBit_s2f_mem n idx s base hn h j hj, ?_, ?_⟩
  · intro q hq hm
    apply testBit_s2f_not_mem
    intro q' hq' e
    have := h q' hq'
    exact hm (by rwa [show q = q' by omega])
  · intro p hp
    apply testBit_s2f_not_mem
    intro q' hq' e
    have := h q' hq'
    omega

/-- C03. reading back what was written. -/
theorem C03_read_after_write (n : ℕ) (idx : List ℕ) (s base : ℕ) (hn : idx.Nodup)
    (h : ∀ i ∈ idx, i < n) (hs : s < 2 ^ idx.length) :
    (subToFull n idx s base >>= fullToSub n idx) = some s := by
  rw [subToFull_eq n idx s base h]
  show fullToSub n idx (s2f n idx s base) = _
  rw [fullToSub_eq n idx _ h]
  exact congrArg some (f2s_s2f n idx s base hn h hs)

/-- C03. writing back what was read changes nothing. -/
theorem C03_write_after_read (n : ℕ) (idx : List ℕ) (x : ℕ) (hn : idx.Nodup) (h : ∀ i ∈ idx, i < n) :
    (fullToSub n idx x >>= fun s => subToFull n idx s x) = some x := by
  rw [fullToSub_eq n idx x h]
  show subToFull n idx (f2s n idx x) x = _
  rw [subToFull_eq n idx _ _ h]
  exact congrArg some (s2f_f2s n idx x hn h)

/-- C03. an index outside the register is a panic, not a silent misread. -/
theorem C03_panics (n : ℕ) (idx : List ℕ) (x : ℕ) (h : ∃ i ∈ idx, n ≤ i) : fullToSub n idx x = none := by
  obtain ⟨i, hi, hin⟩ := h
  unfold fullToSub
  suffices H : ∀ (l : List (ℕ × ℕ)) (K acc : ℕ), i ∈ l.map Prod.fst →
      l.foldlM (fun acc (p : ℕ × ℕ) => do
        let m ← bitPos n p.1
        let bit := getBit x m
        some (setBit acc (K - 1 - p.2) bit)) acc = none by
    apply H
    rw [List.zipIdx_map_fst]; exact hi
  intro l K
  induction l with
  | nil => intro acc hm; simp at hm
  | cons a l ih =>
    intro acc hm
    rw [List.foldlM_cons]
    rw [List.map_cons, List.mem_cons] at hm
    by_cases hlt : a.1 < n
    · simp only [bitPos, hlt, if_true, Option.bind_eq_bind, Option.bind_some]
      apply ih
      rcases hm with rfl | hm
      · omega
      · exact hm
    · simp [bitPos, hlt]

example : (subToFull 5 [3, 0, 4] 5 9 >>= fullToSub 5 [3, 0, 4]) = some 5 :=
  C03_read_after_write 5 [3, 0, 4] 5 9 (by decide) (by decide) (by decide)

/-! ## C04 -/

/-- C04. `extract_bits` -/
theorem C04_extract_bits (num : ℕ) (indices : List ℕ) :
    extractBits num indices < 2 ^ indices.length ∧
    ∀ i (hi : i < indices.length), (extractBits num indices).testBit i = num.testBit indices[i] := by
  constructor
  · apply Nat.lt_pow_two_of_testBit
    intro i hi
    rw [testBit_extractBits, dif_neg (by omega)]
  · intro i hi
    rw [testBit_extractBits, dif_pos hi]

/-- C04. `entwine_bits`: position `j` takes the next unused bit of the selected stream. -/
theorem C04_entwine_bits (n selector offBits onBits j : ℕ) :
    (entwineBits n selector offBits onBits).testBit j =
      (decide (j < n) && (if selector.testBit j then onBits.testBit (onesBelow selector j)
         else offBits.testBit (zerosBelow selector j))) :=
  testBit_entwineBits n selector offBits onBits j

/-- C04. extracting the selected positions of the mix gives back the on-stream. -/
theorem C04_extract_entwine_on (n selector offBits onBits : ℕ)
    (h : onBits < 2 ^ (positions n selector true).length) :
    extractBits (entwineBits n selector offBits onBits) (positions n selector true) = onBits := by
  apply Nat.eq_of_testBit_eq
  intro i
  rw [testBit_extractBits]
  split
  · rename_i hi
    have hp : positions n selector true = (List.range n).filter (fun i => selector.testBit i) := by
      simp [positions]
    simp only [hp] at hi ⊢
    obtain ⟨a, b, c⟩ := onesBelow_positions (fun i => selector.testBit i) n i hi
    rw [testBit_entwineBits]
    simp only [a, b, decide_true, Bool.true_and, if_true]
    unfold onesBelow
    rw [c]
  · rename_i hi
    exact (Nat.testBit_lt_two_pow (lt_of_lt_of_le h (Nat.pow_le_pow_right (by norm_num) (by omega)))).symm

/-- C04. extracting the unselected positions of the mix gives back the off-stream. -/
theorem C04_extract_entwine_off (n selector offBits onBits : ℕ)
    (h : offBits < 2 ^ (positions n selector false).length) :
    extractBits (entwineBits n selector offBits onBits) (positions n selector false) = offBits := by
  apply Nat.eq_of_testBit_eq
  intro i
  rw [testBit_extractBits]
  split
  · rename_i hi
    have hp : positions n selector false = (List.range n).filter (fun i => !selector.testBit i) := by
      simp [positions]
    simp only [hp] at hi ⊢
    obtain ⟨a, b, c⟩ := onesBelow_positions (fun i => !selector.testBit i) n i hi
    rw [testBit_entwineBits]
    have a' : selector.testBit ((List.range n).filter (fun i => !selector.testBit i))[i] = false := by
      simpa using a
    simp only [a', b, decide_true, Bool.true_and, Bool.false_eq_true, if_false]
    unfold zerosBelow
    rw [c]
  · rename_i hi
    exact (Nat.testBit_lt_two_pow (lt_of_lt_of_le h (Nat.pow_le_pow_right (by norm_num) (by omega)))).symm

example : extractBits (entwineBits 5 9 6 2) (positions 5 9 true) = 2 ∧
    extractBits (entwineBits 5 9 6 2) (positions 5 9 false) = 6 :=
  ⟨C04_extract_entwine_on 5 9 6 2 (by decide), C04_extract_entwine_off 5 9 6 2 (by decide)⟩

/-! ## C57 -/

/-- C57. on at most 64 qubits the 64-bit `full_to_sub` computes the unbounded one without panicking. -/
theorem C57_full_to_sub_no_overflow (n : ℕ) (idx : List ℕ) (x : ℕ) (hn : n ≤ 64)
    (hk : idx.length ≤ 64) (hx : x < 2 ^ 64) (h : ∀ i ∈ idx, i < n) :
    ∃ s, fullToSub n idx x = some s ∧ s < 2 ^ 64 ∧
      Word.fullToSub n idx (BitVec.ofNat 64 x) = some (BitVec.ofNat 64 s) := by
  refine ⟨f2s n idx x, fullToSub_eq n idx x h, ?_, ?_⟩
  · exact lt_of_lt_of_le (f2s_lt n idx x) (Nat.pow_le_pow_right (by norm_num) hk)
  · rw [Word.fullToSub_word n idx x hn hk hx h, fullToSub_eq n idx x h]; rfl

/-- C57. the same for `sub_to_full`. -/
theorem C57_sub_to_full_no_overflow (n : ℕ) (idx : List ℕ) (s base : ℕ) (hn : n ≤ 64)
    (hk : idx.length ≤ 64) (hs : s < 2 ^ 64) (hb : base < 2 ^ n) (h : ∀ i ∈ idx, i < n) :
    ∃ x, subToFull n idx s base = some x ∧ x < 2 ^ n ∧
      Word.subToFull n idx (BitVec.ofNat 64 s) (BitVec.ofNat 64 base) = some (BitVec.ofNat 64 x) := by
  refine ⟨s2f n idx s base, subToFull_eq n idx s base h, s2f_lt n idx s base hb h, ?_⟩
  rw [Word.subToFull_word n idx s base hn hk hs
    (lt_of_lt_of_le hb (Nat.pow_le_pow_right (by norm_num) hn)) h, subToFull_eq n idx s base h]; rfl

/-- C57. and for `set_bit`, `get_bit`. -/
theorem C57_bit_no_overflow (x i : ℕ) (v : Bool) (hx : x < 2 ^ 64) (hi : i < 64) :
    Word.setBit (BitVec.ofNat 64 x) i v = some (BitVec.ofNat 64 (setBit x i v)) ∧
    setBit x i v < 2 ^ 64 ∧
    Word.getBit (BitVec.ofNat 64 x) i = some (getBit x i) :=
  ⟨Word.setBit_ofNat x i v hx hi, Word.setBit_lt x i v hx hi, Word.getBit_ofNat x i hx hi⟩

theorem foldlM_none {α β : Type} (f : β → α → Option β) (l : List α) (b : β) (h : ∃ a ∈ l, ∀ b, f b a = none) : l.foldlM f b = none := by
  obtain ⟨a, ha, hf⟩ := h
  induction l generalizing b with
  | nil => simp at ha
  | cons c l ih =>
    rw [List.foldlM_cons]
    rcases List.mem_cons.mp ha with rfl | ha
    · rw [hf]; rfl
    · cases f b c with
      | none => rfl
      | some b' => exact ih b' ha

/-- C57. and a qubit that does not exist is a panic on words too (the subtraction underflows). -/
theorem C57_panics (n : ℕ) (idx : List ℕ) (x s base : Word.Usize) (h : ∃ i ∈ idx, n ≤ i) :
    Word.fullToSub n idx x = none ∧ Word.subToFull n idx s base = none := by
  obtain ⟨i, hi, hn⟩ := h
  obtain ⟨k, hk, rfl⟩ := List.getElem_of_mem hi
  have hm : (idx[k], k) ∈ idx.zipIdx := by rw [List.mk_mem_zipIdx_iff_getElem?]; simp [hk]
  have hc : ((Word.checkedSub n 1).bind fun m => Word.checkedSub m idx[k]) = none := by
    unfold Word.checkedSub
    by_cases h1 : 1 ≤ n
    · simp [h1]; omega
    · simp [h1]
  have h2 : ∀ {γ : Type} (f : ℕ → Option γ), ((Word.checkedSub n 1).bind fun m => (Word.checkedSub m idx[k]).bind f) = none := by
    intro γ f
    rw [← Option.bind_assoc, hc]; rfl
  refine ⟨foldlM_none _ _ _ ⟨_, hm, fun b => h2 _⟩, foldlM_none _ _ _ ⟨_, hm, fun b => ?_⟩⟩
  cases h3 : Word.getBit s (idx.length - 1 - k) with
  | none => simp [h3]
  | some v => simp only [h3, Option.bind_eq_bind, Option.bind_some]; exact h2 _

/-- qubit 2 of two -/
example : Word.fullToSub 2 [0, 2] 3#64 = none := (C57_panics 2 [0, 2] 3#64 0 0 ⟨2, by simp, le_refl _⟩).1

/-- C57. `get_flat_index` on words is `i * 2^n + j`, and panics exactly when `n > 63` or that number needs more than 64 bits. -/
theorem C57_flat_index (n i j : ℕ) (hi : i < 2 ^ 64) (hj : j < 2 ^ 64) :
    Word.getFlatIndex n (BitVec.ofNat 64 i) (BitVec.ofNat 64 j) =
      if n < 64 ∧ i * 2 ^ n + j < 2 ^ 64 then some (BitVec.ofNat 64 (i * 2 ^ n + j)) else none := by
  unfold Word.getFlatIndex Word.shlOne
  by_cases hn : n < 64
  · have hs : (1#64 <<< n).toNat = 2 ^ n := by
      have h1 : 1 % 2 ^ 64 = 1 := by norm_num
      rw [BitVec.toNat_shiftLeft, BitVec.toNat_ofNat, Nat.shiftLeft_eq, h1, one_mul,
        Nat.mod_eq_of_lt (Nat.pow_lt_pow_right (by norm_num) hn)]
    simp only [hn, if_true, Option.bind_eq_bind, Option.bind_some, hs, BitVec.toNat_ofNat, Nat.mod_eq_of_lt hi, Nat.mod_eq_of_lt hj, true_and]
    by_cases h : i * 2 ^ n + j < 2 ^ 64
    · rw [if_pos ⟨by omega, h⟩, if_pos h]
      congr 1
      apply BitVec.eq_of_toNat_eq
      rw [BitVec.toNat_add, BitVec.toNat_mul, hs]
      simp only [BitVec.toNat_ofNat, Nat.mod_eq_of_lt hi, Nat.mod_eq_of_lt hj]
      rw [Nat.mod_eq_of_lt (a := i * 2 ^ n) (by omega)]
    · rw [if_neg (fun h' => h h'.2), if_neg h]
  · simp [hn]

/-- C57. so up to 31 qubits the start and the end of each row of a matrix are computed without overflow. -/
theorem C57_flat_index_no_overflow (n i j : ℕ) (hn : n ≤ 31) (hi : i < 2 ^ n) (hj : j ≤ 2 ^ n) :
    Word.getFlatIndex n (BitVec.ofNat 64 i) (BitVec.ofNat 64 j) = some (BitVec.ofNat 64 (getFlatIndex n i j)) := by
  have h1 : (2 : ℕ) ^ n ≤ 2 ^ 31 := Nat.pow_le_pow_right (by norm_num) hn
  have h2 : i * 2 ^ n ≤ 2 ^ 31 * 2 ^ 31 := Nat.mul_le_mul (by omega) h1
  rw [C57_flat_index n i j (by omega) (by omega), if_pos ⟨by omega, by omega⟩, getFlatIndex, Nat.one_shiftLeft]

/-- the end of the last row of a matrix on 32 qubits does not fit -/
example : Word.getFlatIndex 31 (BitVec.ofNat 64 (2 ^ 31 - 1)) (BitVec.ofNat 64 (2 ^ 31)) = some (BitVec.ofNat 64 (2 ^ 62)) ∧
    Word.getFlatIndex 32 (BitVec.ofNat 64 (2 ^ 32 - 1)) (BitVec.ofNat 64 (2 ^ 32)) = none := by
  rw [C57_flat_index _ _ _ (by norm_num) (by norm_num), C57_flat_index _ _ _ (by norm_num) (by norm_num)]
  norm_num

/-- C57. `flip_bits` on words and on naturals agree. -/
theorem C57_flip_bits_no_overflow (n x : ℕ) (h0 : 1 ≤ n) (h : n ≤ 64) (_hx : x < 2 ^ 64) :
    ∃ y, flipBits n x = some y ∧ Word.flipBits n (BitVec.ofNat 64 x) = some (BitVec.ofNat 64 y) := by
  obtain ⟨y, hy, hyb⟩ := flipBits_spec n x h0 h
  obtain ⟨z, hz, hzb⟩ := Word.flipBits_getLsbD n (BitVec.ofNat 64 x) h0 h
  refine ⟨y, hy, ?_⟩
  rw [hz]
  congr 1
  apply BitVec.eq_of_getLsbD_eq
  intro i hi
  rw [hzb, BitVec.getLsbD_ofNat (x := y), hyb]
  by_cases hin : i < n
  · have : n - 1 - i < 64 := by omega
    rw [if_pos hin, if_pos hin, BitVec.getLsbD_ofNat]
    simp [hi, this]
  · simp [hin]

example : ∃ s, fullToSub 64 [0, 63, 5] (2 ^ 63 + 1) = some s ∧ s < 2 ^ 64 ∧
    Word.fullToSub 64 [0, 63, 5] (BitVec.ofNat 64 (2 ^ 63 + 1)) = some (BitVec.ofNat 64 s) :=
  C57_full_to_sub_no_overflow 64 [0, 63, 5] (2 ^ 63 + 1) (by norm_num) (by decide) (by norm_num) (by decide)

end Verif.Props
