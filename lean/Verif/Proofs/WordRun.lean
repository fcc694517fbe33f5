import Verif.Proofs.Words64
import Verif.Proofs.Measure2
import Verif.Proofs.Panics2
import Verif.Proofs.Calc3

/-! ## Machine words against unbounded numbers: ops, measurements, calculations -/

namespace Verif

theorem mapM_congr_mem {α β : Type} {f g : α → Option β} (l : List α) (h : ∀ a ∈ l, f a = g a) : l.mapM f = l.mapM g := by
  induction l with
  | nil => rfl
  | cons a l ih =>
    rw [List.mapM_cons, List.mapM_cons, h a (by simp), ih fun a ha => h a (by simp [ha])]

theorem length_le_of_nodup {idx : List ℕ} {n : ℕ} (hn : idx.Nodup) (h : ∀ q ∈ idx, q < n) : idx.length ≤ n := by
  have h1 : idx.toFinset ⊆ Finset.range n := fun q hq => Finset.mem_range.mpr (h q (List.mem_toFinset.mp hq))
  have h2 := Finset.card_le_card h1
  rwa [List.toFinset_card_of_nodup hn, Finset.card_range] at h2

section
variable {K : Type} [Semiring K] [DecidableEq K]

theorem colValue64_eq (checked : Bool) {n : ℕ} (hn : n ≤ 63) (idx : List ℕ) (hk : idx.length ≤ 64) (h : ∀ i ∈ idx, i < n) {row : ℕ} (hr : row < 2 ^ n) (input : List K)
    (e : ℕ × K) (he : e.1 < 2 ^ 64) :
    colValue64 checked n idx (BitVec.ofNat 64 row) input (wordItem e) = colValue n idx row 0 input e := by
  have p1 : (2 : ℕ) ^ n < 2 ^ 64 := Nat.pow_lt_pow_right (by norm_num) (by omega)
  unfold colValue64 colValue
  rw [show (wordItem e).1 = BitVec.ofNat 64 e.1 from rfl, subToFull64_eq checked n idx e.1 row (by omega) hk he (by omega) h, subToFull_eq n idx e.1 row h]
  have hs : foldSet (s2fPairs n idx e.1) row < 2 ^ n := s2f_lt n idx e.1 row hr h
  simp only [Option.map_some, Option.bind_eq_bind, Option.bind_some, Nat.not_lt_zero, if_false, Nat.sub_zero]
  rw [toNat_ofNat64 (by omega)]
  rfl

theorem applyOpOverwrite64_eq (checked : Bool) {n : ℕ} (hn : n ≤ 63) (op : MatrixOp K) (hw : op.WF) (hf : op.Fits) (hd : op.indices.Nodup) (h : ∀ i ∈ op.indices, i < n)
    (input output : List K) (ho : output.length ≤ 2 ^ n) :
    applyOpOverwrite64 checked n op input output = applyOpOverwrite n op input output 0 0 := by
  have hl := length_le_of_nodup hd h
  have p1 : (2 : ℕ) ^ n < 2 ^ 64 := Nat.pow_lt_pow_right (by norm_num) (by omega)
  unfold applyOpOverwrite64 applyOpOverwrite
  rw [matIndices_eq op hw]
  simp only [Option.bind_eq_bind, Option.bind_some]
  refine mapM_congr_mem _ fun p hp => ?_
  have hp2 : p.2 < 2 ^ n := by
    have := List.snd_lt_add_of_mem_zipIdx hp
    omega
  unfold applyOpRowIndices64 applyOpRowIndices MatrixOp.sumForOpCols
  rw [show (0#64) = BitVec.ofNat 64 0 from rfl, add64_fits checked (by omega)]
  simp only [Option.bind_eq_bind, Option.bind_some]
  rw [fullToSub64_eq checked n _ _ (by omega) (by omega) (by omega) h, fullToSub_eq n _ _ h]
  simp only [Option.map_some, Option.bind_some]
  have hm : foldSet (f2sPairs n op.indices (0 + p.2)) 0 < 2 ^ op.indices.length := f2s_lt n _ _
  obtain ⟨l, l1, -⟩ := items_spec op hw _ hm
  obtain ⟨e1, e2⟩ := items64_fits checked op hw hf rfl (by omega) hm l1
  have p2 : (2 : ℕ) ^ op.indices.length < 2 ^ 64 := Nat.pow_lt_pow_right (by norm_num) (by omega)
  rw [e1, l1]
  simp only [Option.bind_some]
  rw [List.mapM_map]
  have e3 : l.mapM (colValue64 checked n op.indices (BitVec.ofNat 64 (0 + p.2)) input ∘ wordItem) = l.mapM (colValue n op.indices (0 + p.2) 0 input) :=
    mapM_congr_mem _ fun e he => colValue64_eq checked hn _ (by omega) h (by omega) input e (by have := e2 e he; omega)
  exact congrArg (fun t => t.bind fun ts => some (MatrixOp.total ts)) e3

end

/-! ### measurements -/

theorem bitWord (a k : ℕ) : BitVec.ofNat 64 (a >>> k) &&& 1#64 = BitVec.ofNat 64 ((a >>> k) &&& 1) := (BitVec.ofNat_and ..).symm

theorem and_one_shift_lt (a m : ℕ) {n : ℕ} (h : m < n) : (a &&& 1) <<< m < 2 ^ n := by
  have h1 : a &&& 1 ≤ 1 := Nat.and_le_right
  rw [Nat.shiftLeft_eq]
  calc _ ≤ 1 * 2 ^ m := Nat.mul_le_mul_right _ h1
    _ < 2 ^ n := by rw [one_mul]; exact Nat.pow_lt_pow_right (by norm_num) h

theorem orFold64 {α : Type} (l : List α) (f : BitVec 64 → α → Option (BitVec 64)) (g : α → ℕ) (h : ∀ acc, ∀ a ∈ l, f acc a = some (acc ||| BitVec.ofNat 64 (g a))) (b : ℕ) :
    l.foldlM f (BitVec.ofNat 64 b) = some (BitVec.ofNat 64 (l.foldl (fun acc a => acc ||| g a) b)) := by
  induction l generalizing b with
  | nil => rfl
  | cons a l ih =>
    rw [List.foldlM_cons, h _ a (by simp), Option.bind_eq_bind, Option.bind_some, ← BitVec.ofNat_or]
    exact ih (fun acc a ha => h acc a (by simp [ha])) _

theorem foldSet_scatter_lt {n bits : ℕ} {idx : List ℕ} (h : ∀ i ∈ idx, i < n) : foldSet (scatterPairs n bits idx) 0 < 2 ^ n := by
  apply Nat.lt_pow_two_of_testBit
  intro i hi
  rw [scatter_not_mem n bits 0 idx i fun q hq => by have := h q hq; omega]
  exact Nat.zero_testBit _

theorem scatterBits64_eq (checked : Bool) {n : ℕ} (hn : n ≤ 63) {bits : ℕ} (hb : bits < 2 ^ 64) (idx : List ℕ) (hd : idx.Nodup) (h : ∀ i ∈ idx, i < n) :
    scatterBits64 checked n (BitVec.ofNat 64 bits) idx = (scatterBits n bits idx).map (BitVec.ofNat 64) := by
  have hl := length_le_of_nodup hd h
  unfold scatterBits64 scatterBits
  rw [foldlM_some _ _ (fun acc (p : ℕ × ℕ) => acc ||| (((bits >>> p.2) &&& 1) <<< (n - 1 - p.1))) _ (fun acc p hp => by
    simp only [bitPos, if_pos (h _ (List.fst_mem_of_mem_zipIdx hp)), Option.bind_eq_bind, Option.bind_some])]
  rw [show (0#64) = BitVec.ofNat 64 0 from rfl, orFold64 _ _ (fun p : ℕ × ℕ => ((bits >>> p.2) &&& 1) <<< (n - 1 - p.1))]
  · rfl
  · intro acc p hp
    have h1 := h _ (List.fst_mem_of_mem_zipIdx hp)
    have h2 : p.2 < idx.length := by have := List.snd_lt_add_of_mem_zipIdx hp; omega
    rw [shr64_fits checked (by omega) hb, bitPos64_fits checked h1]
    simp only [Option.bind_eq_bind, Option.bind_some]
    rw [bitWord, shl64_fits checked (by omega) (and_one_shift_lt _ _ (by omega))]
    rfl

theorem remaining_lt (n : ℕ) (idx : List ℕ) : ∀ i ∈ (List.range n).filter (fun i => !idx.contains i), i < n := fun i hi => by
  simpa using (List.mem_filter.mp hi).1

theorem remaining_nodup (n : ℕ) (idx : List ℕ) : ((List.range n).filter (fun i => !idx.contains i)).Nodup := List.nodup_range.filter _

theorem measureProb64_eq (checked : Bool) {n : ℕ} (hn : n ≤ 63) {m : ℕ} (hm : m < 2 ^ 64) (idx : List ℕ) (hd : idx.Nodup) (h : ∀ i ∈ idx, i < n) (input : List ℂ) :
    measureProb64 checked n (BitVec.ofNat 64 m) idx input = measureProb n m idx input none := by
  have p1 : (2 : ℕ) ^ n ≤ 2 ^ 63 := Nat.pow_le_pow_right (by norm_num) hn
  unfold measureProb64 measureProb measureProbFn
  rw [scatterBits64_eq checked hn hm idx hd h, scatterBits_eq n m idx hd h]
  simp only [Option.map_some, Option.bind_eq_bind, Option.bind_some, Option.getD_none, Nat.not_lt_zero, if_false, Nat.sub_zero, Nat.one_shiftLeft]
  have hrl := length_le_of_nodup (remaining_nodup n idx) (remaining_lt n idx)
  generalize hR : (List.range n).filter (fun i => !idx.contains i) = R at hrl
  have hR1 : ∀ i ∈ R, i < n := hR ▸ remaining_lt n idx
  have hR2 : R.Nodup := hR ▸ remaining_nodup n idx
  have p2 : (2 : ℕ) ^ R.length ≤ 2 ^ 63 := Nat.pow_le_pow_right (by norm_num) (by omega)
  rw [shlOne64_fits checked (by omega)]
  simp only [Option.bind_some]
  rw [toNat_ofNat64 (by omega)]
  refine congrArg (fun t : Option (List (Option ℝ)) => t.bind fun vals => some (vals.filterMap id).sum) (mapM_congr_mem _ fun bits hb => ?_)
  have hb' : bits < 2 ^ R.length := by simpa using hb
  rw [scatterBits64_eq checked hn (by omega) R hR2 hR1, scatterBits_eq n bits R hR2 hR1]
  simp only [Option.map_some, Option.bind_some]
  have t1 := foldSet_scatter_lt (bits := m) h
  have t2 := foldSet_scatter_lt (bits := bits) hR1
  rw [add64_fits checked (by omega)]
  simp only [Option.bind_some]
  have e := toNat_ofNat64 (x := foldSet (scatterPairs n bits R) 0 + foldSet (scatterPairs n m idx) 0) (by omega)
  simp only [e]

theorem measureProbs64_eq (checked : Bool) {n : ℕ} (hn : n ≤ 63) (idx : List ℕ) (hd : idx.Nodup) (h : ∀ i ∈ idx, i < n) (input : List ℂ) :
    measureProbs64 checked n idx input = measureProbs n idx input none := by
  have hl := length_le_of_nodup hd h
  have p2 : (2 : ℕ) ^ idx.length ≤ 2 ^ 63 := Nat.pow_le_pow_right (by norm_num) (by omega)
  unfold measureProbs64 measureProbs
  rw [shlOne64_fits checked (by omega)]
  simp only [Option.bind_eq_bind, Option.bind_some, Nat.one_shiftLeft]
  rw [toNat_ofNat64 (by omega)]
  refine mapM_congr_mem _ fun m hm => ?_
  have : m < 2 ^ idx.length := by simpa using hm
  exact measureProb64_eq checked hn (by omega) idx hd h input

theorem extractBits64_eq (checked : Bool) {num : ℕ} (hn : num < 2 ^ 64) (ps : List ℕ) (hp : ∀ p ∈ ps, p < 64) (hl : ps.length ≤ 64) :
    extractBits64 checked (BitVec.ofNat 64 num) ps = some (BitVec.ofNat 64 (extractBits num ps)) := by
  unfold extractBits64 extractBits
  rw [show (0#64) = BitVec.ofNat 64 0 from rfl, orFold64 _ _ (fun p : ℕ × ℕ => ((num >>> p.1) &&& 1) <<< p.2)]
  intro acc p hpm
  have h1 := hp _ (List.fst_mem_of_mem_zipIdx hpm)
  have h2 : p.2 < ps.length := by have := List.snd_lt_add_of_mem_zipIdx hpm; omega
  rw [shr64_fits checked h1 hn]
  simp only [Option.bind_eq_bind, Option.bind_some]
  rw [bitWord, shl64_fits checked (by omega) (and_one_shift_lt _ _ (by omega))]
  rfl

theorem softLoop_lt (l : List ℂ) (i : ℕ) (r : ℝ) (j : ℕ) (h : softLoop l i r = some j) : j < i + l.length := by
  induction l generalizing i r with
  | nil => cases h
  | cons c l ih =>
    rw [softLoop] at h
    split_ifs at h with hc
    · cases h; simp
    · have := ih _ _ h
      simp only [List.length_cons]
      omega

theorem softMeasure64_eq (checked : Bool) {n : ℕ} (hn : n ≤ 63) (idx : List ℕ) (hd : idx.Nodup) (h : ∀ i ∈ idx, i < n) (input : List ℂ) (hi : input.length ≤ 2 ^ n) (rnd : ℝ) :
    softMeasure64 checked n idx input rnd = (softMeasure n idx input none rnd).map (BitVec.ofNat 64) := by
  have hl := length_le_of_nodup hd h
  have p1 : (2 : ℕ) ^ n ≤ 2 ^ 63 := Nat.pow_le_pow_right (by norm_num) hn
  unfold softMeasure64 softMeasure
  rw [shlOne64_fits checked (by omega)]
  simp only [Option.bind_eq_bind, Option.bind_some, Nat.one_shiftLeft, Option.getD_none, Nat.add_zero]
  rw [toNat_ofNat64 (by omega)]
  have e1 : idx.mapM (bitPos64 checked n) = some (idx.map fun q => n - 1 - q) := mapM_some _ _ _ fun q hq => bitPos64_fits checked (h q hq)
  have e2 : idx.mapM (bitPos n) = some (idx.map fun q => n - 1 - q) := mapM_some _ _ _ fun q hq => if_pos (h q hq)
  rw [e1, e2]
  simp only [Option.bind_some, Option.map_some]
  have hp : ∀ p ∈ idx.map (fun q => n - 1 - q), p < 64 := fun p hp => by
    obtain ⟨q, -, rfl⟩ := List.mem_map.mp hp
    omega
  cases hs : softLoop input 0 (rnd * (if input.length < 2 ^ n then probMagnitude input else 1)) with
  | none => exact extractBits64_eq checked (num := 0) (by norm_num) _ hp (by simpa using by omega)
  | some i =>
    have := softLoop_lt _ _ _ _ hs
    exact extractBits64_eq checked (num := i) (by omega) _ hp (by simpa using by omega)

theorem sum64_fits (checked : Bool) (l : List ℕ) (b : ℕ) (h : b + l.sum < 2 ^ 64) :
    (l.map (BitVec.ofNat 64)).foldlM (add64 checked) (BitVec.ofNat 64 b) = some (BitVec.ofNat 64 (b + l.sum)) := by
  induction l generalizing b with
  | nil => rfl
  | cons a l ih =>
    rw [List.sum_cons] at h ⊢
    rw [List.map_cons, List.foldlM_cons, add64_fits checked (by omega), Option.bind_eq_bind, Option.bind_some, ih _ (by omega), add_assoc]

theorem rowMask64_eq (checked : Bool) {n : ℕ} (hn : n ≤ 63) (idx : List ℕ) (hd : idx.Nodup) (h : ∀ i ∈ idx, i < n) :
    rowMask64 checked n idx = (rowMask n idx).map (BitVec.ofNat 64) ∧ ∃ x, rowMask n idx = some x ∧ x < 2 ^ n := by
  have p1 : (2 : ℕ) ^ n ≤ 2 ^ 63 := Nat.pow_le_pow_right (by norm_num) hn
  have hx := foldSet_scatter_lt (bits := 2 ^ idx.length - 1) h
  refine ⟨?_, _, rowMask_eq n idx hd h, hx⟩
  have e0 := rowMask_eq n idx hd h
  unfold rowMask at e0
  rw [mapM_some _ _ (fun q : ℕ => 1 <<< (n - 1 - q)) (fun q hq => by simp only [bitPos, h q hq, if_true, Option.bind_eq_bind, Option.bind_some])] at e0
  simp only [Option.bind_eq_bind, Option.bind_some, Option.some.injEq] at e0
  rw [rowMask_eq n idx hd h]
  unfold rowMask64 sum64
  rw [mapM_some _ _ (fun q : ℕ => BitVec.ofNat 64 (1 <<< (n - 1 - q))) (fun q hq => by
    simp only [bitPos64_fits checked (h q hq), Option.bind_eq_bind, Option.bind_some]
    rw [shlOne64_fits checked (by omega), Nat.one_shiftLeft])]
  simp only [Option.bind_eq_bind, Option.bind_some, Option.map_some]
  rw [show idx.map (fun q => BitVec.ofNat 64 (1 <<< (n - 1 - q))) = (idx.map fun q => 1 <<< (n - 1 - q)).map (BitVec.ofNat 64) by rw [List.map_map]; rfl,
    show (0#64) = BitVec.ofNat 64 0 from rfl, sum64_fits checked _ 0 (by omega), Nat.zero_add, e0]

theorem measuredMask64_eq (checked : Bool) {n : ℕ} (hn : n ≤ 63) {m : ℕ} (hm : m < 2 ^ 64) (idx : List ℕ) (hd : idx.Nodup) (h : ∀ i ∈ idx, i < n) :
    measuredMask64 checked n (BitVec.ofNat 64 m) idx = (measuredMask n m idx).map (BitVec.ofNat 64) ∧ ∃ x, measuredMask n m idx = some x ∧ x < 2 ^ n := by
  have hl := length_le_of_nodup hd h
  have p1 : (2 : ℕ) ^ n ≤ 2 ^ 63 := Nat.pow_le_pow_right (by norm_num) hn
  have hx := foldSet_scatter_lt (bits := m) h
  refine ⟨?_, _, measuredMask_eq n m idx hd h, hx⟩
  have e0 := measuredMask_eq n m idx hd h
  unfold measuredMask at e0
  rw [mapM_some _ _ (fun p : ℕ × ℕ => ((m >>> p.2) &&& 1) <<< (n - 1 - p.1)) (fun p hp => by
    simp only [bitPos, h _ (List.fst_mem_of_mem_zipIdx hp), if_true, Option.bind_eq_bind, Option.bind_some])] at e0
  simp only [Option.bind_eq_bind, Option.bind_some, Option.some.injEq] at e0
  rw [measuredMask_eq n m idx hd h]
  unfold measuredMask64 sum64
  rw [mapM_some _ _ (fun p : ℕ × ℕ => BitVec.ofNat 64 (((m >>> p.2) &&& 1) <<< (n - 1 - p.1))) (fun p hp => by
    have h1 := h _ (List.fst_mem_of_mem_zipIdx hp)
    have h2 : p.2 < idx.length := by have := List.snd_lt_add_of_mem_zipIdx hp; omega
    rw [shr64_fits checked (by omega) hm, bitPos64_fits checked h1]
    simp only [Option.bind_eq_bind, Option.bind_some]
    rw [bitWord, shl64_fits checked (by omega) (and_one_shift_lt _ _ (by omega))])]
  simp only [Option.bind_eq_bind, Option.bind_some, Option.map_some]
  rw [show idx.zipIdx.map (fun p : ℕ × ℕ => BitVec.ofNat 64 (((m >>> p.2) &&& 1) <<< (n - 1 - p.1))) =
      (idx.zipIdx.map fun p : ℕ × ℕ => ((m >>> p.2) &&& 1) <<< (n - 1 - p.1)).map (BitVec.ofNat 64) by rw [List.map_map]; rfl,
    show (0#64) = BitVec.ofNat 64 0 from rfl, sum64_fits checked _ 0 (by omega), Nat.zero_add, e0]

theorem measureRow64_eq {rm mm row : ℕ} (h1 : rm < 2 ^ 64) (h2 : mm < 2 ^ 64) (pm : ℝ) (v : ℂ) :
    measureRow64 (BitVec.ofNat 64 rm) (BitVec.ofNat 64 mm) pm (BitVec.ofNat 64 row) v = measureRow rm mm pm row v := by
  unfold measureRow64 measureRow
  rw [← BitVec.ofNat_and, ← BitVec.ofNat_xor]
  have h3 : row &&& rm ≤ rm := Nat.and_le_right
  have h4 : (row &&& rm) ^^^ mm < 2 ^ 64 := Nat.xor_lt_two_pow (by omega) h2
  have : BitVec.ofNat 64 ((row &&& rm) ^^^ mm) ≠ 0#64 ↔ (row &&& rm) ^^^ mm ≠ 0 := by
    rw [not_iff_not]
    constructor
    · intro e
      have := congrArg BitVec.toNat e
      rwa [toNat_ofNat64 h4] at this
    · intro e; rw [e]
  simp only [this]

theorem measureState64_eq (checked : Bool) {n : ℕ} (hn : n ≤ 63) {m : ℕ} (hm : m < 2 ^ 64) (p : ℝ) (idx : List ℕ) (hd : idx.Nodup) (h : ∀ i ∈ idx, i < n)
    (input output : List ℂ) :
    measureState64 checked n idx (BitVec.ofNat 64 m) p input output = measureState n idx (m, p) input output none := by
  have p1 : (2 : ℕ) ^ n ≤ 2 ^ 63 := Nat.pow_le_pow_right (by norm_num) hn
  obtain ⟨a1, x, a2, a3⟩ := rowMask64_eq checked hn idx hd h
  obtain ⟨b1, y, b2, b3⟩ := measuredMask64_eq checked hn hm idx hd h
  unfold measureState64 measureState
  by_cases hp : p = 0
  · rw [if_neg (by simpa using hp)]
    simp only [Option.getD_none]
    rw [if_neg (by simpa using hp)]
  rw [if_pos hp]
  simp only [Option.getD_none]
  rw [if_pos hp, a1, b1, a2, b2]
  simp only [Option.getD_none, Option.map_some, Option.bind_eq_bind, Option.bind_some, max_self, Nat.zero_add, Nat.not_lt_zero, or_self, if_false, Nat.sub_zero, Nat.add_zero]
  unfold slice
  have s1 : 0 ≤ min input.length output.length ∧ min input.length output.length ≤ input.length := ⟨Nat.zero_le _, min_le_left _ _⟩
  have s2 : 0 ≤ min input.length output.length ∧ min input.length output.length ≤ output.length := ⟨Nat.zero_le _, min_le_right _ _⟩
  rw [if_pos s1, if_pos s2]
  simp only [Option.bind_some, List.drop_zero]
  have e : ∀ p' : ℝ, (fun q : ℂ × ℕ => measureRow64 (BitVec.ofNat 64 x) (BitVec.ofNat 64 y) p' (BitVec.ofNat 64 q.2) q.1) = fun q => measureRow x y p' q.2 q.1 :=
    fun p' => funext fun q => measureRow64_eq (by omega) (by omega) p' q.1
  simp only [e]

theorem softMeasure_lt (n : ℕ) (idx : List ℕ) (input : List ℂ) (rnd : ℝ) (m : ℕ) (h : softMeasure n idx input none rnd = some m) : m < 2 ^ idx.length := by
  unfold softMeasure at h
  simp only [Option.bind_eq_bind] at h
  obtain ⟨ps, h1, h2⟩ := Option.bind_eq_some_iff.mp h
  have hl : ps.length = idx.length := by
    exact (mapM_inv _ _ _ h1).1
  cases h2
  rw [← hl]
  apply Nat.lt_pow_two_of_testBit
  intro i hi
  rw [testBit_extractBits, dif_neg (by omega)]

theorem measure64_eq (checked : Bool) {n : ℕ} (hn : n ≤ 63) (idx : List ℕ) (hd : idx.Nodup) (h : ∀ i ∈ idx, i < n) (input output : List ℂ) (hi : input.length ≤ 2 ^ n) (rnd : ℝ) :
    (measure64 checked n idx input output rnd).map (fun r => ((r.1.1.toNat, r.1.2), r.2)) = measure n idx input output none none rnd := by
  have hl := length_le_of_nodup hd h
  unfold measure64 measure
  rw [softMeasure64_eq checked hn idx hd h input hi]
  simp only [Option.map_none, Option.bind_none, Option.bind_eq_bind]
  cases hs : softMeasure n idx input none rnd with
  | none => rfl
  | some m =>
    have p2 : (2 : ℕ) ^ idx.length ≤ 2 ^ 63 := Nat.pow_le_pow_right (by norm_num) (by omega)
    have hm := softMeasure_lt n idx input rnd m hs
    simp only [Option.map_some, Option.bind_some]
    rw [measureProb64_eq checked hn (by omega) idx hd h]
    cases measureProb n m idx input none with
    | none => rfl
    | some p =>
      simp only [Option.bind_some]
      rw [measureState64_eq checked hn (by omega) p idx hd h]
      cases measureState n idx (m, p) input output none with
      | none => rfl
      | some out => simp only [Option.bind_some, Option.map_some]; rw [toNat_ofNat64 (by omega)]

end Verif
