import Verif.Proofs.Measure

namespace Verif
open Finset

/-! ### outcome distribution -/

/-- the outcome spelled by a basis state -/
def outcomeOf (n : ℕ) (indices : List ℕ) (x : ℕ) : ℕ := extractBits x (indices.map fun q => n - 1 - q)

theorem outcomeOf_lt (n : ℕ) (indices : List ℕ) (x : ℕ) : outcomeOf n indices x < 2 ^ indices.length := by
  apply Nat.lt_pow_two_of_testBit
  intro i hi
  rw [outcomeOf, testBit_extractBits, dif_neg (by simp; omega)]

theorem spells_outcomeOf (n : ℕ) (indices : List ℕ) (x : ℕ) : Spells n indices (outcomeOf n indices x) x := by
  intro i h
  rw [outcomeOf, testBit_extractBits, dif_pos (by simpa using h)]
  simp

theorem spells_iff (n : ℕ) (indices : List ℕ) (m x : ℕ) (hm : m < 2 ^ indices.length) :
    Spells n indices m x ↔ m = outcomeOf n indices x := by
  constructor
  · intro h
    apply Nat.eq_of_testBit_eq
    intro i
    by_cases hi : i < indices.length
    · rw [← h i hi, spells_outcomeOf n indices x i hi]
    · have e : ∀ y, y < 2 ^ indices.length → y.testBit i = false := fun y hy =>
        Nat.testBit_lt_two_pow (lt_of_lt_of_le hy (Nat.pow_le_pow_right (by omega) (by omega)))
      rw [e m hm, e _ (outcomeOf_lt n indices x)]
  · rintro rfl; exact spells_outcomeOf n indices x

theorem spells_unique (n : ℕ) (indices : List ℕ) (m m' x : ℕ) (hm : m < 2 ^ indices.length)
    (hm' : m' < 2 ^ indices.length) (h : Spells n indices m x) (h' : Spells n indices m' x) : m = m' := by
  rw [spells_iff _ _ _ _ hm] at h
  rw [spells_iff _ _ _ _ hm'] at h'
  rw [h, h']

theorem bornProb_nonneg (n : ℕ) (indices : List ℕ) (m : ℕ) (amp : ℕ → ℂ) : 0 ≤ bornProb n indices m amp :=
  sum_nonneg fun _ _ => Complex.normSq_nonneg _

theorem bornProb_sum (n : ℕ) (indices : List ℕ) (amp : ℕ → ℂ) :
    ∑ m ∈ range (2 ^ indices.length), bornProb n indices m amp = ∑ x ∈ range (2 ^ n), Complex.normSq (amp x) := by
  classical
  unfold bornProb
  simp only [sum_filter]
  rw [sum_comm]
  apply sum_congr rfl
  intro x _
  rw [sum_eq_single (outcomeOf n indices x)]
  · rw [if_pos (spells_outcomeOf n indices x)]
  · intro m hm hne
    rw [if_neg]
    rw [spells_iff _ _ _ _ (mem_range.mp hm)]
    exact hne
  · intro h
    exact absurd (mem_range.mpr (outcomeOf_lt n indices x)) h

theorem ampAt_sum (input : List ℂ) (off N : ℕ) (h : off + input.length ≤ N) :
    ∑ x ∈ range N, Complex.normSq (ampAt input off x) = probMagnitude input := by
  rw [probMagnitude_eq]
  have e : ∀ c, ampAt input off (off + c) = ampAt input 0 c := by
    intro c
    simp [ampAt]
  have h0 : ∀ x, x < off → ampAt input off x = 0 := fun x hx => by simp [ampAt, hx]
  have h1 : ∀ x, off + input.length ≤ x → ampAt input off x = 0 := by
    intro x hx
    unfold ampAt
    rw [if_neg (by omega), List.getElem?_eq_none (by omega)]; rfl
  obtain ⟨d, rfl⟩ := Nat.exists_eq_add_of_le h
  rw [sum_range_add, sum_range_add, sum_eq_zero (fun x hx => by rw [h0 x (mem_range.mp hx)]; simp), zero_add]
  rw [sum_eq_zero (s := range d) (fun x hx => by rw [h1 _ (by omega)]; simp), add_zero]
  exact sum_congr rfl fun c _ => by rw [e]

theorem bornProb_append (n : ℕ) (indices : List ℕ) (m : ℕ) (a b : List ℂ) (off : ℕ) :
    bornProb n indices m (ampAt (a ++ b) off) =
      bornProb n indices m (ampAt a off) + bornProb n indices m (ampAt b (off + a.length)) := by
  unfold bornProb
  rw [← sum_add_distrib]
  apply sum_congr rfl
  intro x _
  rw [ampAt_append]
  by_cases h : x < off + a.length
  · have : ampAt b (off + a.length) x = 0 := by simp [ampAt, h]
    rw [this]; simp
  · have : ampAt a off x = 0 := by
      unfold ampAt
      rw [if_neg (by omega), List.getElem?_eq_none (by omega)]; rfl
    rw [this]; simp

theorem measureProbs_eq (n : ℕ) (indices : List ℕ) (hn : indices.Nodup) (hidx : ∀ i ∈ indices, i < n)
    (input : List ℂ) (off : Option ℕ) :
    measureProbs n indices input off =
      some ((List.range (2 ^ indices.length)).map fun m => bornProb n indices m (ampAt input (off.getD 0))) := by
  unfold measureProbs
  rw [Nat.one_shiftLeft]
  exact mapM_some _ _ _ fun m _ => measureProb_eq n m indices hn hidx input off

/-! ### collapse -/

theorem measuredMask_eq (n m : ℕ) (indices : List ℕ) (hn : indices.Nodup) (h : ∀ i ∈ indices, i < n) :
    measuredMask n m indices = some (foldSet (scatterPairs n m indices) 0) := by
  unfold measuredMask
  rw [mapM_some _ _ (fun p : ℕ × ℕ => (m.testBit p.2).toNat <<< (n - 1 - p.1))]
  · rw [foldSet_eq_sum _ (scatterPairs_nodup n m indices hn h), scatterPairs, List.map_map]
    rfl
  · intro a ha
    have : a.1 < n := h a.1 (by
      rw [List.mem_zipIdx_iff_getElem?] at ha
      obtain ⟨h1, h2⟩ := List.getElem?_eq_some_iff.mp ha
      rw [← h2]; exact List.getElem_mem _)
    simp only [bitPos, this, if_true, shift_and_one, Option.bind_eq_bind, Option.bind_some]

theorem rowMask_eq (n : ℕ) (indices : List ℕ) (hn : indices.Nodup) (h : ∀ i ∈ indices, i < n) :
    rowMask n indices = some (foldSet (scatterPairs n (2 ^ indices.length - 1) indices) 0) := by
  unfold rowMask
  rw [mapM_some _ _ (fun q : ℕ => 1 <<< (n - 1 - q))]
  · rw [foldSet_eq_sum _ (scatterPairs_nodup n _ indices hn h), scatterPairs, List.map_map]
    simp only [Option.bind_eq_bind, Option.bind_some]
    congr 2
    apply List.ext_getElem
    · simp
    · intro i h1 h2
      have : i < indices.length := by simpa using h1
      simp [Nat.testBit_two_pow_sub_one, this]
  · intro a ha
    simp only [bitPos, h a ha, if_true, Option.bind_eq_bind, Option.bind_some]

theorem measureRow_eq (n m : ℕ) (indices : List ℕ) (hn : indices.Nodup) (h : ∀ i ∈ indices, i < n)
    (pm : ℝ) (row : ℕ) (v : ℂ) [Decidable (Spells n indices m row)] :
    measureRow (foldSet (scatterPairs n (2 ^ indices.length - 1) indices) 0) (foldSet (scatterPairs n m indices) 0)
      pm row v = if Spells n indices m row then v * pm else 0 := by
  unfold measureRow
  have key : ((row &&& foldSet (scatterPairs n (2 ^ indices.length - 1) indices) 0) ^^^
      foldSet (scatterPairs n m indices) 0) = 0 ↔ Spells n indices m row := by
    rw [Nat.xor_eq_zero_iff]
    constructor
    · intro e i hi
      have := congrArg (fun z => z.testBit (n - 1 - indices[i])) e
      simp only [Nat.testBit_and] at this
      rw [scatter_mem n _ 0 indices hn h i hi, scatter_mem n _ 0 indices hn h i hi] at this
      simpa [Nat.testBit_two_pow_sub_one, hi] using this
    · intro hs
      apply Nat.eq_of_testBit_eq
      intro p
      rw [Nat.testBit_and]
      by_cases hp : ∃ q ∈ indices, n - 1 - q = p
      · obtain ⟨q, hq, rfl⟩ := hp
        obtain ⟨i, hi, rfl⟩ := List.mem_iff_getElem.mp hq
        rw [scatter_mem n _ 0 indices hn h i hi, scatter_mem n _ 0 indices hn h i hi, hs i hi]
        simp [Nat.testBit_two_pow_sub_one, hi]
      · push Not at hp
        rw [scatter_not_mem n _ 0 indices p hp, scatter_not_mem n _ 0 indices p hp]
        simp
  by_cases hs : Spells n indices m row
  · rw [if_pos hs, if_neg (by rw [not_not]; exact key.mpr hs)]
  · rw [if_neg hs, if_pos (fun e => hs (key.mp e))]

theorem overlay_getElem? {K : Type} (out l : List K) (lo i : ℕ) (h : lo + l.length ≤ out.length) :
    (overlay out l lo)[i]? = if lo ≤ i ∧ i < lo + l.length then l[i - lo]? else out[i]? := by
  unfold overlay
  by_cases h1 : i < lo
  · rw [if_neg (by omega), List.append_assoc, List.getElem?_append_left (by simp; omega), List.getElem?_take_of_lt h1]
  · by_cases h2 : i < lo + l.length
    · rw [if_pos (by omega), List.getElem?_append_left (by simp; omega), List.getElem?_append_right (by simp; omega)]
      congr 1
      simp; omega
    · rw [if_neg (by omega), List.getElem?_append_right (by simp; omega), List.getElem?_drop]
      congr 1
      simp; omega

theorem overlay_length {K : Type} (out l : List K) (lo : ℕ) (h : lo + l.length ≤ out.length) :
    (overlay out l lo).length = out.length := by
  unfold overlay
  simp
  omega

open Classical in
theorem measureState_eq (n m : ℕ) (indices : List ℕ) (hn : indices.Nodup) (h : ∀ i ∈ indices, i < n) (p : ℝ)
    (hp : p ≠ 0) (input output : List ℂ) (io oo : ℕ)
    (hov : max io oo ≤ min (io + input.length) (oo + output.length)) :
    ∃ out, measureState n indices (m, p) input output (some (io, oo)) = some out ∧ out.length = output.length ∧
      ∀ r, r < output.length → out[r]? =
        if io ≤ oo + r ∧ oo + r < io + input.length then
          some (if Spells n indices m (oo + r) then ampAt input io (oo + r) * (1 / Real.sqrt p : ℝ) else 0)
        else output[r]? := by
  have hm1 := le_max_left io oo
  have hm2 := le_max_right io oo
  have hn1 := min_le_left (io + input.length) (oo + output.length)
  have hn2 := min_le_right (io + input.length) (oo + output.length)
  have hmm : max io oo = io ∨ max io oo = oo := by omega
  have hnn : min (io + input.length) (oo + output.length) = io + input.length ∨
    min (io + input.length) (oo + output.length) = oo + output.length := by omega
  unfold measureState
  simp only [Option.getD_some]
  rw [if_pos hp, rowMask_eq n indices hn h, measuredMask_eq n m indices hn h]
  simp only [Option.bind_eq_bind, Option.bind_some]
  generalize max io oo = L at *
  generalize min (io + input.length) (oo + output.length) = U at *
  rw [if_neg (by omega), slice, if_pos (by omega), slice, if_pos (by omega)]
  simp only [Option.bind_some]
  refine ⟨_, rfl, ?_, ?_⟩
  · apply overlay_length
    simp; omega
  · intro r hr
    rw [overlay_getElem? _ _ _ _ (by simp; omega)]
    by_cases c : io ≤ oo + r ∧ oo + r < io + input.length
    · rw [if_pos c, if_pos (by simp; omega)]
      rw [List.getElem?_map]
      have h1 : r - (L - oo) + (L - io) = oo + r - io := by omega
      have h2 : r - (L - oo) + L = oo + r := by omega
      rw [List.getElem?_eq_getElem (by simp; omega)]
      simp only [Option.map_some, List.getElem_zipIdx, List.getElem_drop, List.getElem_take, Nat.zero_add]
      rw [measureRow_eq n m indices hn h, h2]
      congr 2
      unfold ampAt
      rw [if_neg (by omega), List.getElem?_eq_getElem (by omega)]
      simp only [Option.getD_some]
      congr 2
      omega
    · rw [if_neg c, if_neg (by simp; omega)]

/-! ### sampling -/

/-- probability of the first `k` entries -/
noncomputable def prefixProb (input : List ℂ) (k : ℕ) : ℝ := probMagnitude (input.take k)

theorem softLoop_spec (l : List ℂ) (i0 : ℕ) (r : ℝ) (i : ℕ) :
    softLoop l i0 r = some i ↔
      i0 ≤ i ∧ i < i0 + l.length ∧ r ≤ prefixProb l (i - i0 + 1) ∧ ∀ j, j < i - i0 → prefixProb l (j + 1) < r := by
  induction l generalizing i0 r with
  | nil => simp [softLoop]; intro h1 h2; omega
  | cons c cs ih =>
    have hpre : ∀ k, prefixProb (c :: cs) (k + 1) = Complex.normSq c + prefixProb cs k := by
      intro k; simp [prefixProb, probMagnitude]
    have h0 : prefixProb cs 0 = 0 := by simp [prefixProb, probMagnitude]
    unfold softLoop
    by_cases hr : r - Complex.normSq c ≤ 0
    · simp only [if_pos hr]
      constructor
      · rintro ⟨rfl⟩
        refine ⟨le_refl _, by simp, ?_, ?_⟩
        · rw [Nat.sub_self, hpre, h0]; linarith
        · intro j hj; omega
      · rintro ⟨h1, h2, h3, h4⟩
        congr 1
        by_contra hne
        have := h4 0 (by omega)
        rw [hpre, h0] at this
        linarith
    · simp only [if_neg hr]
      rw [ih]
      constructor
      · rintro ⟨h1, h2, h3, h4⟩
        refine ⟨by omega, by simp; omega, ?_, ?_⟩
        · rw [hpre, show i - i0 = i - (i0 + 1) + 1 by omega]; linarith
        · intro j hj
          rw [hpre]
          cases j with
          | zero => rw [h0]; linarith
          | succ j => have := h4 j (by omega); linarith
      · rintro ⟨h1, h2, h3, h4⟩
        have hne : i ≠ i0 := by
          rintro rfl
          rw [Nat.sub_self, hpre, h0] at h3; linarith
        refine ⟨by omega, by simp at h2; omega, ?_, ?_⟩
        · rw [hpre, show i - i0 = i - (i0 + 1) + 1 by omega] at h3; linarith
        · intro j hj
          have := h4 (j + 1) (by omega)
          rw [hpre] at this; linarith

theorem prefixProb_succ (l : List ℂ) (k : ℕ) (h : k < l.length) :
    prefixProb l (k + 1) = prefixProb l k + Complex.normSq l[k] := by
  unfold prefixProb probMagnitude
  rw [List.take_succ_eq_append_getElem h, List.map_append, List.sum_append]
  simp

theorem prefixProb_mono (l : List ℂ) {a b : ℕ} (h : a ≤ b) : prefixProb l a ≤ prefixProb l b := by
  induction b, h using Nat.le_induction with
  | base => exact le_refl _
  | succ b _ ih =>
    apply le_trans ih
    by_cases hb : b < l.length
    · rw [prefixProb_succ l b hb]; linarith [Complex.normSq_nonneg l[b]]
    · unfold prefixProb
      rw [List.take_of_length_le (by omega), List.take_of_length_le (by omega)]

theorem prefixProb_zero (l : List ℂ) : prefixProb l 0 = 0 := by simp [prefixProb, probMagnitude]

theorem prefixProb_length (l : List ℂ) : prefixProb l l.length = probMagnitude l := by simp [prefixProb]

theorem softLoop_pos (l : List ℂ) (r : ℝ) (hr : 0 < r) (i : ℕ) :
    softLoop l 0 r = some i ↔ i < l.length ∧ prefixProb l i < r ∧ r ≤ prefixProb l (i + 1) := by
  rw [softLoop_spec]
  simp only [Nat.zero_le, true_and, Nat.sub_zero, Nat.zero_add]
  constructor
  · rintro ⟨h2, h3, h4⟩
    refine ⟨h2, ?_, h3⟩
    cases i with
    | zero => rw [prefixProb_zero]; exact hr
    | succ i => exact h4 i (by omega)
  · rintro ⟨h2, h3, h4⟩
    refine ⟨h2, h4, fun j hj => lt_of_le_of_lt (prefixProb_mono l (by omega)) h3⟩

theorem softLoop_total (l : List ℂ) (r : ℝ) (h : r ≤ probMagnitude l) (h0 : 0 < r) : ∃ i, softLoop l 0 r = some i := by
  have hex : ∃ k, r ≤ prefixProb l k := ⟨l.length, by rw [prefixProb_length]; exact h⟩
  classical
  let k := Nat.find hex
  have hk := Nat.find_spec hex
  have hk0 : Nat.find hex ≠ 0 := by
    intro e
    rw [e, prefixProb_zero] at hk
    linarith
  obtain ⟨i, hi⟩ := Nat.exists_eq_succ_of_ne_zero hk0
  have hlt : prefixProb l i < r := not_le.mp (Nat.find_min hex (by omega))
  rw [hi] at hk
  refine ⟨i, (softLoop_pos l r h0 i).mpr ⟨?_, hlt, hk⟩⟩
  by_contra hc
  have : prefixProb l i = probMagnitude l := by
    rw [prefixProb, List.take_of_length_le (by omega)]
  linarith

theorem softMeasure_eq (n : ℕ) (indices : List ℕ) (hidx : ∀ i ∈ indices, i < n) (input : List ℂ) (off : Option ℕ)
    (rnd : ℝ) (hT : input.length < 2 ^ n ∨ probMagnitude input = 1) :
    softMeasure n indices input off rnd = some (outcomeOf n indices
      (match softLoop input 0 (rnd * probMagnitude input) with | some i => i + off.getD 0 | none => 0)) := by
  unfold softMeasure
  have hif : (if input.length < 1 <<< n then probMagnitude input else 1) = probMagnitude input := by
    rw [Nat.one_shiftLeft]
    split
    · rfl
    · rcases hT with h | h
      · contradiction
      · exact h.symm
  rw [hif, mapM_some indices (bitPos n) (fun q => n - 1 - q) (fun q hq => by simp [bitPos, hidx q hq])]
  rfl

end Verif
