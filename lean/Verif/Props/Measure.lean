import Verif.Proofs.Measure2
import Verif.Props.Apply
import Mathlib.MeasureTheory.Measure.Lebesgue.Basic

/-!
# C21–C23: measurement (and C13 for `measure_state`)
-/

namespace Verif.Props
open Verif Finset MeasureTheory

/-! ## C21 -/

/-- C21. `measure_prob` never panics for distinct qubits below `n` and is the Born probability: the sum of the
squared amplitudes over exactly the basis states whose measured qubits spell the outcome. -/
theorem C21_measure_prob (n m : ℕ) (indices : List ℕ) (hn : indices.Nodup) (hidx : ∀ i ∈ indices, i < n)
    (input : List ℂ) (off : Option ℕ) :
    measureProb n m indices input off = some (bornProb n indices m (ampAt input (off.getD 0))) :=
  measureProb_eq n m indices hn hidx input off

/-- C21. `measure_probs` lists the `2^k` Born probabilities; they are non-negative and sum to the probability held
in the vector. -/
theorem C21_measure_probs (n : ℕ) (indices : List ℕ) (hn : indices.Nodup) (hidx : ∀ i ∈ indices, i < n)
    (input : List ℂ) (off : Option ℕ) (hlen : off.getD 0 + input.length ≤ 2 ^ n) :
    ∃ ps, measureProbs n indices input off = some ps ∧ ps.length = 2 ^ indices.length ∧
      (∀ m, m < 2 ^ indices.length → ps[m]? = some (bornProb n indices m (ampAt input (off.getD 0)))) ∧
      (∀ p ∈ ps, 0 ≤ p) ∧ ps.sum = probMagnitude input := by
  refine ⟨_, measureProbs_eq n indices hn hidx input off, by simp, ?_, ?_, ?_⟩
  · intro m hm; simp [hm]
  · intro p hp
    obtain ⟨m, _, rfl⟩ := List.mem_map.mp hp
    exact bornProb_nonneg _ _ _ _
  · rw [list_range_sum, bornProb_sum, ampAt_sum _ _ _ hlen]

/-- C21. Chunks of a distributed state contribute additively. -/
theorem C21_chunks_add (n m : ℕ) (indices : List ℕ) (hn : indices.Nodup) (hidx : ∀ i ∈ indices, i < n)
    (a b : List ℂ) (off : ℕ) :
    ∃ pa pb, measureProb n m indices a (some off) = some pa ∧
      measureProb n m indices b (some (off + a.length)) = some pb ∧
      measureProb n m indices (a ++ b) (some off) = some (pa + pb) := by
  refine ⟨_, _, measureProb_eq n m indices hn hidx a _, measureProb_eq n m indices hn hidx b _, ?_⟩
  rw [measureProb_eq n m indices hn hidx]
  simp only [Option.getD_some]
  rw [bornProb_append]

/-- instance: qubit 1 of `|01⟩` (vector `[0, 1, 0, 0]`) reads 1 with probability 1 and 0 with probability 0 -/
example : measureProb 2 1 [1] [0, 1, 0, 0] none = some 1 ∧ measureProb 2 0 [1] [0, 1, 0, 0] none = some 0 := by
  constructor
  · rw [C21_measure_prob 2 1 [1] (by simp) (by simp)]
    congr 1
    unfold bornProb
    rw [sum_filter]
    have e : Spells 2 [1] 1 1 := by intro i h; simp only [List.length_singleton] at h; interval_cases i; rfl
    simp [sum_range_succ, ampAt, e]
  · rw [C21_measure_prob 2 0 [1] (by simp) (by simp)]
    congr 1
    unfold bornProb
    rw [sum_filter]
    have e : ¬ Spells 2 [1] 0 1 := by
      intro h
      exact absurd (h 0 (by simp)) (by simp only [List.getElem_cons_zero]; decide)
    simp [sum_range_succ, ampAt, e]

/-! ## C22 -/

open Classical in
/-- C22. `measure_state` on windows of the state: inside the overlap of the input and output windows rows spelling
the outcome are scaled by `1/√p` and the other rows are zeroed; output cells outside the overlap keep their value. -/
theorem C22_measure_state_window (n m : ℕ) (indices : List ℕ) (hn : indices.Nodup) (hidx : ∀ i ∈ indices, i < n)
    (p : ℝ) (hp : p ≠ 0) (input output : List ℂ) (io oo : ℕ)
    (hov : max io oo ≤ min (io + input.length) (oo + output.length)) :
    ∃ out, measureState n indices (m, p) input output (some (io, oo)) = some out ∧ out.length = output.length ∧
      ∀ r, r < output.length → out[r]? =
        if io ≤ oo + r ∧ oo + r < io + input.length then
          some (if Spells n indices m (oo + r) then ampAt input io (oo + r) * (1 / Real.sqrt p : ℝ) else 0)
        else output[r]? :=
  measureState_eq n m indices hn hidx p hp input output io oo hov

/-- C22. On windows that do not touch, `measure_state` panics instead of doing nothing. -/
theorem C22_disjoint_windows_panic (n m : ℕ) (indices : List ℕ) (p : ℝ) (hp : p ≠ 0)
    (input output : List ℂ) (io oo : ℕ)
    (hov : min (io + input.length) (oo + output.length) < max io oo) :
    measureState n indices (m, p) input output (some (io, oo)) = none := by
  unfold measureState
  simp only [Option.getD_some]
  rw [if_pos hp]
  simp only [Option.bind_eq_bind]
  rcases rowMask n indices with _ | rm
  · rfl
  rcases measuredMask n m indices with _ | mm
  · rfl
  simp only [Option.bind_some]
  split
  · rfl
  · rw [slice, if_neg (by omega)]
    rfl

/-- C22. The collapsed state: for an outcome of nonzero probability, `measure` of that outcome returns the Born
probability and a vector which is zero off the outcome, proportional to the old one on it (factor `1/√p`), of total
probability 1, and on which the same measurement gives the same outcome with certainty and every other outcome with
probability 0. The old contents of the output buffer do not matter. -/
theorem C22_collapse (n m : ℕ) (indices : List ℕ) (hn : indices.Nodup) (hidx : ∀ i ∈ indices, i < n)
    (hm : m < 2 ^ indices.length) (input buf : List ℂ) (hi : input.length = 2 ^ n) (ho : buf.length = 2 ^ n)
    (rnd : ℝ) (hp : bornProb n indices m (ampAt input 0) ≠ 0) :
    ∃ out, measure n indices input buf none (some ⟨m, none⟩) rnd =
        some ((m, bornProb n indices m (ampAt input 0)), out) ∧ out.length = 2 ^ n ∧
      (∀ x, x < 2 ^ n → ¬ Spells n indices m x → out[x]? = some 0) ∧
      (∀ x, x < 2 ^ n → Spells n indices m x →
        out[x]? = some (ampAt input 0 x * (1 / Real.sqrt (bornProb n indices m (ampAt input 0)) : ℝ))) ∧
      probMagnitude out = 1 ∧ measureProb n m indices out none = some 1 ∧
      ∀ m', m' < 2 ^ indices.length → m' ≠ m → measureProb n m' indices out none = some 0 := by
  classical
  set p := bornProb n indices m (ampAt input 0) with hpdef
  have hp0 : 0 < p := lt_of_le_of_ne (bornProb_nonneg _ _ _ _) (Ne.symm hp)
  obtain ⟨out, h1, h2, h3⟩ := measureState_eq n m indices hn hidx p hp input buf 0 0 (by rw [hi, ho]; simp)
  have hmeas : measure n indices input buf none (some ⟨m, none⟩) rnd = some ((m, p), out) := by
    unfold measure
    simp only [Option.bind_some, Option.map_none, Option.bind_eq_bind]
    rw [measureProb_eq n m indices hn hidx]
    simp only [Option.getD_none, Option.bind_some]
    rw [← hpdef]
    have : measureState n indices (m, p) input buf none = measureState n indices (m, p) input buf (some (0, 0)) := rfl
    rw [this, h1]
    rfl
  have hout : ∀ x, x < 2 ^ n → out[x]? =
      some (if Spells n indices m x then ampAt input 0 x * (1 / Real.sqrt p : ℝ) else 0) := by
    intro x hx
    have := h3 x (by omega)
    rw [if_pos (by omega)] at this
    simpa using this
  have hamp : ∀ x, x < 2 ^ n → Complex.normSq (ampAt out 0 x) =
      if Spells n indices m x then Complex.normSq (ampAt input 0 x) * (1 / p) else 0 := by
    intro x hx
    have e : ampAt out 0 x = if Spells n indices m x then ampAt input 0 x * (1 / Real.sqrt p : ℝ) else 0 := by
      unfold ampAt
      rw [if_neg (by omega), Nat.sub_zero, hout x hx]
      simp [ampAt]
    rw [e]
    split
    · rw [Complex.normSq_mul, Complex.normSq_ofReal, div_mul_div_comm, Real.mul_self_sqrt (le_of_lt hp0), one_mul]
    · simp
  have hborn : ∀ m', m' < 2 ^ indices.length →
      bornProb n indices m' (ampAt out 0) = if m' = m then 1 else 0 := by
    intro m' hm'
    unfold bornProb
    rw [sum_congr rfl (fun x hx => hamp x (mem_range.mp (mem_filter.mp hx).1))]
    split
    · rename_i e
      subst e
      rw [sum_congr rfl (fun x hx => if_pos (mem_filter.mp hx).2), ← sum_mul]
      change p * (1 / p) = 1
      field_simp
    · rename_i e
      apply sum_eq_zero
      intro x hx
      rw [if_neg]
      intro hs
      exact e (spells_unique n indices m' m x hm' hm (mem_filter.mp hx).2 hs)
  refine ⟨out, hmeas, by omega, ?_, ?_, ?_, ?_, ?_⟩
  · intro x hx hs
    rw [hout x hx, if_neg hs]
  · intro x hx hs
    rw [hout x hx, if_pos hs]
  · rw [← ampAt_sum out 0 (2 ^ n) (by omega), ← bornProb_sum n indices, sum_eq_single m]
    · rw [hborn m hm, if_pos rfl]
    · intro m' hm' hne
      rw [hborn m' (mem_range.mp hm'), if_neg hne]
    · intro h; exact absurd (mem_range.mpr hm) h
  · rw [measureProb_eq n m indices hn hidx, Option.getD_none, hborn m hm, if_pos rfl]
  · intro m' hm' hne
    rw [measureProb_eq n m' indices hn hidx, Option.getD_none, hborn m' hm', if_neg hne]

/-- C22. An outcome of probability 0 leaves the output buffer as it was (whatever stale data it holds). -/
theorem C22_zero_probability_is_noop (n m : ℕ) (indices : List ℕ) (input output : List ℂ)
    (offsets : Option (ℕ × ℕ)) : measureState n indices (m, 0) input output offsets = some output := by
  simp [measureState]

/-- C13. `measure_state` (full vectors) gives the same output whatever the order or interleaving of its row tasks. -/
theorem C13_measure_state_any_schedule (n m : ℕ) (indices : List ℕ) (hn : indices.Nodup)
    (hidx : ∀ i ∈ indices, i < n) (p : ℝ) (hp : p ≠ 0) (input output : List ℂ) (hi : input.length = 2 ^ n)
    (ho : output.length = 2 ^ n) (rm mm : ℕ) (hrm : rowMask n indices = some rm)
    (hmm : measuredMask n m indices = some mm) (evs : List Ev) (h : IsSchedule output.length evs) :
    runSchedule (fun r _ => (input[r]?).map (measureRow rm mm (1 / Real.sqrt p) r)) evs output =
      measureState n indices (m, p) input output none := by
  classical
  obtain ⟨out, h1, h2, h3⟩ := measureState_eq n m indices hn hidx p hp input output 0 0 (by rw [hi, ho]; simp)
  have : measureState n indices (m, p) input output none =
    measureState n indices (m, p) input output (some (0, 0)) := rfl
  rw [this, h1]
  rw [rowMask_eq n indices hn hidx, Option.some.injEq] at hrm
  rw [measuredMask_eq n m indices hn hidx, Option.some.injEq] at hmm
  rw [← hrm, ← hmm, runSchedule_eq output _
    (fun r => if Spells n indices m r then ampAt input 0 r * (1 / Real.sqrt p : ℝ) else 0) _ evs h]
  · congr 1
    apply List.ext_getElem
    · simp [h2]
    · intro i h4 h5
      simp only [List.length_map, List.length_range] at h4
      have := h3 i h4
      rw [if_pos (by omega), List.getElem?_eq_getElem h5, Option.some.injEq] at this
      simpa using this.symm
  · intro r hr
    rw [List.getElem?_eq_getElem (by omega), Option.map_some, measureRow_eq n m indices hn hidx,
      ampAt_zero_offset _ _ (by omega)]

/-- instance: measuring qubit 0 of the Bell vector `(|00⟩ + |11⟩)·3` as 1 -/
example : ∃ out, measure 2 [0] [3, 0, 0, 3] [7, 7, 7, 7] none (some ⟨1, none⟩) 0 = some ((1, 9), out) ∧
    out[0]? = some 0 ∧ probMagnitude out = 1 := by
  have hs : ∀ x, x < 4 → (Spells 2 [0] 1 x ↔ 2 ≤ x) := by
    intro x hx
    rw [spells_iff _ _ _ _ (by simp)]
    interval_cases x <;> decide
  have hb : bornProb 2 [0] 1 (ampAt [3, 0, 0, 3] 0) = 9 := by
    unfold bornProb
    rw [sum_filter, show (2 : ℕ) ^ 2 = 4 from rfl]
    simp only [sum_range_succ, sum_range_zero]
    rw [if_neg (by rw [hs 0 (by omega)]; omega), if_neg (by rw [hs 1 (by omega)]; omega),
      if_pos (by rw [hs 2 (by omega)]), if_pos (by rw [hs 3 (by omega)]; omega)]
    simp [ampAt, Complex.normSq_apply]
    norm_num
  obtain ⟨out, h1, h2, h3, h4, h5, _⟩ := C22_collapse 2 1 [0] (by simp) (by simp) (by simp) [3, 0, 0, 3] [7, 7, 7, 7]
    (by simp) (by simp) 0 (by rw [hb]; norm_num)
  rw [hb] at h1
  exact ⟨out, h1, h3 0 (by norm_num) (by rw [hs 0 (by omega)]; omega), h5⟩

/-! ## C23 -/

/-- C23 fails at the random number 0 (which `rand::random::<f64>()` can return): on `|1⟩` the outcome 0, of
probability 0, is sampled. -/
theorem C23_refuted : softMeasure 1 [0] [0, 1] none 0 = some 0 ∧ measureProb 1 0 [0] [0, 1] none = some 0 ∧
    probMagnitude [0, 1] = 1 := by
  refine ⟨?_, ?_, by simp [probMagnitude]⟩
  · rw [softMeasure_eq 1 [0] (by simp) _ _ _ (Or.inr (by simp [probMagnitude]))]
    simp [softLoop]
    decide
  · rw [measureProb_eq 1 0 [0] (by simp) (by simp)]
    congr 1
    unfold bornProb
    rw [sum_filter]
    have e : ¬ Spells 1 [0] 0 1 := by
      intro h
      exact absurd (h 0 (by simp)) (by simp only [List.getElem_cons_zero]; decide)
    simp [sum_range_succ, ampAt, e]

/-- C23 (for every random number in (0,1), i.e. all but the single draw 0). The outcome sampled is one of positive
probability. `input` is the whole normalised state, or a chunk of it (then probabilities are relative to the
chunk). Missing for the full property: the draw `rnd = 0`, where it is false. -/
theorem C23_positive_partial (n : ℕ) (indices : List ℕ) (hidx : ∀ i ∈ indices, i < n) (input : List ℂ)
    (off : Option ℕ) (hlen : off.getD 0 + input.length ≤ 2 ^ n)
    (hT : input.length < 2 ^ n ∨ probMagnitude input = 1) (hpos : 0 < probMagnitude input) (rnd : ℝ) (h0 : 0 < rnd)
    (h1 : rnd < 1) :
    ∃ m, softMeasure n indices input off rnd = some m ∧ m < 2 ^ indices.length ∧
      0 < bornProb n indices m (ampAt input (off.getD 0)) := by
  classical
  have hr : 0 < rnd * probMagnitude input := mul_pos h0 hpos
  obtain ⟨i, hi⟩ := softLoop_total input (rnd * probMagnitude input) (by nlinarith) hr
  obtain ⟨g1, g2, g3⟩ := (softLoop_pos input _ hr i).mp hi
  refine ⟨outcomeOf n indices (i + off.getD 0), ?_, outcomeOf_lt _ _ _, ?_⟩
  · rw [softMeasure_eq n indices hidx input off rnd hT, hi]
  · have hn : 0 < Complex.normSq input[i] := by
      rw [prefixProb_succ _ _ g1] at g3; linarith
    unfold bornProb
    apply lt_of_lt_of_le hn
    have e : Complex.normSq input[i] = Complex.normSq (ampAt input (off.getD 0) (i + off.getD 0)) := by
      simp [ampAt, g1]
    rw [e]
    apply single_le_sum (f := fun x => Complex.normSq (ampAt input (off.getD 0) x))
      (fun x _ => Complex.normSq_nonneg _)
    rw [mem_filter, mem_range]
    exact ⟨by omega, spells_outcomeOf _ _ _⟩

/-- C23. Over a uniform random number in [0,1) the outcome `m` is drawn with probability exactly its Born
probability (relative to the probability held in the chunk, which is 1 for a whole normalised state). -/
theorem C23_born_rule (n : ℕ) (indices : List ℕ) (hidx : ∀ i ∈ indices, i < n) (input : List ℂ)
    (off : Option ℕ) (hlen : off.getD 0 + input.length ≤ 2 ^ n)
    (hT : input.length < 2 ^ n ∨ probMagnitude input = 1) (hpos : 0 < probMagnitude input)
    (m : ℕ) (hm : m < 2 ^ indices.length) :
    volume {rnd : ℝ | rnd ∈ Set.Ico 0 1 ∧ softMeasure n indices input off rnd = some m} =
      ENNReal.ofReal (bornProb n indices m (ampAt input (off.getD 0)) / probMagnitude input) := by
  classical
  set T := probMagnitude input with hTdef
  set o := off.getD 0 with ho
  let I : Finset ℕ := (range input.length).filter fun i => Spells n indices m (i + o)
  let J : ℕ → Set ℝ := fun i => Set.Ioc (prefixProb input i / T) (prefixProb input (i + 1) / T)
  have hset : ∀ rnd : ℝ, rnd ∈ Set.Ioo (0 : ℝ) 1 →
      (softMeasure n indices input off rnd = some m ↔ rnd ∈ ⋃ i ∈ I, J i) := by
    intro rnd ⟨h0, h1⟩
    have hr : 0 < rnd * T := mul_pos h0 hpos
    rw [softMeasure_eq n indices hidx input off rnd hT, Option.some.injEq]
    obtain ⟨i, hi⟩ := softLoop_total input (rnd * T) (by nlinarith) hr
    rw [← hTdef, hi]
    simp only [Set.mem_iUnion]
    constructor
    · intro e
      obtain ⟨g1, g2, g3⟩ := (softLoop_pos input _ hr i).mp hi
      refine ⟨i, ?_, ?_, ?_⟩
      · rw [mem_filter, mem_range, spells_iff _ _ _ _ hm]; exact ⟨g1, e.symm⟩
      · rw [div_lt_iff₀ hpos]; exact g2
      · rw [le_div_iff₀ hpos]; exact g3
    · rintro ⟨j, hj, hj1, hj2⟩
      rw [mem_filter, mem_range, spells_iff _ _ _ _ hm] at hj
      rw [div_lt_iff₀ hpos] at hj1
      rw [le_div_iff₀ hpos] at hj2
      have := (softLoop_pos input _ hr j).mpr ⟨hj.1, hj1, hj2⟩
      rw [hi, Option.some.injEq] at this
      rw [hj.2, this]
  have hJ : ∀ i ∈ I, ∀ x ∈ J i, 0 < x ∧ x ≤ 1 := by
    intro i hi x ⟨hx1, hx2⟩
    have hi' := mem_range.mp (mem_filter.mp hi).1
    constructor
    · refine lt_of_le_of_lt ?_ hx1
      apply div_nonneg _ (le_of_lt hpos)
      rw [← prefixProb_zero input]
      exact prefixProb_mono _ (Nat.zero_le _)
    · refine le_trans hx2 ?_
      rw [div_le_one hpos, hTdef, ← prefixProb_length]
      exact prefixProb_mono _ hi'
  have hae : {rnd : ℝ | rnd ∈ Set.Ico 0 1 ∧ softMeasure n indices input off rnd = some m} =ᵐ[volume]
      (⋃ i ∈ I, J i : Set ℝ) := by
    have hnull : volume ({0, 1} : Set ℝ) = 0 := by
      rw [Set.Finite.measure_zero]
      simp
    filter_upwards [compl_mem_ae_iff.mpr hnull] with x hx
    simp only [Set.mem_compl_iff, Set.mem_insert_iff, Set.mem_singleton_iff, not_or] at hx
    apply propext
    change (x ∈ Set.Ico 0 1 ∧ softMeasure n indices input off x = some m) ↔ x ∈ ⋃ i ∈ I, J i
    constructor
    · rintro ⟨⟨h0, h1⟩, h2⟩
      exact (hset x ⟨lt_of_le_of_ne h0 (Ne.symm hx.1), h1⟩).mp h2
    · intro h
      obtain ⟨i, hi, hxi⟩ := Set.mem_iUnion₂.mp h
      obtain ⟨h0, h1⟩ := hJ i hi x hxi
      have h1' : x < 1 := lt_of_le_of_ne h1 hx.2
      exact ⟨⟨le_of_lt h0, h1'⟩, (hset x ⟨h0, h1'⟩).mpr h⟩
  rw [measure_congr hae, measure_biUnion_finset]
  · have : ∀ i ∈ I, volume (J i) = ENNReal.ofReal (Complex.normSq (ampAt input o (i + o)) / T) := by
      intro i hi
      have hi' := mem_range.mp (mem_filter.mp hi).1
      rw [Real.volume_Ioc, ← sub_div, prefixProb_succ _ _ hi']
      simp [ampAt, hi']
    rw [sum_congr rfl this, ← ENNReal.ofReal_sum_of_nonneg
      (fun i _ => div_nonneg (Complex.normSq_nonneg _) (le_of_lt hpos)), ← sum_div]
    congr 2
    unfold bornProb
    rw [sum_filter, sum_filter]
    obtain ⟨d, hd⟩ := Nat.exists_eq_add_of_le hlen
    rw [hd, sum_range_add, sum_range_add,
      sum_eq_zero (s := range o) (fun x hx => by
        have : ampAt input o x = 0 := by simp [ampAt, mem_range.mp hx]
        rw [this]; simp),
      sum_eq_zero (s := range d) (fun x hx => by
        have : ampAt input o (o + input.length + x) = 0 := by
          unfold ampAt
          rw [if_neg (by omega), List.getElem?_eq_none (by omega)]; rfl
        rw [this]; simp), zero_add, add_zero]
    apply sum_congr rfl
    intro i _
    rw [Nat.add_comm i o]
  · intro i _ j _ hij
    rw [Function.onFun, Set.disjoint_left]
    rintro x ⟨a1, a2⟩ ⟨b1, b2⟩
    rcases Nat.lt_or_gt_of_ne hij with h | h
    · have : prefixProb input (i + 1) / T ≤ prefixProb input j / T :=
        div_le_div_of_nonneg_right (prefixProb_mono _ h) (le_of_lt hpos)
      linarith
    · have : prefixProb input (j + 1) / T ≤ prefixProb input i / T :=
        div_le_div_of_nonneg_right (prefixProb_mono _ h) (le_of_lt hpos)
      linarith
  · intro i _
    exact measurableSet_Ioc

/-- instance: a two-qubit state with two nonzero amplitudes meets the hypotheses -/
example : (0 : ℕ) + ([3 / 5, 0, 4 / 5 * Complex.I, 0] : List ℂ).length ≤ 2 ^ 2 ∧
    probMagnitude [3 / 5, 0, 4 / 5 * Complex.I, 0] = 1 := by
  constructor
  · simp
  · simp [probMagnitude, Complex.normSq_apply]
    norm_num

/-! ## C15, no op: the overlapping window is copied -/

/-- C15 (partial: no op). With no op, every output cell whose position also lies in the input window is overwritten
by the input amplitude of that position; the others are kept. (The windows must touch, otherwise the code panics.) -/
theorem C15_apply_ops_none_window_partial {K : Type} [Semiring K] [DecidableEq K] (n : ℕ) (input output : List K)
    (io oo : ℕ) (h1 : io ≤ oo + output.length) (h2 : oo ≤ io + input.length) :
    ∃ out, applyOps n [] input output io oo = some out ∧ out.length = output.length ∧
      ∀ r, r < output.length → out[r]? =
        if io ≤ oo + r ∧ oo + r < io + input.length then some (ampAt input io (oo + r)) else output[r]? := by
  have hm1 := le_max_left io oo
  have hm2 := le_max_right io oo
  have hn1 := min_le_left (io + input.length) (oo + output.length)
  have hn2 := min_le_right (io + input.length) (oo + output.length)
  have hmm : max io oo = io ∨ max io oo = oo := by omega
  have hnn : min (io + input.length) (oo + output.length) = io + input.length ∨
    min (io + input.length) (oo + output.length) = oo + output.length := by omega
  unfold applyOps
  simp only [Option.bind_eq_bind]
  generalize max io oo = L at *
  generalize min (io + input.length) (oo + output.length) = U at *
  rw [if_neg (by omega), slice, if_pos (by omega), slice, if_pos (by omega)]
  simp only [Option.bind_some]
  refine ⟨_, rfl, ?_, ?_⟩
  · apply overlay_length
    simp; omega
  · intro r hr
    rw [overlay_getElem? _ _ _ _ (by simp; omega)]
    by_cases c : io ≤ oo + r ∧ oo + r < io + input.length
    · rw [if_pos c, if_pos (by simp; omega)]
      unfold ampAt
      rw [if_neg (by omega), List.getElem?_drop, List.getElem?_take_of_lt (by omega)]
      rw [show L - io + (r - (L - oo)) = oo + r - io by omega, List.getElem?_eq_getElem (by omega)]
      rfl
    · rw [if_neg c, if_neg (by simp; omega)]

/-- instance: a 2-cell input window at 1 copied into a 2-cell output window at 0 -/
example : ∃ out, applyOps 2 [] ([5, 6] : List ℤ) [7, 8] 1 0 = some out ∧ out[1]? = some (5 : ℤ) ∧ out[0]? = some 7 := by
  obtain ⟨out, h1, _, h3⟩ := C15_apply_ops_none_window_partial 2 ([5, 6] : List ℤ) [7, 8] 1 0 (by simp) (by simp)
  refine ⟨out, h1, ?_, ?_⟩
  · rw [h3 1 (by simp)]; simp [ampAt]
  · rw [h3 0 (by simp)]; simp

end Verif.Props
