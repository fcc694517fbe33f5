import Verif.Proofs.Simon
import Verif.Props.Oracle

/-!
# Property C128: Simon's program

Written with the library, with any structured program (C105) as the oracle, it gives the textbook results, for inputs and outputs of any number of qubits.
-/

namespace Verif.Props
open Complex

/-- the main program: a new builder, registers of `n` and `m` qubits, the program, and a measurement of the input register -/
def simonActs (o : Prog) : List Act := [.run (simonProg o), .measure 0]

theorem blocks_simon (n m : ℕ) : blocks 0 [n, m] = [List.range n, List.range' n m] := by
  simp [blocks, List.range_eq_range']

theorem simonActs_takes {n m : ℕ} (hn : 0 < n) (hm : 0 < m) {f : ℕ → ℕ} {o : Prog} (ho : ComputesWide n m f o) :
    ∀ a ∈ simonActs o, a.Takes (blocks 0 [n, m]) := by
  rw [blocks_simon]
  intro a ha
  simp only [simonActs, List.mem_cons, List.not_mem_nil, or_false] at ha
  rcases ha with rfl | rfl
  · exact simon_takes hn hm ho
  · exact Nat.zero_lt_succ _

open Classical in
/-- the probability of `v` -/
noncomputable def simonProb (n m : ℕ) (f : ℕ → ℕ) (v : ℕ) : ℝ :=
  ∑ w ∈ Finset.range (2 ^ m), ((∑ u ∈ (Finset.range (2 ^ n)).filter fun u => f u = w, (-1 : ℝ) ^ dot n u v) / 2 ^ n) ^ 2

open Classical in
theorem simonActs_norm {n m : ℕ} {f : ℕ → ℕ} (hf : ∀ u < 2 ^ n, f u < 2 ^ m) {o : Prog} (ho : ComputesWide n m f o) (v : ℕ) (hv : v < 2 ^ n) :
    normW (actsW [List.range n, List.range' n m] (simonActs o) [v] (ket fun _ => false)) = simonProb n m f v := by
  have hon : ∀ w, On {y | valQ (List.range n) y = v} (ket (pairAsg n m v w)) := fun w => On.ket (pair_low hv)
  simp only [simonActs, actsW, lift_eq]
  rw [lift_ket, simon_wave ho, show ([List.range n, List.range' n m] : List Reg).getD 0 [] = List.range n from rfl, projW_sum, Finset.sum_eq_single v]
  · rw [projW_sum, Finset.sum_congr rfl fun u _ => by rw [projW_smul, projW_on (hon (f u))], ← normW_proj_sum (List.range' n m), List.length_range']
    unfold simonProb
    refine Finset.sum_congr rfl fun w hw => ?_
    have hw' := Finset.mem_range.mp hw
    rw [projW_sum]
    have e : ∀ u ∈ Finset.range (2 ^ n), projW (List.range' n m) w (((-1 : ℂ) ^ dot n u v / 2 ^ n) • ket (pairAsg n m v (f u))) =
        (if f u = w then (-1 : ℂ) ^ dot n u v / 2 ^ n else 0) • ket (pairAsg n m v w) := by
      intro u hu
      have ho2 : On {y | valQ (List.range' n m) y = f u} (ket (pairAsg n m v (f u))) := On.ket (pair_high (hf u (Finset.mem_range.mp hu)))
      split
      · rename_i h
        rw [projW_smul, ← h, projW_on ho2]
      · rename_i h
        rw [projW_smul, projW_off ho2 h, smul_zero, zero_smul]
    rw [Finset.sum_congr rfl e, ← Finset.sum_smul, normW_smul, normW_ket, mul_one, ← Finset.sum_filter, ← Finset.sum_div]
    have c : (∑ u ∈ (Finset.range (2 ^ n)).filter fun u => f u = w, (-1 : ℂ) ^ dot n u v) / 2 ^ n =
        (((∑ u ∈ (Finset.range (2 ^ n)).filter fun u => f u = w, (-1 : ℝ) ^ dot n u v) / 2 ^ n : ℝ) : ℂ) := by push_cast; rfl
    rw [c, normSq_ofReal, sq]
  · intro s hs hne
    rw [projW_sum]
    refine Finset.sum_eq_zero fun u _ => ?_
    rw [projW_smul, projW_off (k := s) (On.ket (pair_low (Finset.mem_range.mp hs))) hne, smul_zero]
  · intro h
    exact absurd (Finset.mem_range.mpr hv) h

/-- C128: for every function `f` from `n` bits to `m` bits and every structured program that adds `f` of the input to the output, the program succeeds, and measuring the input
gives `v` with probability `Σ_w (2^-n Σ_(u with f u = w) (-1)^(u·v))²`. -/
theorem C128_query {n m : ℕ} (hn : 0 < n) (hm : 0 < m) {f : ℕ → ℕ} (hf : ∀ u < 2 ^ n, f u < 2 ^ m) {o : Prog} (ho : ComputesWide n m f o) :
    ∃ s, mainProg [n, m] (simonActs o) LocalBuilder.default = .ok ([List.range n, List.range' n m], [0]) s ∧
      ∀ v < 2 ^ n, outcomeProb s [] [v] = ENNReal.ofReal (∑ w ∈ Finset.range (2 ^ m),
        ((∑ u ∈ open Classical in (Finset.range (2 ^ n)).filter fun u => f u = w, (-1 : ℝ) ^ dot n u v) / 2 ^ n) ^ 2) := by
  have hpos : ∀ k ∈ [n, m], 0 < k := by simp [hn, hm]
  obtain ⟨s, h⟩ := C106_runs [n, m] hpos _ (simonActs_takes hn hm ho)
  refine ⟨s, by rw [h, blocks_simon]; rfl, fun v hv => ?_⟩
  have hi : initAsg [] = fun _ => false := by funext q; simp [initAsg]
  rw [C106_born hpos (simonActs_takes hn hm ho) h [] (by simp) [v] rfl, hi, blocks_simon, simonActs_norm hf ho v hv]
  rfl

/-- C128: whatever number in (0,1) is drawn, the calculation succeeds and the handle 0 fetches an outcome of positive probability, with its probability. -/
theorem C128_draw {n m : ℕ} (hn : 0 < n) (hm : 0 < m) {f : ℕ → ℕ} (hf : ∀ u < 2 ^ n, f u < 2 ^ m) {o : Prog} (ho : ComputesWide n m f o)
    {out : List Reg × List ℕ} {s : LocalBuilder}
    (h : mainProg [n, m] (simonActs o) LocalBuilder.default = .ok out s) (rnds : ℕ → ℝ) (hr : ∀ k, 0 < rnds k ∧ rnds k < 1) :
    ∃ v l k, s.calculateStateWithInit [] rnds = some (v, l) ∧ k < 2 ^ n ∧ getMeasurement l 0 = some (k, simonProb n m f k) ∧ 0 < simonProb n m f k := by
  have hpos : ∀ k ∈ [n, m], 0 < k := by simp [hn, hm]
  have hi : initAsg [] = fun _ => false := by funext q; simp [initAsg]
  obtain ⟨v, l, ms, a1, a2, a3, a4, a5, -⟩ := C106_state hpos (simonActs_takes hn hm ho) h [] (by simp) rnds hr
  rw [show measures (simonActs o) = 1 from rfl, List.length_eq_one_iff] at a3
  obtain ⟨k, rfl⟩ := a3
  obtain ⟨pr, b1, b2⟩ := a4 0 (by simp)
  rw [hi, blocks_simon] at a5 b1
  have hk : k < 2 ^ n := by
    by_contra hc
    simp only [simonActs, actsW] at a5
    rw [projW_big _ _ (by simpa using hc), normW_zero] at a5
    exact lt_irrefl _ a5
  have hnd : ([List.range n, List.range' n m] : List Reg).flatten.Nodup := by
    rw [← blocks_simon, blocks_eq, ranges_flatten]; exact List.nodup_range'
  have hnorm : normW (lift ((simonProg o).wave false [List.range n, List.range' n m]) (ket fun _ => false)) = 1 := by
    rw [← lift_eq, C107_unitary _ _ (simon_takes hn hm ho) hnd, normW_ket]
  have e := simonActs_norm hf ho k hk
  rw [e] at a5
  refine ⟨v, l, k, a1, hk, ?_, a5⟩
  rw [b2]
  simp only [simonActs, actsP, lift_eq, hnorm, div_one, List.getElem?_cons_zero, Option.some.injEq] at b1
  simp only [simonActs, actsW, lift_eq] at e
  rw [← b1, e]
  rfl

open Classical in
theorem simonProb_pairs {n m : ℕ} {f : ℕ → ℕ} (hf : ∀ u < 2 ^ n, f u < 2 ^ m) (v : ℕ) : simonProb n m f v =
    (∑ u ∈ Finset.range (2 ^ n), ∑ t ∈ (Finset.range (2 ^ n)).filter fun t => f t = f u, (-1 : ℝ) ^ dot n u v * (-1 : ℝ) ^ dot n t v) / (2 ^ n * 2 ^ n) := by
  unfold simonProb
  rw [← Finset.sum_fiberwise_of_maps_to (s := Finset.range (2 ^ n)) (t := Finset.range (2 ^ m)) (g := f)
    (fun u hu => Finset.mem_range.mpr (hf u (Finset.mem_range.mp hu))), Finset.sum_div]
  refine Finset.sum_congr rfl fun w _ => ?_
  rw [div_pow, sq, sq, Finset.sum_mul_sum]
  congr 1
  refine Finset.sum_congr rfl fun u hu => ?_
  rw [(Finset.mem_filter.mp hu).2]

/-- the probabilities if the function takes the same value exactly at `u` and `u ⊕ a` -/
theorem simonProb_period {n m : ℕ} {f : ℕ → ℕ} (hf : ∀ u < 2 ^ n, f u < 2 ^ m) {a : ℕ} (ha : a < 2 ^ n) (ha0 : a ≠ 0)
    (hp : ∀ u < 2 ^ n, ∀ t < 2 ^ n, f t = f u ↔ t = u ∨ t = u ^^^ a) (v : ℕ) :
    simonProb n m f v = if dot n a v % 2 = 0 then 2 / 2 ^ n else 0 := by
  classical
  have hsq : ∀ k : ℕ, (-1 : ℝ) ^ k * (-1 : ℝ) ^ k = 1 := fun k => by rw [← mul_pow]; simp
  have e : ∀ u ∈ Finset.range (2 ^ n), ∑ t ∈ (Finset.range (2 ^ n)).filter (fun t => f t = f u), (-1 : ℝ) ^ dot n u v * (-1 : ℝ) ^ dot n t v =
      1 + (-1 : ℝ) ^ dot n a v := by
    intro u hu
    have hu' := Finset.mem_range.mp hu
    have hx : u ^^^ a < 2 ^ n := Nat.xor_lt_two_pow hu' ha
    have hne : u ≠ u ^^^ a := fun h => ha0 (by
      have := congrArg (fun z => u ^^^ z) h
      simpa [← Nat.xor_assoc] using this.symm)
    have hset : (Finset.range (2 ^ n)).filter (fun t => f t = f u) = {u, u ^^^ a} := by
      ext t
      rw [Finset.mem_filter, Finset.mem_range, Finset.mem_insert, Finset.mem_singleton]
      constructor
      · rintro ⟨h1, h2⟩; exact (hp u hu' t h1).mp h2
      · intro h
        have ht : t < 2 ^ n := by rcases h with rfl | rfl <;> assumption
        exact ⟨ht, (hp u hu' t ht).mpr h⟩
    rw [hset, Finset.sum_pair hne, sign_xor, hsq, ← mul_assoc, hsq, one_mul]
  rw [simonProb_pairs hf, Finset.sum_congr rfl e, Finset.sum_const, Finset.card_range, nsmul_eq_mul]
  have h2 : (2 : ℝ) ^ n ≠ 0 := by positivity
  push_cast
  split
  · rename_i h
    rw [(Nat.even_iff.mpr h).neg_one_pow]
    field_simp
    norm_num
  · rename_i h
    rw [(Nat.odd_iff.mpr (by omega)).neg_one_pow]
    simp

/-- C128, Simon: if the function takes the same value exactly at `u` and `u ⊕ a`, with `a` not zero, then every number that has an even number of ones in common with `a` is
measured with probability `2 / 2^n`, and all others never; whatever number is drawn, the outcome is one of the first kind. -/
theorem C128_simon {n m : ℕ} (hn : 0 < n) (hm : 0 < m) {f : ℕ → ℕ} (hf : ∀ u < 2 ^ n, f u < 2 ^ m) {a : ℕ} (ha : a < 2 ^ n) (ha0 : a ≠ 0)
    (hp : ∀ u < 2 ^ n, ∀ t < 2 ^ n, f t = f u ↔ t = u ∨ t = u ^^^ a) {o : Prog} (ho : ComputesWide n m f o) :
    ∃ s, mainProg [n, m] (simonActs o) LocalBuilder.default = .ok ([List.range n, List.range' n m], [0]) s ∧
      (∀ v < 2 ^ n, outcomeProb s [] [v] = if dot n a v % 2 = 0 then ENNReal.ofReal (2 / 2 ^ n) else 0) ∧
      ∀ rnds : ℕ → ℝ, (∀ k, 0 < rnds k ∧ rnds k < 1) → ∃ v l k, s.calculateStateWithInit [] rnds = some (v, l) ∧ k < 2 ^ n ∧
        getMeasurement l 0 = some (k, 2 / 2 ^ n) ∧ dot n a k % 2 = 0 := by
  obtain ⟨s, h1, h2⟩ := C128_query hn hm hf ho
  refine ⟨s, h1, fun v hv => ?_, fun rnds hr => ?_⟩
  · rw [h2 v hv]
    show ENNReal.ofReal (simonProb n m f v) = _
    rw [simonProb_period hf ha ha0 hp]
    split <;> simp
  · obtain ⟨v, l, k, c1, c2, c3, c4⟩ := C128_draw hn hm hf ho h1 rnds hr
    have hk : dot n a k % 2 = 0 := by
      by_contra hc
      rw [simonProb_period hf ha ha0 hp, if_neg hc] at c4
      exact lt_irrefl _ c4
    rw [simonProb_period hf ha ha0 hp, if_pos hk] at c3
    exact ⟨v, l, k, c1, c2, c3, hk⟩

/-- C128: if no value is taken twice, every number is measured with probability `1 / 2^n`. -/
theorem C128_injective {n m : ℕ} (hn : 0 < n) (hm : 0 < m) {f : ℕ → ℕ} (hf : ∀ u < 2 ^ n, f u < 2 ^ m)
    (hp : ∀ u < 2 ^ n, ∀ t < 2 ^ n, f t = f u → t = u) {o : Prog} (ho : ComputesWide n m f o) :
    ∃ s, mainProg [n, m] (simonActs o) LocalBuilder.default = .ok ([List.range n, List.range' n m], [0]) s ∧
      ∀ v < 2 ^ n, outcomeProb s [] [v] = ENNReal.ofReal (1 / 2 ^ n) := by
  classical
  obtain ⟨s, h1, h2⟩ := C128_query hn hm hf ho
  refine ⟨s, h1, fun v hv => ?_⟩
  rw [h2 v hv]
  show ENNReal.ofReal (simonProb n m f v) = _
  congr 1
  have hsq : ∀ k : ℕ, (-1 : ℝ) ^ k * (-1 : ℝ) ^ k = 1 := fun k => by rw [← mul_pow]; simp
  have e : ∀ u ∈ Finset.range (2 ^ n), ∑ t ∈ (Finset.range (2 ^ n)).filter (fun t => f t = f u), (-1 : ℝ) ^ dot n u v * (-1 : ℝ) ^ dot n t v = 1 := by
    intro u hu
    have hset : (Finset.range (2 ^ n)).filter (fun t => f t = f u) = {u} := by
      ext t
      rw [Finset.mem_filter, Finset.mem_singleton]
      constructor
      · rintro ⟨h1, h2⟩; exact hp u (Finset.mem_range.mp hu) t (Finset.mem_range.mp h1) h2
      · rintro rfl; exact ⟨hu, rfl⟩
    rw [hset, Finset.sum_singleton, hsq]
  rw [simonProb_pairs hf, Finset.sum_congr rfl e, Finset.sum_const, Finset.card_range, nsmul_eq_mul]
  have h2 : (2 : ℝ) ^ n ≠ 0 := by positivity
  push_cast
  field_simp

/-- C128: there is such an oracle for every function: a line `control(v) negate_bitmask(…)` for every `v`. -/
theorem C128_oracles {n m : ℕ} (hn : 0 < n) (hm : 0 < m) (f : ℕ → ℕ) : ComputesWide n m f (wideOracle n m f) := wide_computes hn hm f

/-- C128: the outcomes determine `a`: it is the only number but 0 that has an even number of ones in common with every possible outcome. -/
theorem C128_determines {n : ℕ} {a b : ℕ} (ha : a < 2 ^ n) (hb : b < 2 ^ n) (hb0 : b ≠ 0)
    (h : ∀ v < 2 ^ n, dot n a v % 2 = 0 → dot n b v % 2 = 0) : b = a := by
  have hdot : ∀ c i j : ℕ, i < n → j < n → i ≠ j → dot n c (2 ^ i ^^^ 2 ^ j) = (c.testBit i).toNat + (c.testBit j).toNat := by
    intro c i j hi hj hij
    unfold dot
    have e : ∀ k ∈ List.range n, (c.testBit k && (2 ^ i ^^^ 2 ^ j).testBit k) = ((decide (k = i) && c.testBit i) || (decide (k = j) && c.testBit j)) := by
      intro k _
      rw [Nat.testBit_xor, Nat.testBit_two_pow, Nat.testBit_two_pow]
      by_cases h1 : k = i
      · subst h1; simp [hij, Ne.symm hij]
      · by_cases h2 : k = j
        · subst h2; simp [hij, Ne.symm hij]
        · simp [h1, h2, Ne.symm h1, Ne.symm h2]
    rw [List.filter_congr e, ← List.countP_eq_length_filter]
    have hcount : ∀ i, i < n → ∀ b : Bool, (List.range n).countP (fun k => decide (k = i) && b) = b.toNat := by
      intro i hi b
      cases b
      · simp
      · simp only [Bool.and_true, Bool.toNat_true]
        have := List.count_eq_one_of_mem (List.nodup_range (n := n)) (List.mem_range.mpr hi)
        rw [List.count] at this
        rw [← this]
        exact List.countP_congr fun k _ => by simp
    have hor : ∀ l : List ℕ, l.countP (fun k => (decide (k = i) && c.testBit i) || (decide (k = j) && c.testBit j)) =
        l.countP (fun k => decide (k = i) && c.testBit i) + l.countP (fun k => decide (k = j) && c.testBit j) := by
      intro l
      induction l with
      | nil => rfl
      | cons k l ih =>
        simp only [List.countP_cons, ih]
        by_cases h1 : k = i
        · subst h1; simp [hij]; omega
        · simp [h1]; omega
    rw [hor, hcount i hi, hcount j hj]
  have hone : ∀ c i : ℕ, i < n → dot n c (2 ^ i) = (c.testBit i).toNat := by
    intro c i hi
    unfold dot
    have e : ∀ k ∈ List.range n, (c.testBit k && (2 ^ i).testBit k) = (decide (k = i) && c.testBit i) := by
      intro k _
      rw [Nat.testBit_two_pow]
      by_cases h1 : k = i
      · subst h1; simp
      · simp [h1, Ne.symm h1]
    rw [List.filter_congr e, ← List.countP_eq_length_filter]
    cases hb : c.testBit i
    · simp
    · simp only [Bool.and_true, Bool.toNat_true]
      have := List.count_eq_one_of_mem (List.nodup_range (n := n)) (List.mem_range.mpr hi)
      rw [List.count] at this
      rw [← this]
      exact List.countP_congr fun k _ => by simp
  -- where `a` has a 0, so has `b`; where `a` has ones, `b` has the same bit everywhere
  have h0 : ∀ i < n, a.testBit i = false → b.testBit i = false := by
    intro i hi hai
    have := h (2 ^ i) (Nat.pow_lt_pow_right (by norm_num) hi) (by rw [hone a i hi, hai]; rfl)
    rw [hone b i hi] at this
    cases hbi : b.testBit i
    · rfl
    · rw [hbi] at this; simp at this
  have h1 : ∀ i < n, ∀ j < n, a.testBit i = true → a.testBit j = true → b.testBit i = b.testBit j := by
    intro i hi j hj hai haj
    by_cases hij : i = j
    · rw [hij]
    · have := h (2 ^ i ^^^ 2 ^ j) (Nat.xor_lt_two_pow (Nat.pow_lt_pow_right (by norm_num) hi) (Nat.pow_lt_pow_right (by norm_num) hj))
        (by rw [hdot a i j hi hj hij, hai, haj]; rfl)
      rw [hdot b i j hi hj hij] at this
      cases hbi : b.testBit i <;> cases hbj : b.testBit j <;> rw [hbi, hbj] at this <;> simp at this ⊢
  obtain ⟨i, hi, hbi⟩ : ∃ i < n, b.testBit i = true := by
    obtain ⟨i, hbi⟩ := Nat.exists_testBit_of_ne_zero hb0
    refine ⟨i, ?_, hbi⟩
    by_contra hc
    rw [Nat.testBit_lt_two_pow (lt_of_lt_of_le hb (Nat.pow_le_pow_right (by norm_num) (not_lt.mp hc)))] at hbi
    exact absurd hbi (by simp)
  have hai : a.testBit i = true := by
    by_contra hc
    rw [h0 i hi (by simpa using hc)] at hbi
    exact absurd hbi (by simp)
  apply Nat.eq_of_testBit_eq
  intro j
  by_cases hj : j < n
  · cases haj : a.testBit j
    · exact h0 j hj haj
    · rw [h1 j hj i hi haj hai, hbi]
  · rw [Nat.testBit_lt_two_pow (lt_of_lt_of_le hb (Nat.pow_le_pow_right (by norm_num) (not_lt.mp hj))),
      Nat.testBit_lt_two_pow (lt_of_lt_of_le ha (Nat.pow_le_pow_right (by norm_num) (not_lt.mp hj)))]

/-! ## examples -/

/-- three qubits in, two out, `a = 6`: 0, 6 ↦ 0, 1, 7 ↦ 1, 2, 4 ↦ 2, 3, 5 ↦ 3 -/
example := C128_simon (n := 3) (m := 2) (by norm_num) (by norm_num) (f := fun u => [0, 1, 2, 3, 2, 3, 0, 1].getD u 0) (by decide) (a := 6) (by norm_num) (by norm_num)
  (by decide) (C128_oracles (by norm_num) (by norm_num) _)

/-- a permutation of three bits -/
example := C128_injective (n := 3) (m := 3) (by norm_num) (by norm_num) (f := fun u => (5 * u + 3) % 8) (by decide) (by decide) (C128_oracles (by norm_num) (by norm_num) _)

/-- two qubits in, one out, a function that is 1 only at 3: the outcome 0 has probability 5/8 -/
example : simonProb 2 1 (fun u => if u = 3 then 1 else 0) 0 = 5 / 8 := by
  classical
  have hd : ∀ u, dot 2 u 0 = 0 := fun u => by simp [dot]
  rw [simonProb_pairs (by decide)]
  simp only [hd, pow_zero, mul_one, Finset.sum_const, nsmul_eq_mul]
  rw [show Finset.range (2 ^ 2) = {0, 1, 2, 3} by decide]
  norm_num [Finset.sum_insert, Finset.filter_insert, Finset.filter_singleton]

end Verif.Props
