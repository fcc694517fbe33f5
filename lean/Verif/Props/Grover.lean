import Verif.Proofs.Grover
import Verif.Props.Oracle

/-!
# Property C110: Grover's search

Written with the library, with any structured program (C105) as the oracle, any number of input qubits, any number of rounds and any number of marked
inputs.
-/

namespace Verif.Props
open Complex

/-- the main program: a new builder, registers of `n` and 1 qubits, `k` rounds of the search, and a measurement of the input register -/
def groverActs (o : Prog) (k : ℕ) : List Act := [.run (groverProg o k), .measure 0]

theorem groverActs_takes {n : ℕ} (hn : 0 < n) {f : ℕ → Bool} {o : Prog} (ho : Computes n f o) (k : ℕ) :
    ∀ a ∈ groverActs o k, a.Takes (blocks 0 [n, 1]) := by
  rw [blocks_query]
  intro a ha
  simp only [groverActs, List.mem_cons, List.not_mem_nil, or_false] at ha
  rcases ha with rfl | rfl
  · exact grover_takes hn ho k
  · exact Nat.zero_lt_succ _

/-- the probability of `v` after `k` rounds: with `M` marked inputs of `2^n` and `θ = arcsin √(M/2^n)`, it is `sin²((2k+1)θ)/M` if `v` is marked and
`cos²((2k+1)θ)/(2^n-M)` if it is not -/
noncomputable def groverProb (n : ℕ) (f : ℕ → Bool) (k v : ℕ) : ℝ :=
  if f v = true then Real.sin ((2 * k + 1) * Real.arcsin (Real.sqrt (marked n f / 2 ^ n))) ^ 2 / marked n f
    else Real.cos ((2 * k + 1) * Real.arcsin (Real.sqrt (marked n f / 2 ^ n))) ^ 2 / (2 ^ n - marked n f)

theorem groverActs_norm {n : ℕ} {f : ℕ → Bool} {o : Prog} (ho : Computes n f o) (k v : ℕ) (hv : v < 2 ^ n) :
    normW (actsW [List.range n, [n]] (groverActs o k) [v] (ket fun _ => false)) = groverProb n f k v := by
  simp only [groverActs, actsW, lift_eq]
  rw [lift_ket, grover_wave ho, show ([List.range n, [n]] : List Reg).getD 0 [] = List.range n from rfl]
  unfold combW
  rw [projW_sum, Finset.sum_eq_single v]
  · rw [projW_smul, projW_on (minus_on n v hv), normW_smul, minus_norm, mul_one, normSq_ofReal, ← sq, rounds_two f k v hv]
    have h1 : (((-1 : ℝ) ^ k) ^ 2) = 1 := by rw [← pow_mul, mul_comm, pow_mul]; norm_num
    unfold groverProb
    show _ = if f v = true then Real.sin ((2 * k + 1) * groverAngle n f) ^ 2 / _ else Real.cos ((2 * k + 1) * groverAngle n f) ^ 2 / _
    split
    · rw [mul_pow, h1, one_mul, div_pow, Real.sq_sqrt (Nat.cast_nonneg _)]
    · rw [mul_pow, h1, one_mul, div_pow, Real.sq_sqrt (by linarith [marked_le n f])]
  · intro s hs hne
    rw [projW_smul, projW_off (minus_on n s (Finset.mem_range.mp hs)) hne, smul_zero]
  · intro h
    exact absurd (Finset.mem_range.mpr hv) h

/-- C110: for every function `f` of `n` bits, every structured program that adds `f` of the input to the output, and every number of rounds, the program of
the search succeeds, and the probability of every outcome is that of the closed form. -/
theorem C110_search {n : ℕ} (hn : 0 < n) {f : ℕ → Bool} {o : Prog} (ho : Computes n f o) (k : ℕ) :
    ∃ s, mainProg [n, 1] (groverActs o k) LocalBuilder.default = .ok ([List.range n, [n]], [0]) s ∧
      ∀ v < 2 ^ n, outcomeProb s [] [v] = ENNReal.ofReal (groverProb n f k v) := by
  have hpos : ∀ k ∈ [n, 1], 0 < k := by simp [hn]
  obtain ⟨s, h⟩ := C106_runs [n, 1] hpos _ (groverActs_takes hn ho k)
  refine ⟨s, by rw [h, blocks_query]; rfl, fun v hv => ?_⟩
  have hi : initAsg [] = fun _ => false := by funext q; simp [initAsg]
  rw [C106_born hpos (groverActs_takes hn ho k) h [] (by simp) [v] rfl, hi, blocks_query, groverActs_norm ho k v hv]

/-- C110: whatever number in (0,1) is drawn, the calculation succeeds and the handle 0 fetches an outcome of positive probability, with its probability. -/
theorem C110_draw {n : ℕ} (hn : 0 < n) {f : ℕ → Bool} {o : Prog} (ho : Computes n f o) (k : ℕ) {out : List Reg × List ℕ} {s : LocalBuilder}
    (h : mainProg [n, 1] (groverActs o k) LocalBuilder.default = .ok out s) (rnds : ℕ → ℝ) (hr : ∀ k, 0 < rnds k ∧ rnds k < 1) :
    ∃ v l m, s.calculateStateWithInit [] rnds = some (v, l) ∧ m < 2 ^ n ∧ getMeasurement l 0 = some (m, groverProb n f k m) ∧ 0 < groverProb n f k m := by
  have hpos : ∀ k ∈ [n, 1], 0 < k := by simp [hn]
  have hi : initAsg [] = fun _ => false := by funext q; simp [initAsg]
  obtain ⟨v, l, ms, a1, a2, a3, a4, a5, -⟩ := C106_state hpos (groverActs_takes hn ho k) h [] (by simp) rnds hr
  rw [show measures (groverActs o k) = 1 from rfl, List.length_eq_one_iff] at a3
  obtain ⟨m, rfl⟩ := a3
  obtain ⟨pr, b1, b2⟩ := a4 0 (by simp)
  rw [hi, blocks_query] at a5 b1
  have hm : m < 2 ^ n := by
    by_contra hc
    simp only [groverActs, actsW] at a5
    rw [projW_big _ _ (by simpa using hc), normW_zero] at a5
    exact lt_irrefl _ a5
  have hnorm : normW (lift ((groverProg o k).wave false [List.range n, [n]]) (ket fun _ => false)) = 1 := by
    rw [← lift_eq, C107_unitary _ _ (grover_takes hn ho k) (by simp [List.nodup_append, List.nodup_range]; omega), normW_ket]
  have e := groverActs_norm ho k m hm
  rw [e] at a5
  refine ⟨v, l, m, a1, hm, ?_, a5⟩
  rw [b2]
  simp only [groverActs, actsP, lift_eq, hnorm, div_one, List.getElem?_cons_zero, Option.some.injEq] at b1
  simp only [groverActs, actsW, lift_eq] at e
  rw [← b1, e]
  rfl

/-- C110: together the marked inputs have probability `sin²((2k+1)θ)`, and the others `cos²((2k+1)θ)`. -/
theorem C110_total (n : ℕ) (f : ℕ → Bool) (k : ℕ) :
    ∑ v ∈ (Finset.range (2 ^ n)).filter (fun v => f v = true), groverProb n f k v = Real.sin ((2 * k + 1) * Real.arcsin (Real.sqrt (marked n f / 2 ^ n))) ^ 2 ∧
    ∑ v ∈ (Finset.range (2 ^ n)).filter (fun v => ¬ f v = true), groverProb n f k v =
      Real.cos ((2 * k + 1) * Real.arcsin (Real.sqrt (marked n f / 2 ^ n))) ^ 2 := by
  have hc := Finset.card_filter_add_card_filter_not (s := Finset.range (2 ^ n)) (fun v => f v = true)
  rw [Finset.card_range] at hc
  have hc' : (((Finset.range (2 ^ n)).filter fun v => ¬ f v = true).card : ℝ) = 2 ^ n - marked n f := by
    have : ((((Finset.range (2 ^ n)).filter fun v => f v = true).card + ((Finset.range (2 ^ n)).filter fun v => ¬ f v = true).card : ℕ) : ℝ) = 2 ^ n := by
      exact_mod_cast hc
    push_cast at this
    unfold marked
    linarith
  have s0 : (2 : ℝ) ^ n ≠ 0 := by positivity
  constructor
  · rw [Finset.sum_congr rfl fun v hv => by rw [groverProb, if_pos (Finset.mem_filter.mp hv).2], Finset.sum_const, nsmul_eq_mul]
    show (marked n f : ℝ) * _ = _
    by_cases h : (marked n f : ℝ) = 0
    · rw [h]; simp
    · rw [mul_div_cancel₀ _ h]
  · rw [Finset.sum_congr rfl fun v hv => by rw [groverProb, if_neg (Finset.mem_filter.mp hv).2], Finset.sum_const, nsmul_eq_mul, hc']
    by_cases h : (2 : ℝ) ^ n - marked n f = 0
    · rw [h]
      have h2 : (marked n f : ℝ) = 2 ^ n := by linarith
      rw [h2, div_self s0, Real.sqrt_one, Real.arcsin_one, show (2 * (k : ℝ) + 1) * (Real.pi / 2) = Real.pi / 2 + k * Real.pi by ring, Real.cos_add_nat_mul_pi]
      simp
    · rw [mul_div_cancel₀ _ h]

/-- C110: if any input is marked there is a number of rounds, at most `π/4·√(2^n/M)`, after which a marked input is found with probability at least
`1 - M/2^n`. -/
theorem C110_rounds (n : ℕ) (f : ℕ → Bool) (hM : 0 < marked n f) :
    ∃ k : ℕ, (k : ℝ) ≤ Real.pi / 4 * Real.sqrt (2 ^ n / marked n f) ∧
      1 - (marked n f : ℝ) / 2 ^ n ≤ ∑ v ∈ (Finset.range (2 ^ n)).filter (fun v => f v = true), groverProb n f k v := by
  have hM' : (0 : ℝ) < marked n f := Nat.cast_pos.mpr hM
  have hfr := frac_le n f
  have hs0 : 0 < Real.sqrt ((marked n f : ℝ) / 2 ^ n) := Real.sqrt_pos.mpr (by positivity)
  have hs1 : Real.sqrt ((marked n f : ℝ) / 2 ^ n) ≤ 1 := Real.sqrt_le_one.mpr hfr.2
  have hsin : Real.sin (groverAngle n f) = Real.sqrt ((marked n f : ℝ) / 2 ^ n) := Real.sin_arcsin (by linarith) hs1
  have hθ0 : 0 < groverAngle n f := Real.arcsin_pos.mpr hs0
  have hθ1 : groverAngle n f ≤ Real.pi / 2 := Real.arcsin_le_pi_div_two _
  have hpi := Real.pi_pos
  refine ⟨⌊Real.pi / (4 * groverAngle n f)⌋₊, ?_, ?_⟩
  · refine (Nat.floor_le (by positivity)).trans ?_
    have h1 : Real.sqrt ((marked n f : ℝ) / 2 ^ n) ≤ groverAngle n f := by rw [← hsin]; exact Real.sin_le hθ0.le
    have h2 : Real.sqrt ((2 : ℝ) ^ n / marked n f) = 1 / Real.sqrt ((marked n f : ℝ) / 2 ^ n) := by
      rw [← inv_div, Real.sqrt_inv, one_div]
    rw [h2, div_mul_div_comm, mul_one]
    exact div_le_div_of_nonneg_left hpi.le (by positivity) (by linarith)
  · rw [(C110_total n f _).1]
    show _ ≤ Real.sin ((2 * _ + 1) * groverAngle n f) ^ 2
    have l1 := Nat.floor_le (a := Real.pi / (4 * groverAngle n f)) (by positivity)
    have l2 := Nat.lt_floor_add_one (Real.pi / (4 * groverAngle n f))
    generalize (⌊Real.pi / (4 * groverAngle n f)⌋₊ : ℝ) = k at *
    rw [le_div_iff₀ (by positivity)] at l1
    rw [div_lt_iff₀ (by positivity)] at l2
    have e : Real.sin ((2 * k + 1) * groverAngle n f) ^ 2 = 1 - Real.sin (Real.pi / 2 - (2 * k + 1) * groverAngle n f) ^ 2 := by
      rw [Real.sin_pi_div_two_sub, Real.sin_sq]
    have h2 : |Real.sin (Real.pi / 2 - (2 * k + 1) * groverAngle n f)| ≤ Real.sin (groverAngle n f) := by
      have a1 : Real.pi / 2 - (2 * k + 1) * groverAngle n f ≤ groverAngle n f := by nlinarith
      have a2 : -groverAngle n f ≤ Real.pi / 2 - (2 * k + 1) * groverAngle n f := by nlinarith
      rw [abs_le, ← Real.sin_neg]
      exact ⟨Real.sin_le_sin_of_le_of_le_pi_div_two (by linarith) (by linarith) a2, Real.sin_le_sin_of_le_of_le_pi_div_two (by linarith) hθ1 a1⟩
    have h3 := sq_le_sq' (by linarith [abs_nonneg (Real.sin (Real.pi / 2 - (2 * k + 1) * groverAngle n f)), hsin]) h2
    rw [sq_abs, hsin, Real.sq_sqrt hfr.1] at h3
    rw [e]
    linarith

/-! ## examples -/

/-- seven qubits, three marked inputs, five rounds -/
example := C110_search (n := 7) (by norm_num) ((C109_oracles (by norm_num)).1 fun u => u ∈ [3, 50, 101]) 5

example : marked 7 (fun u => u ∈ [3, 50, 101]) = 3 := by unfold marked; decide

/-- two qubits, one marked input, one round: it is found with certainty -/
example : groverProb 2 (fun u => decide (u = 3)) 1 3 = 1 := by
  have hm : marked 2 (fun u => decide (u = 3)) = 1 := by unfold marked; decide
  have h1 : Real.arcsin (Real.sqrt (((1 : ℕ) : ℝ) / 2 ^ 2)) = Real.pi / 6 := by
    rw [show (((1 : ℕ) : ℝ) / 2 ^ 2) = (1 / 2) ^ 2 by norm_num, Real.sqrt_sq (by norm_num), ← Real.sin_pi_div_six]
    exact Real.arcsin_sin (by linarith [Real.pi_pos]) (by linarith [Real.pi_pos])
  unfold groverProb
  rw [hm, h1, if_pos (by decide), show (2 * ((1 : ℕ) : ℝ) + 1) * (Real.pi / 6) = Real.pi / 2 by push_cast; ring, Real.sin_pi_div_two]
  norm_num

end Verif.Props
