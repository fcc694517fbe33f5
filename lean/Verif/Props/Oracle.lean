import Verif.Proofs.Oracle
import Verif.Props.Main
import Verif.Props.StructInv

/-!
# Property C109: the programs of Deutsch and Jozsa and of Bernstein and Vazirani

Written with the library, with any structured program (C105) as the oracle, they give the textbook results, for inputs of any number of qubits.
-/

namespace Verif.Props
open Complex

/-- the main program: a new builder, registers of `n` and 1 qubits, the query, and a measurement of the input register -/
def queryActs (o : Prog) : List Act := [.run (queryProg o), .measure 0]

theorem blocks_query (n : ℕ) : blocks 0 [n, 1] = [List.range n, [n]] := by
  simp [blocks, List.range_eq_range']

theorem queryActs_takes {n : ℕ} (hn : 0 < n) {f : ℕ → Bool} {o : Prog} (ho : Computes n f o) : ∀ a ∈ queryActs o, a.Takes (blocks 0 [n, 1]) := by
  rw [blocks_query]
  intro a ha
  simp only [queryActs, List.mem_cons, List.not_mem_nil, or_false] at ha
  rcases ha with rfl | rfl
  · exact query_takes hn ho
  · exact Nat.zero_lt_succ _

theorem projW_sum (r : Reg) (m : ℕ) (T : Finset ℕ) (g : ℕ → Wave) : projW r m (∑ s ∈ T, g s) = ∑ s ∈ T, projW r m (g s) := by
  induction T using Finset.induction_on with
  | empty => exact Finsupp.filter_zero _
  | insert a T ha ih => rw [Finset.sum_insert ha, Finset.sum_insert ha, projW_add, ih]

/-- the probability of `v` -/
noncomputable def queryProb (n : ℕ) (f : ℕ → Bool) (v : ℕ) : ℝ := ((∑ u ∈ Finset.range (2 ^ n), (-1 : ℝ) ^ ((f u).toNat + dot n u v)) / 2 ^ n) ^ 2

theorem queryActs_norm {n : ℕ} {f : ℕ → Bool} {o : Prog} (ho : Computes n f o) (v : ℕ) (hv : v < 2 ^ n) :
    normW (actsW [List.range n, [n]] (queryActs o) [v] (ket fun _ => false)) =
      queryProb n f v := by
  simp only [queryProb, queryActs, actsW, lift_eq]
  rw [lift_ket, query_wave ho, show ([List.range n, [n]] : List Reg).getD 0 [] = List.range n from rfl]
  rw [projW_sum, Finset.sum_eq_single v]
  · rw [projW_smul, projW_on (minus_on n v hv), normW_smul, minus_norm, mul_one]
    have : (∑ u ∈ Finset.range (2 ^ n), (-1 : ℂ) ^ ((f u).toNat + dot n u v)) / 2 ^ n =
        (((∑ u ∈ Finset.range (2 ^ n), (-1 : ℝ) ^ ((f u).toNat + dot n u v)) / 2 ^ n : ℝ) : ℂ) := by push_cast; rfl
    rw [this, normSq_ofReal, sq]
  · intro s hs hne
    rw [projW_smul, projW_off (minus_on n s (Finset.mem_range.mp hs)) hne, smul_zero]
  · intro h
    exact absurd (Finset.mem_range.mpr hv) h

/-- C109: for every function `f` of `n` bits and every structured program that adds `f` of the input to the output, the query program succeeds,
and measuring the input gives `v` with probability `(2^-n Σ_u (-1)^(f u + u·v))²`. -/
theorem C109_query {n : ℕ} (hn : 0 < n) {f : ℕ → Bool} {o : Prog} (ho : Computes n f o) :
    ∃ s, mainProg [n, 1] (queryActs o) LocalBuilder.default = .ok ([List.range n, [n]], [0]) s ∧
      ∀ v < 2 ^ n, outcomeProb s [] [v] =
        ENNReal.ofReal (((∑ u ∈ Finset.range (2 ^ n), (-1 : ℝ) ^ ((f u).toNat + dot n u v)) / 2 ^ n) ^ 2) := by
  have hpos : ∀ k ∈ [n, 1], 0 < k := by simp [hn]
  obtain ⟨s, h⟩ := C106_runs [n, 1] hpos _ (queryActs_takes hn ho)
  refine ⟨s, by rw [h, blocks_query]; rfl, fun v hv => ?_⟩
  have hi : initAsg [] = fun _ => false := by funext q; simp [initAsg]
  rw [C106_born hpos (queryActs_takes hn ho) h [] (by simp) [v] rfl, hi, blocks_query, queryActs_norm ho v hv]
  rfl

/-- C109: whatever number in (0,1) is drawn, the calculation succeeds and the handle 0 fetches an outcome of positive probability, with its probability. -/
theorem C109_draw {n : ℕ} (hn : 0 < n) {f : ℕ → Bool} {o : Prog} (ho : Computes n f o) {out : List Reg × List ℕ} {s : LocalBuilder}
    (h : mainProg [n, 1] (queryActs o) LocalBuilder.default = .ok out s) (rnds : ℕ → ℝ) (hr : ∀ k, 0 < rnds k ∧ rnds k < 1) :
    ∃ v l m, s.calculateStateWithInit [] rnds = some (v, l) ∧ m < 2 ^ n ∧
      getMeasurement l 0 = some (m, ((∑ u ∈ Finset.range (2 ^ n), (-1 : ℝ) ^ ((f u).toNat + dot n u m)) / 2 ^ n) ^ 2) ∧
      0 < ((∑ u ∈ Finset.range (2 ^ n), (-1 : ℝ) ^ ((f u).toNat + dot n u m)) / 2 ^ n) ^ 2 := by
  have hpos : ∀ k ∈ [n, 1], 0 < k := by simp [hn]
  have hi : initAsg [] = fun _ => false := by funext q; simp [initAsg]
  obtain ⟨v, l, ms, a1, a2, a3, a4, a5, -⟩ := C106_state hpos (queryActs_takes hn ho) h [] (by simp) rnds hr
  rw [show measures (queryActs o) = 1 from rfl, List.length_eq_one_iff] at a3
  obtain ⟨m, rfl⟩ := a3
  obtain ⟨pr, b1, b2⟩ := a4 0 (by simp)
  rw [hi, blocks_query] at a5 b1
  have hm : m < 2 ^ n := by
    by_contra hc
    simp only [queryActs, actsW] at a5
    rw [projW_big _ _ (by simpa using hc), normW_zero] at a5
    exact lt_irrefl _ a5
  have hnorm : normW (lift ((queryProg o).wave false [List.range n, [n]]) (ket fun _ => false)) = 1 := by
    rw [← lift_eq, C107_unitary _ _ (query_takes hn ho) (by simp [List.nodup_append, List.nodup_range]; omega), normW_ket]
  have e := queryActs_norm ho m hm
  rw [e] at a5
  refine ⟨v, l, m, a1, hm, ?_, a5⟩
  rw [b2]
  simp only [queryActs, actsP, lift_eq, hnorm, div_one, List.getElem?_cons_zero, Option.some.injEq] at b1
  simp only [queryActs, actsW, lift_eq] at e
  rw [← b1, e]
  rfl

/-- the probabilities add up to 1 -/
theorem queryProb_sum {n : ℕ} (hn : 0 < n) {f : ℕ → Bool} {o : Prog} (ho : Computes n f o) : ∑ v ∈ Finset.range (2 ^ n), queryProb n f v = 1 := by
  have hnorm : normW (lift ((queryProg o).wave false [List.range n, [n]]) (ket fun _ => false)) = 1 := by
    rw [← lift_eq, C107_unitary _ _ (query_takes hn ho) (by simp [List.nodup_append, List.nodup_range]; omega), normW_ket]
  have h := normW_proj_sum (List.range n) (lift ((queryProg o).wave false [List.range n, [n]]) (ket fun _ => false))
  rw [hnorm, List.length_range] at h
  rw [← h]
  refine Finset.sum_congr rfl fun v hv => ?_
  rw [← queryActs_norm ho v (Finset.mem_range.mp hv)]
  rfl

theorem queryProb_unique {n : ℕ} (hn : 0 < n) {f : ℕ → Bool} {o : Prog} (ho : Computes n f o) {a m : ℕ} (ha : a < 2 ^ n) (hm : m < 2 ^ n)
    (h1 : queryProb n f a = 1) (h2 : 0 < queryProb n f m) : m = a := by
  by_contra hne
  have h := queryProb_sum hn ho
  rw [← Finset.add_sum_erase _ _ (Finset.mem_range.mpr ha), h1] at h
  have h3 : queryProb n f m ≤ ∑ v ∈ (Finset.range (2 ^ n)).erase a, queryProb n f v :=
    Finset.single_le_sum (f := queryProb n f) (fun v _ => by unfold queryProb; positivity) (Finset.mem_erase.mpr ⟨hne, Finset.mem_range.mpr hm⟩)
  linarith

theorem sum_signs {n : ℕ} {g : ℕ → ℕ} (h : ∀ u < 2 ^ n, g u % 2 = 0) : ∑ u ∈ Finset.range (2 ^ n), (-1 : ℝ) ^ g u = 2 ^ n := by
  rw [Finset.sum_congr rfl fun u hu => by rw [(Nat.even_iff.mpr (h u (Finset.mem_range.mp hu))).neg_one_pow]]
  simp

/-- C109, Bernstein and Vazirani: if `f` is the parity of the common ones of the input and `a`, the measurement gives `a`, with probability 1
and whatever number is drawn. -/
theorem C109_bernstein_vazirani {n : ℕ} (hn : 0 < n) {a : ℕ} (ha : a < 2 ^ n) {o : Prog} (ho : Computes n (fun u => decide (dot n u a % 2 = 1)) o) :
    ∃ s, mainProg [n, 1] (queryActs o) LocalBuilder.default = .ok ([List.range n, [n]], [0]) s ∧ outcomeProb s [] [a] = 1 ∧
      ∀ rnds : ℕ → ℝ, (∀ k, 0 < rnds k ∧ rnds k < 1) → ∃ v l, s.calculateStateWithInit [] rnds = some (v, l) ∧ getMeasurement l 0 = some (a, 1) := by
  have hp : queryProb n (fun u => decide (dot n u a % 2 = 1)) a = 1 := by
    unfold queryProb
    rw [sum_signs fun u _ => ?_, div_self (by positivity), one_pow]
    rcases Nat.mod_two_eq_zero_or_one (dot n u a) with h | h <;> simp [h, Nat.add_mod]
  obtain ⟨s, h1, h2⟩ := C109_query hn ho
  refine ⟨s, h1, ?_, fun rnds hr => ?_⟩
  · rw [h2 a ha]
    show ENNReal.ofReal (queryProb n _ a) = 1
    rw [hp, ENNReal.ofReal_one]
  · obtain ⟨v, l, m, c1, c2, c3, c4⟩ := C109_draw hn ho h1 rnds hr
    have := queryProb_unique hn ho ha c2 hp c4
    subst this
    refine ⟨v, l, c1, c3.trans ?_⟩
    exact congrArg (fun p => some (m, p)) hp

/-- C109, Deutsch and Jozsa: if `f` is constant, the measurement gives 0, with probability 1 and whatever number is drawn; if `f` is 1 for exactly half of
the inputs, it never gives 0. -/
theorem C109_deutsch_jozsa {n : ℕ} (hn : 0 < n) {f : ℕ → Bool} {o : Prog} (ho : Computes n f o) :
    ∃ s, mainProg [n, 1] (queryActs o) LocalBuilder.default = .ok ([List.range n, [n]], [0]) s ∧
      ((∃ c, ∀ u < 2 ^ n, f u = c) → outcomeProb s [] [0] = 1 ∧
        ∀ rnds : ℕ → ℝ, (∀ k, 0 < rnds k ∧ rnds k < 1) → ∃ v l, s.calculateStateWithInit [] rnds = some (v, l) ∧ getMeasurement l 0 = some (0, 1)) ∧
      (2 * ((Finset.range (2 ^ n)).filter fun u => f u = true).card = 2 ^ n → outcomeProb s [] [0] = 0 ∧
        ∀ rnds : ℕ → ℝ, (∀ k, 0 < rnds k ∧ rnds k < 1) → ∃ v l m p, s.calculateStateWithInit [] rnds = some (v, l) ∧ getMeasurement l 0 = some (m, p) ∧ m ≠ 0) := by
  have h0 : (0 : ℕ) < 2 ^ n := by positivity
  have hd : ∀ u, dot n u 0 = 0 := fun u => by simp [dot]
  obtain ⟨s, h1, h2⟩ := C109_query hn ho
  refine ⟨s, h1, fun ⟨c, hc⟩ => ?_, fun hb => ?_⟩
  · have hp : queryProb n f 0 = 1 := by
      unfold queryProb
      simp only [hd, add_zero]
      rw [Finset.sum_congr rfl fun u hu => by rw [hc u (Finset.mem_range.mp hu)], Finset.sum_const, Finset.card_range, nsmul_eq_mul, Nat.cast_pow,
        Nat.cast_ofNat, mul_div_cancel_left₀ _ (by positivity)]
      cases c <;> simp
    refine ⟨?_, fun rnds hr => ?_⟩
    · rw [h2 0 h0]
      show ENNReal.ofReal (queryProb n _ 0) = 1
      rw [hp, ENNReal.ofReal_one]
    · obtain ⟨v, l, m, c1, c2, c3, c4⟩ := C109_draw hn ho h1 rnds hr
      have := queryProb_unique hn ho h0 c2 hp c4
      subst this
      refine ⟨v, l, c1, c3.trans ?_⟩
      exact congrArg (fun p => some (0, p)) hp
  · have hp : queryProb n f 0 = 0 := by
      unfold queryProb
      simp only [hd, add_zero]
      have e : ∀ u, (-1 : ℝ) ^ (f u).toNat = 1 - 2 * (if f u = true then 1 else 0) := fun u => by cases f u <;> norm_num
      rw [Finset.sum_congr rfl fun u _ => e u, Finset.sum_sub_distrib, ← Finset.mul_sum, Finset.sum_boole]
      simp only [Finset.sum_const, Finset.card_range, nsmul_eq_mul, mul_one]
      have hb' : (2 : ℝ) * ((Finset.range (2 ^ n)).filter fun u => f u = true).card = ((2 ^ n : ℕ) : ℝ) := by exact_mod_cast hb
      rw [hb', sub_self, zero_div]
      norm_num
    refine ⟨?_, fun rnds hr => ?_⟩
    · rw [h2 0 h0]
      show ENNReal.ofReal (queryProb n _ 0) = 0
      rw [hp, ENNReal.ofReal_zero]
    · obtain ⟨v, l, m, c1, c2, c3, c4⟩ := C109_draw hn ho h1 rnds hr
      refine ⟨v, l, m, _, c1, c3, ?_⟩
      rintro rfl
      exact absurd hp c4.ne'

/-- C109: there is such an oracle for every function: a line `control(v) x` for every `v` at which it is 1; and for the parity of the common ones a
`cnot` for every 1 of `a` will do. -/
theorem C109_oracles {n : ℕ} (hn : 0 < n) : (∀ f : ℕ → Bool, Computes n f (tableOracle n f)) ∧
    ∀ a, Computes n (fun u => decide (dot n u a % 2 = 1)) (parityOracle n a) := ⟨fun f => table_computes hn f, fun a => parity_computes hn a⟩

/-! ## examples -/

/-- five qubits, `a = 19` -/
example := C109_bernstein_vazirani (n := 5) (by norm_num) (a := 19) (by norm_num) ((C109_oracles (by norm_num)).2 19)

/-- three qubits, the function that is 1 at 1, 2, 4 and 7 -/
example := C109_deutsch_jozsa (n := 3) (by norm_num) ((C109_oracles (by norm_num)).1 fun u => u ∈ [1, 2, 4, 7])

example : 2 * ((Finset.range (2 ^ 3)).filter fun u => decide (u ∈ [1, 2, 4, 7]) = true).card = 2 ^ 3 := by decide

/-- two qubits, a function that is neither constant nor balanced: the outcome 0 has probability 1/4 -/
example : queryProb 2 (fun u => decide (u = 3)) 0 = 1 / 4 := by
  have hd : ∀ u, dot 2 u 0 = 0 := fun u => by simp [dot]
  unfold queryProb
  simp only [hd, show (2 : ℕ) ^ 2 = 4 from rfl, Finset.sum_range_succ, Finset.sum_range_zero]
  norm_num

end Verif.Props
