import Verif.Proofs.IeeeCollapse
import Verif.Spec.IeeeMeasure

/-! # A measurement in rounded arithmetic against the exact one -/

namespace Verif
open MatrixOp Finset

/-- part of a vector -/
noncomputable def maskTo (p : ℕ → Prop) (g : ℕ → ℂ) (r : ℕ) : ℂ := by
  classical exact if p r then g r else 0

theorem maskTo_le (p : ℕ → Prop) (g : ℕ → ℂ) (r : ℕ) : ‖maskTo p g r‖ ≤ ‖g r‖ := by
  unfold maskTo
  split <;> simp

theorem nrm_mono (n : ℕ) (a b : ℕ → ℂ) (h : ∀ r, r < 2 ^ n → ‖a r‖ ≤ ‖b r‖) : nrm n a ≤ nrm n b := by
  apply Real.sqrt_le_sqrt
  apply sum_le_sum
  intro r hr
  exact pow_le_pow_left₀ (norm_nonneg _) (h r (mem_range.mp hr)) 2

theorem nrm_smul (n : ℕ) (c : ℂ) (a : ℕ → ℂ) : nrm n (fun r => c * a r) = ‖c‖ * nrm n a := by
  unfold nrm
  rw [← Real.sqrt_sq (norm_nonneg c), ← Real.sqrt_mul (sq_nonneg _), mul_sum]
  congr 1
  apply sum_congr rfl
  intro r _
  rw [norm_mul, mul_pow]

theorem nrm_sub_comm (n : ℕ) (a b : ℕ → ℂ) : nrm n (fun r => a r - b r) = nrm n (fun r => b r - a r) := by
  unfold nrm
  congr 1
  apply sum_congr rfl
  intro r _
  rw [norm_sub_rev]

theorem nrm_le_of_sub (n : ℕ) (a b : ℕ → ℂ) : nrm n a ≤ nrm n b + nrm n (fun r => a r - b r) := by
  have := nrm_add_le n b (fun r => a r - b r)
  rwa [nrm_congr n (fun r => b r + (a r - b r)) a (fun r _ => by ring)] at this

theorem abs_nrm_sub (n : ℕ) (a b : ℕ → ℂ) : |nrm n a - nrm n b| ≤ nrm n (fun r => a r - b r) := by
  rw [_root_.abs_le]
  have h1 := nrm_le_of_sub n a b
  have h2 := nrm_le_of_sub n b a
  rw [nrm_sub_comm n b a] at h2
  constructor <;> linarith

theorem mask_sub (n : ℕ) (p : ℕ → Prop) (a b : ℕ → ℂ) : nrm n (fun r => maskTo p a r - maskTo p b r) ≤ nrm n (fun r => a r - b r) := by
  apply nrm_mono
  intro r _
  unfold maskTo
  split <;> simp

/-- squared lengths of the same part of two vectors -/
theorem mask_sq_sub (n : ℕ) (p : ℕ → Prop) (a b : ℕ → ℂ) (ε : ℝ) (hb : nrm n b ≤ 1) (h : nrm n (fun r => a r - b r) ≤ ε) :
    |nrm n (maskTo p a) ^ 2 - nrm n (maskTo p b) ^ 2| ≤ ε * (2 + ε) := by
  have e0 : 0 ≤ ε := (nrm_nonneg _ _).trans h
  have h1 := (abs_nrm_sub n (maskTo p a) (maskTo p b)).trans ((mask_sub n p a b).trans h)
  have h2 : nrm n (maskTo p a) ≤ nrm n a := nrm_mono n _ _ fun r _ => maskTo_le p a r
  have h3 : nrm n (maskTo p b) ≤ nrm n b := nrm_mono n _ _ fun r _ => maskTo_le p b r
  have h4 := nrm_le_of_sub n a b
  have h5 := nrm_nonneg n (maskTo p a)
  have h6 := nrm_nonneg n (maskTo p b)
  have e : nrm n (maskTo p a) ^ 2 - nrm n (maskTo p b) ^ 2 = (nrm n (maskTo p a) - nrm n (maskTo p b)) * (nrm n (maskTo p a) + nrm n (maskTo p b)) := by ring
  rw [e, abs_mul, abs_of_nonneg (by linarith : 0 ≤ nrm n (maskTo p a) + nrm n (maskTo p b))]
  exact mul_le_mul h1 (by linarith) (by linarith) e0

/-- the same part of two vectors, scaled to length one -/
theorem mask_scaled (n : ℕ) (p : ℕ → Prop) (a b : ℕ → ℂ) (ε : ℝ) (h : nrm n (fun r => a r - b r) ≤ ε) (ha : 0 < nrm n (maskTo p a))
    (hb : 0 < nrm n (maskTo p b)) :
    nrm n (fun r => maskTo p a r * ((1 / nrm n (maskTo p a) : ℝ) : ℂ) - maskTo p b r * ((1 / nrm n (maskTo p b) : ℝ) : ℂ)) ≤
      2 * ε / nrm n (maskTo p b) := by
  have h1 := (abs_nrm_sub n (maskTo p a) (maskTo p b)).trans ((mask_sub n p a b).trans h)
  have h2 := (mask_sub n p a b).trans h
  set α := nrm n (maskTo p a) with hα
  set β := nrm n (maskTo p b) with hβ
  have e : ∀ r, r < 2 ^ n → maskTo p a r * ((1 / α : ℝ) : ℂ) - maskTo p b r * ((1 / β : ℝ) : ℂ) =
      ((1 / α - 1 / β : ℝ) : ℂ) * maskTo p a r + ((1 / β : ℝ) : ℂ) * (maskTo p a r - maskTo p b r) := by
    intro r _
    push_cast
    ring
  rw [nrm_congr n _ _ e]
  refine (nrm_add_le n _ _).trans ?_
  rw [nrm_smul, nrm_smul, Complex.norm_real, Complex.norm_real, Real.norm_eq_abs, Real.norm_eq_abs, abs_of_pos (by positivity : 0 < 1 / β), ← hα]
  have e1 : 1 / α - 1 / β = (β - α) / (α * β) := by field_simp
  have e2 : |1 / α - 1 / β| * α = |α - β| / β := by
    rw [e1, abs_div, abs_of_pos (by positivity : 0 < α * β), abs_sub_comm]
    field_simp
  rw [e2]
  have e3 : 2 * ε / β = ε / β + 1 / β * ε := by ring
  rw [e3]
  exact add_le_add (div_le_div_of_nonneg_right h1 hb.le) (mul_le_mul_of_nonneg_left h2 (by positivity))

open Classical in
theorem born_mask (n m : ℕ) (idx : List ℕ) (a : ℕ → ℂ) : bornProb n idx m a = nrm n (maskTo (Spells n idx m) a) ^ 2 := by
  rw [nrm_sq, bornProb, sum_filter]
  apply sum_congr rfl
  intro r _
  unfold maskTo
  rw [Complex.normSq_eq_norm_sq]
  split <;> simp

theorem born_nrm (n m : ℕ) (idx : List ℕ) (a : ℕ → ℂ) : Real.sqrt (bornProb n idx m a) = nrm n (maskTo (Spells n idx m) a) := by
  rw [born_mask, Real.sqrt_sq (nrm_nonneg _ _)]

theorem cumul_mask (n k : ℕ) (hk : k ≤ 2 ^ n) (a : ℕ → ℂ) : cumul a k = nrm n (maskTo (· < k) a) ^ 2 := by
  rw [nrm_sq, cumul]
  obtain ⟨d, hd⟩ : ∃ d, 2 ^ n = k + d := ⟨2 ^ n - k, by omega⟩
  rw [hd, sum_range_add, ← add_zero (∑ x ∈ range k, _)]
  congr 1
  · apply sum_congr rfl
    intro x hx
    unfold maskTo
    rw [if_pos (mem_range.mp hx)]
  · symm
    apply sum_eq_zero
    intro x hx
    unfold maskTo
    rw [if_neg (by omega)]
    simp

theorem cumul_mono (a : ℕ → ℂ) {j k : ℕ} (h : j ≤ k) : cumul a j ≤ cumul a k :=
  sum_le_sum_of_subset_of_nonneg (range_mono h) fun _ _ _ => by positivity

theorem cumul_full (n : ℕ) (a : ℕ → ℂ) : cumul a (2 ^ n) = nrm n a ^ 2 := (nrm_sq n a).symm

theorem prefix_cumul {F : Type} (val : F → ℂ) (v : List F) (k : ℕ) (hk : k ≤ v.length) : prefixProb (v.map val) k = cumul (vals val v) k := by
  induction k with
  | zero => simp [prefixProb, cumul, probMagnitude]
  | succ k ih =>
    rw [cumul, sum_range_succ]
    change _ = cumul (vals val v) k + _
    rw [← ih (by omega)]
    unfold prefixProb probMagnitude
    rw [List.take_succ_eq_append_getElem (by simp; omega)]
    simp only [List.map_append, List.sum_append, List.map_cons, List.map_nil, List.sum_cons, List.sum_nil, add_zero, List.getElem_map]
    rw [Complex.normSq_eq_norm_sq]
    unfold vals
    rw [List.getElem?_eq_getElem (by omega)]
    rfl

theorem amp_vals {F : Type} (val : F → ℂ) (v : List F) : ampAt (v.map val) 0 = vals val v := by
  funext c
  unfold ampAt vals
  simp

theorem softMeasureP_eq {P : Type} (R : Prec P) (n : ℕ) (indices : List ℕ) (hidx : ∀ i ∈ indices, i < n) (input : List (P × P)) (rnd : P) :
    softMeasureP R n indices input none rnd = some (outcomeOf n indices ((softLoopP R input 0 (R.mul rnd R.one)).getD 0)) := by
  unfold softMeasureP
  rw [mapM_some indices (bitPos n) (fun q => n - 1 - q) (fun q hq => by simp [bitPos, hidx q hq])]
  simp only [Option.getD_none, Option.bind_eq_bind, Option.bind_some, Nat.add_zero]
  cases softLoopP R input 0 (R.mul rnd R.one) <;> rfl

variable {f : Format} {fl : ℝ → ℝ}

namespace Format.Arith

theorem vals_get {F : Type} (val : F → ℂ) (v : List F) (r : ℕ) (hr : r < v.length) : vals val v r = val v[r] := by
  unfold vals
  rw [List.getElem?_eq_getElem hr]
  rfl

/-- the rounding errors of the loop of `soft_measure` -/
theorem loopErr_sum (A : f.Arith fl) (l : List A.Num) : (l.map A.loopErr).sum =
    l.length * (f.eps + 6 * f.tiny) + 4 * f.eps * (l.map fun c => ‖A.val c‖ ^ 2).sum := by
  induction l with
  | nil => simp
  | cons c l ih =>
    simp only [List.map_cons, List.sum_cons, List.length_cons, ih]
    unfold loopErr
    push_cast
    ring

theorem loopErr_le (A : f.Arith fl) (n : ℕ) (v : List A.Num) (hv : v.length = 2 ^ n) (h2 : nrm n (vals A.val v) ≤ 2) (k : ℕ) :
    ((v.take k).map A.loopErr).sum ≤ 20 * (2 ^ n * f.eps) := by
  have hd := eps_pos f
  have ht := tiny_pos f
  have ht1 := tiny_le A
  rw [loopErr_sum]
  have hN : (1 : ℝ) ≤ 2 ^ n := one_le_pow₀ (by norm_num)
  have hdN : f.eps ≤ 2 ^ n * f.eps := by nlinarith
  have h1 : ((v.take k).length : ℝ) ≤ 2 ^ n := by
    have : (v.take k).length ≤ 2 ^ n := by rw [List.length_take]; omega
    exact_mod_cast this
  have h3 : ((v.take k).map fun c => ‖A.val c‖ ^ 2).sum ≤ 4 := by
    have e : ((v.take k).map fun c => ‖A.val c‖ ^ 2).sum = prefixProb (v.map A.val) k := by
      unfold prefixProb probMagnitude
      rw [← List.map_take, List.map_map]
      congr 1
      apply List.map_congr_left
      intro c _
      exact (Complex.normSq_eq_norm_sq _).symm
    rw [e]
    have h4 : prefixProb (v.map A.val) k ≤ prefixProb (v.map A.val) (v.map A.val).length := by
      by_cases hk : k ≤ (v.map A.val).length
      · exact prefixProb_mono _ hk
      · unfold prefixProb
        rw [List.take_of_length_le (by omega), List.take_of_length_le le_rfl]
    refine h4.trans ?_
    rw [List.length_map, prefix_cumul A.val v _ le_rfl, hv, cumul_full]
    nlinarith [nrm_nonneg n (vals A.val v)]
  have h5 : ((v.take k).length : ℝ) * (f.eps + 6 * f.tiny) ≤ 2 ^ n * (4 * f.eps) := mul_le_mul h1 (by linarith) (by positivity) (by positivity)
  have h6 : 4 * f.eps * ((v.take k).map fun c => ‖A.val c‖ ^ 2).sum ≤ 4 * f.eps * 4 := mul_le_mul_of_nonneg_left h3 (by positivity)
  linarith

theorem fin_bound (A : f.Arith fl) (n : ℕ) (v : List A.Num) (hv : v.length = 2 ^ n) (h2 : nrm n (vals A.val v) ≤ 2) (hfin : ∀ c ∈ v, A.fin c) :
    ∀ c ∈ v, A.fin c ∧ ‖A.val c‖ ≤ 2 := by
  intro c hc
  refine ⟨hfin c hc, ?_⟩
  obtain ⟨r, hr, rfl⟩ := List.getElem_of_mem hc
  rw [← vals_get A.val v r hr]
  exact (Verif.Props.norm_le_nrm n _ r (by omega)).trans h2

/-- the sampled basis state is the exact one -/
theorem sample_exact (A : f.Arith fl) (hf : 10 ≤ f.p) (n : ℕ) (v : List A.Num) (hv : v.length = 2 ^ n) (hfin : ∀ c ∈ v, A.fin c) (φ : ℕ → ℂ)
    (hφ : nrm n φ = 1) (ε : ℝ) (hε : ε ≤ 1) (hvφ : nrm n (fun r => vals A.val v r - φ r) ≤ ε) (r : f.Fin) (r0 : 0 < r.1) (r1 : r.1 < 1)
    (hm : ∀ k, 1 ≤ k → k ≤ 2 ^ n → ε * (2 + ε) + 20 * (2 ^ n * f.eps) < |r.1 - cumul φ k|) (x : ℕ) (hx : x < 2 ^ n) (hx0 : cumul φ x < r.1)
    (hx1 : r.1 ≤ cumul φ (x + 1)) : softLoopP A.prec v 0 (some r) = some x := by
  have hn2 : nrm n (vals A.val v) ≤ 2 := by
    have := nrm_le_of_sub n (vals A.val v) φ
    linarith
  obtain ⟨l1, l2⟩ := loop_spec A hf v (fin_bound A n v hv hn2 hfin) r r0.le r1.le 0
  have hc : ∀ k, k ≤ 2 ^ n → |cumul (vals A.val v) k - cumul φ k| ≤ ε * (2 + ε) := by
    intro k hk
    rw [cumul_mask n k hk, cumul_mask n k hk]
    exact mask_sq_sub n _ _ _ ε hφ.le hvφ
  have hup : ∀ k, 1 ≤ k → k ≤ 2 ^ n → r.1 ≤ cumul φ k + (ε * (2 + ε) + 20 * (2 ^ n * f.eps)) → r.1 < cumul φ k := by
    intro k hk1 hk2 h
    by_contra hlt
    have := hm k hk1 hk2
    rw [abs_of_nonneg (by linarith)] at this
    linarith
  have hdn : ∀ k, k ≤ 2 ^ n → cumul φ k ≤ r.1 + (ε * (2 + ε) + 20 * (2 ^ n * f.eps)) → cumul φ k < r.1 := by
    intro k hk2 h
    rcases Nat.eq_zero_or_pos k with rfl | hk1
    · simpa [cumul] using r0
    by_contra hlt
    have := hm k hk1 hk2
    rw [abs_of_nonpos (by linarith)] at this
    linarith
  rcases hk : softLoopP A.prec v 0 (some r) with _ | k
  · have h1 := l2 hk
    rw [prefix_cumul A.val v _ le_rfl, hv] at h1
    have h2 := loopErr_le A n v hv hn2 v.length
    rw [List.take_length] at h2
    have h3 := (_root_.abs_le.mp (hc _ le_rfl)).1
    have h4 := hdn _ le_rfl (by linarith)
    rw [cumul_full, hφ] at h4
    linarith
  · obtain ⟨j, rfl, j1, j2, j3⟩ := l1 k hk
    rw [prefix_cumul A.val v _ (by omega)] at j2 j3
    have e1 := loopErr_le A n v hv hn2 (j + 1)
    have e2 := loopErr_le A n v hv hn2 j
    have c1 := (_root_.abs_le.mp (hc (j + 1) (by omega))).2
    have c2 := (_root_.abs_le.mp (hc j (by omega))).1
    have u := hup (j + 1) (by omega) (by omega) (by linarith)
    have d := hdn j (by omega) (by linarith)
    rw [zero_add]
    congr 1
    by_contra hne
    rcases Nat.lt_or_gt_of_ne hne with h | h
    · have := cumul_mono φ (show j + 1 ≤ x by omega); linarith
    · have := cumul_mono φ (show x + 1 ≤ j by omega); linarith

end Format.Arith
end Verif
