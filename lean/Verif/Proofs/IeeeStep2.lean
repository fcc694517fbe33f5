import Verif.Proofs.IeeeStep

/-! # A measurement in rounded arithmetic: outcome, probability and collapsed state -/

namespace Verif
open MatrixOp Finset

theorem collapsed_eq (n : ℕ) (idx : List ℕ) (m : ℕ) (φ : ℕ → ℂ) (r : ℕ) :
    collapsed n idx m φ r = maskTo (Spells n idx m) φ r * ((1 / nrm n (maskTo (Spells n idx m) φ) : ℝ) : ℂ) := by
  unfold collapsed maskTo
  rw [born_nrm]
  split
  · rfl
  · rw [zero_mul]

theorem softMeasureP_of {P : Type} (R : Prec P) (n : ℕ) (indices : List ℕ) (hidx : ∀ i ∈ indices, i < n) (input : List (P × P)) (rnd r : P) (x : ℕ)
    (h1 : R.mul rnd R.one = r) (h2 : softLoopP R input 0 r = some x) : softMeasureP R n indices input none rnd = some (outcomeOf n indices x) := by
  rw [softMeasureP_eq R n indices hidx, h1, h2]
  rfl

theorem sums_exists {P : Type} (R : Prec P) (l : List P) : ∃ p, SumsP R l p := by
  induction l using List.reverseRecOn with
  | nil => exact ⟨_, .nil⟩
  | append_singleton l x ih =>
    obtain ⟨p, hp⟩ := ih
    exact ⟨_, .snoc l p x hp⟩

variable {f : Format} {fl : ℝ → ℝ}

namespace Format.Arith

theorem tiny_sq (f : Format) (he : f.emin + 2 * f.p + 4 ≤ 0) : 20 * f.tiny ≤ f.eps ^ 2 := by
  unfold Format.eps Format.tiny
  have h1 : (2 : ℝ) ^ f.emin ≤ 2 ^ (-(2 * (f.p : ℤ)) - 4) := zpow_le_zpow_right₀ (by norm_num) (by omega)
  have h2 : (2 : ℝ) ^ (-(2 * (f.p : ℤ)) - 4) = ((2 : ℝ)⁻¹ ^ f.p) ^ 2 / 16 := by
    rw [zpow_sub₀ (by norm_num), zpow_neg, mul_comm, zpow_mul, zpow_natCast, inv_pow, inv_pow]
    norm_num
  rw [h2] at h1
  have : 0 ≤ ((2 : ℝ)⁻¹ ^ f.p) ^ 2 := by positivity
  linarith

/-- the collapsed state, against the one of the stored numbers -/
theorem state_err (A : f.Arith fl) (hf : 10 ≤ f.p) (he : f.emin + 2 * f.p + 4 ≤ 0) (n m : ℕ) (idx : List ℕ) (hn : idx.Nodup) (hidx : ∀ i ∈ idx, i < n)
    (v arena : List A.Num) (hv : v.length = 2 ^ n) (ha : arena.length = 2 ^ n) (hfin : ∀ c ∈ v, A.fin c) (h2 : nrm n (vals A.val v) ≤ 2)
    (hN : 2 ^ n * f.eps ≤ 1 / 64) (hP : f.eps ≤ bornProb n idx m (vals A.val v)) (y : f.Fin)
    (hy : |y.1 - bornProb n idx m (vals A.val v)| ≤ 6 * (2 ^ n * f.eps) * bornProb n idx m (vals A.val v)) :
    ∃ out : List A.Num, measureStateP A.prec n idx (m, some y) v arena none = some out ∧ out.length = 2 ^ n ∧ (∀ c ∈ out, A.fin c) ∧
      nrm n (fun r => vals A.val out r - collapsed n idx m (vals A.val v) r) ≤ 13 * (2 ^ n * f.eps) := by
  classical
  have hd := eps_pos f
  have ht := tiny_pos f
  have ht1 := tiny_le A
  have hN1 : (1 : ℝ) ≤ 2 ^ n := one_le_pow₀ (by norm_num)
  have hdN : f.eps ≤ 2 ^ n * f.eps := by nlinarith
  have hb := born_mask n m idx (vals A.val v)
  have hs := born_nrm n m idx (vals A.val v)
  have hle : nrm n (maskTo (Spells n idx m) (vals A.val v)) ≤ 2 := (nrm_mono n _ _ fun r _ => maskTo_le _ _ r).trans h2
  have hP4 : bornProb n idx m (vals A.val v) ≤ 4 := by
    rw [hb]
    nlinarith [nrm_nonneg n (maskTo (Spells n idx m) (vals A.val v))]
  have ht2 : 20 * f.tiny ≤ f.eps * bornProb n idx m (vals A.val v) := by
    have := mul_le_mul_of_nonneg_left hP hd.le
    have := tiny_sq f he
    nlinarith
  obtain ⟨q, q1, q2⟩ := factor_err A hf (bornProb n idx m (vals A.val v)) (2 ^ n * f.eps) y hP4 hP hdN hN ht2 hy
  have hy0 : 0 < y.1 := by
    have h1 := (_root_.abs_le.mp hy).1
    have h3 := mul_le_mul_of_nonneg_right hN (by linarith : 0 ≤ bornProb n idx m (vals A.val v))
    linarith
  have hne : A.prec.beq (some y) A.prec.zero = false := by
    rw [show A.prec.zero = A.round 0 from rfl, round_zero]
    exact decide_eq_false hy0.ne'
  have hany := measureStateP_any A.prec n m idx hn hidx (some y) hne v arena hv ha
  rw [q1] at hany
  obtain ⟨out, o1, o2, o3⟩ : ∃ out : List A.Num, measureStateP A.prec n idx (m, some y) v arena none = some out ∧ out.length = 2 ^ n ∧
    ∀ r (hr : r < v.length), out[r]? = some (if Spells n idx m r then
        ((A.prec.mul v[r].1 (some q), A.prec.mul v[r].2 (some q)) : A.Num) else ((A.prec.zero, A.prec.zero) : A.Num)) := hany
  rw [hs] at q2
  have hs0 : 0 < nrm n (maskTo (Spells n idx m) (vals A.val v)) := by
    rw [← hs]
    exact Real.sqrt_pos.mpr (by linarith)
  have entry : ∀ r, r < 2 ^ n → ∃ c' : A.Num, out[r]? = some c' ∧ A.fin c' ∧
      ‖A.val c' - maskTo (Spells n idx m) (vals A.val v) r * ((1 / nrm n (maskTo (Spells n idx m) (vals A.val v)) : ℝ) : ℂ)‖ ≤
        12 * (2 ^ n * f.eps) * (‖maskTo (Spells n idx m) (vals A.val v) r‖ * (1 / nrm n (maskTo (Spells n idx m) (vals A.val v)))) + 2 * f.tiny := by
    intro r hr
    have h3 := o3 r (by rw [hv]; exact hr)
    by_cases hsp : Spells n idx m r
    · rw [if_pos hsp] at h3
      have em : maskTo (Spells n idx m) (vals A.val v) r = A.val (v[r]'(by omega)) := by
        unfold maskTo
        rw [if_pos hsp, vals_get A.val v r (by omega)]
      obtain ⟨c', c1, c2, c3⟩ := scaled_err A hf (2 ^ n * f.eps) (nrm n (maskTo (Spells n idx m) (vals A.val v))) (v[r]'(by omega)) q
        (hfin _ (List.getElem_mem _)) hs0 (by
          rw [← em]
          have := Verif.Props.norm_le_nrm n (maskTo (Spells n idx m) (vals A.val v)) r hr
          linarith) hdN hN q2
      refine ⟨c', h3.trans (congrArg some c1), c2, ?_⟩
      rw [em]
      exact c3
    · rw [if_neg hsp] at h3
      have em : maskTo (Spells n idx m) (vals A.val v) r = 0 := by
        unfold maskTo
        rw [if_neg hsp]
      refine ⟨(A.prec.zero, A.prec.zero), h3, ?_, ?_⟩
      · rw [show A.prec.zero = A.round 0 from rfl, round_zero]
        exact ⟨rfl, rfl⟩
      · rw [em]
        have e0 : A.val (A.prec.zero, A.prec.zero) = 0 := by
          rw [show A.prec.zero = A.round 0 from rfl, round_zero]
          rfl
        rw [e0]
        simp
        positivity
  refine ⟨out, o1, o2, ?_, ?_⟩
  · intro c hc
    obtain ⟨r, hr, rfl⟩ := List.getElem_of_mem hc
    obtain ⟨c', c1, c2, -⟩ := entry r (by omega)
    have e : out[r] = c' := by
      rw [List.getElem?_eq_getElem hr] at c1
      exact Option.some.inj c1
    exact e ▸ c2
  · have key := nrm_le_add n (fun r => vals A.val out r - collapsed n idx m (vals A.val v) r)
      (fun r => 12 * (2 ^ n * f.eps) * (‖maskTo (Spells n idx m) (vals A.val v) r‖ * (1 / nrm n (maskTo (Spells n idx m) (vals A.val v)))))
      (2 * f.tiny) (by positivity) (by
        intro r hr
        obtain ⟨c', c1, c2, c3⟩ := entry r hr
        have e : vals A.val out r = A.val c' := by
          unfold vals
          rw [c1]
          rfl
        show ‖vals A.val out r - collapsed n idx m (vals A.val v) r‖ ≤ _
        rw [e]
        rw [collapsed_eq]
        exact c3) (fun r => by positivity)
    refine key.trans ?_
    have e1 : ∑ r ∈ range (2 ^ n), (12 * (2 ^ n * f.eps) * (‖maskTo (Spells n idx m) (vals A.val v) r‖ * (1 / nrm n (maskTo (Spells n idx m) (vals A.val v))))) ^ 2 =
        (12 * (2 ^ n * f.eps)) ^ 2 := by
      have : ∀ r ∈ range (2 ^ n), (12 * (2 ^ n * f.eps) * (‖maskTo (Spells n idx m) (vals A.val v) r‖ * (1 / nrm n (maskTo (Spells n idx m) (vals A.val v))))) ^ 2 =
          (12 * (2 ^ n * f.eps) * (1 / nrm n (maskTo (Spells n idx m) (vals A.val v)))) ^ 2 * ‖maskTo (Spells n idx m) (vals A.val v) r‖ ^ 2 := by
        intro r _
        ring
      rw [sum_congr rfl this, ← mul_sum, ← nrm_sq, ← mul_pow, mul_assoc, one_div_mul_cancel hs0.ne', mul_one]
    rw [e1, Real.sqrt_sq (by positivity)]
    have hq : Real.sqrt (2 ^ n) ≤ 2 ^ n := by
      rw [Real.sqrt_le_left (by positivity)]
      nlinarith
    have : Real.sqrt (2 ^ n) * (2 * f.tiny) ≤ 2 ^ n * f.eps := mul_le_mul hq (by linarith) (by positivity) (by positivity)
    linarith

theorem collapsed_sub (n m : ℕ) (idx : List ℕ) (a b : ℕ → ℂ) (ε : ℝ) (h : nrm n (fun r => a r - b r) ≤ ε) (ha : 0 < bornProb n idx m a)
    (hb : 0 < bornProb n idx m b) :
    nrm n (fun r => collapsed n idx m a r - collapsed n idx m b r) ≤ 2 * ε / Real.sqrt (bornProb n idx m b) := by
  have := mask_scaled n (Spells n idx m) a b ε h (by rw [← born_nrm]; exact Real.sqrt_pos.mpr ha) (by rw [← born_nrm]; exact Real.sqrt_pos.mpr hb)
  simp only [collapsed_eq, born_nrm]
  exact this

theorem mul_one_fin (A : f.Arith fl) (r : f.Fin) : A.prec.mul (some r) A.prec.one = some r := by
  show A.mul (some r) (A.round 1) = some r
  rw [round_one]
  show A.round (r.1 * 1) = some r
  rw [mul_one, round_fix A r.1 r.2.1 r.2.2]
  rfl

/-- a measurement in rounded arithmetic against the exact one -/
theorem measure_err (A : f.Arith fl) (hf : 10 ≤ f.p) (he : f.emin + 2 * f.p + 4 ≤ 0) (n : ℕ) (hN : 2 ^ n * f.eps ≤ 1 / 64) (idx : List ℕ)
    (hn : idx.Nodup) (hidx : ∀ i ∈ idx, i < n) (v arena : List A.Num) (hv : v.length = 2 ^ n) (ha : arena.length = 2 ^ n) (hfin : ∀ c ∈ v, A.fin c)
    (φ : ℕ → ℂ) (hφ : nrm n φ = 1) (ε : ℝ) (hε : ε ≤ 1) (hvφ : nrm n (fun r => vals A.val v r - φ r) ≤ ε) (r : f.Fin) (r0 : 0 < r.1) (r1 : r.1 < 1)
    (hm : ∀ k, 1 ≤ k → k ≤ 2 ^ n → ε * (2 + ε) + 20 * (2 ^ n * f.eps) < |r.1 - cumul φ k|) (x : ℕ) (hx : x < 2 ^ n) (hx0 : cumul φ x < r.1)
    (hx1 : r.1 ≤ cumul φ (x + 1)) :
    0 < bornProb n idx (outcomeOf n idx x) φ ∧
    (∃ p out, MeasureP A.prec n idx v arena (some r) (outcomeOf n idx x) p out) ∧
    ∀ m p (out : List A.Num), MeasureP A.prec n idx v arena (some r) m p out → m = outcomeOf n idx x ∧
      (∃ y : f.Fin, p = some y ∧ 0 < y.1 ∧ |y.1 - bornProb n idx m φ| ≤ ε * (2 + ε) + 24 * (2 ^ n * f.eps)) ∧ out.length = 2 ^ n ∧ (∀ c ∈ out, A.fin c) ∧
      nrm n (fun r => vals A.val out r - collapsed n idx m φ r) ≤ 2 * ε / Real.sqrt (bornProb n idx m φ) + 13 * (2 ^ n * f.eps) := by
  have hd := eps_pos f
  have ht := tiny_pos f
  have hε0 : 0 ≤ ε := (nrm_nonneg _ _).trans hvφ
  have hN1 : (1 : ℝ) ≤ 2 ^ n := one_le_pow₀ (by norm_num)
  have hdN : f.eps ≤ 2 ^ n * f.eps := by nlinarith
  have hn2 : nrm n (vals A.val v) ≤ 2 := by
    have := nrm_le_of_sub n (vals A.val v) φ
    linarith
  have hloop := sample_exact A hf n v hv hfin φ hφ ε hε hvφ r r0 r1 hm x hx hx0 hx1
  have hsoft : softMeasureP A.prec n idx v none (some r) = some (outcomeOf n idx x) := by
    exact softMeasureP_of A.prec n idx hidx v (some r) (some r) x (mul_one_fin A r) hloop
  have hQ0 : ε * (2 + ε) + 20 * (2 ^ n * f.eps) < bornProb n idx (outcomeOf n idx x) φ := by
    have h1 : ‖φ x‖ ^ 2 ≤ bornProb n idx (outcomeOf n idx x) φ := by
      classical
      unfold bornProb
      rw [← Complex.normSq_eq_norm_sq]
      exact single_le_sum (f := fun x => Complex.normSq (φ x)) (fun _ _ => Complex.normSq_nonneg _)
        (mem_filter.mpr ⟨mem_range.mpr hx, spells_outcomeOf n idx x⟩)
    have h2 : cumul φ (x + 1) = cumul φ x + ‖φ x‖ ^ 2 := by rw [cumul, sum_range_succ]; rfl
    have h3 := hm (x + 1) (by omega) (by omega)
    rw [abs_of_nonpos (by linarith)] at h3
    linarith
  have hPQ := mask_sq_sub n (Spells n idx (outcomeOf n idx x)) (vals A.val v) φ ε hφ.le hvφ
  rw [← born_mask, ← born_mask] at hPQ
  generalize outcomeOf n idx x = m at *
  have hP : f.eps ≤ bornProb n idx m (vals A.val v) := by linarith [(_root_.abs_le.mp hPQ).1]
  have hP4 : bornProb n idx m (vals A.val v) ≤ 4 := by
    rw [born_mask]
    have : nrm n (maskTo (Spells n idx m) (vals A.val v)) ≤ 2 := (nrm_mono n _ _ fun r _ => maskTo_le _ _ r).trans hn2
    nlinarith [nrm_nonneg n (maskTo (Spells n idx m) (vals A.val v))]
  obtain ⟨ts, t1, t2⟩ := prob_err A hf n m idx hn hidx v (fin_bound A n v hv hn2 hfin) (bornProb n idx m (vals A.val v))
    (by rw [amp_vals]) hP4 hN
  have hε2 : 0 ≤ ε * (2 + ε) := by positivity
  have hDP : 2 ^ n * f.eps * bornProb n idx m (vals A.val v) ≤ 2 ^ n * f.eps * 4 := mul_le_mul_of_nonneg_left hP4 (by positivity)
  have hprob : ∀ p, SumsP A.prec ts p → ∃ y : f.Fin, p = some y ∧
      |y.1 - bornProb n idx m (vals A.val v)| ≤ 6 * (2 ^ n * f.eps) * bornProb n idx m (vals A.val v) := by
    intro p hp
    obtain ⟨y, y1, -, y2⟩ := t2 p hp
    refine ⟨y, y1, y2.trans ?_⟩
    have h1 := tiny_sq f he
    have h2 := mul_le_mul_of_nonneg_left hP hd.le
    have h3 : 10 * f.tiny ≤ f.eps * bornProb n idx m (vals A.val v) := by nlinarith
    have h4 := mul_le_mul_of_nonneg_left h3 (by positivity : (0 : ℝ) ≤ 2 ^ n)
    linarith
  refine ⟨by linarith, ?_, ?_⟩
  · obtain ⟨p, hp⟩ := sums_exists A.prec ts
    obtain ⟨y, rfl, hy⟩ := hprob p hp
    obtain ⟨out, o1, -⟩ := state_err A hf he n m idx hn hidx v arena hv ha hfin hn2 hN hP y hy
    exact ⟨some y, out, hsoft, ⟨ts, t1, hp⟩, o1⟩
  · rintro m' p out ⟨h1, ⟨ts', h2, h3⟩, h4⟩
    obtain rfl : m = m' := by rw [hsoft] at h1; exact Option.some.inj h1
    obtain rfl : ts = ts' := by rw [t1] at h2; exact Option.some.inj h2
    obtain ⟨y, rfl, hy⟩ := hprob p h3
    obtain ⟨out', o1, o2, o3, o4⟩ := state_err A hf he n m idx hn hidx v arena hv ha hfin hn2 hN hP y hy
    obtain rfl : out' = out := by
      have := o1.symm.trans h4
      exact Option.some.inj this
    have hy0 : 0 < y.1 := by
      have h1 := (_root_.abs_le.mp hy).1
      have h3 := mul_le_mul_of_nonneg_right hN (by linarith : 0 ≤ bornProb n idx m (vals A.val v))
      linarith
    refine ⟨rfl, ⟨y, rfl, hy0, ?_⟩, o2, o3, ?_⟩
    · refine (abs_sub_le _ (bornProb n idx m (vals A.val v)) _).trans ?_
      linarith
    · have c := collapsed_sub n m idx (vals A.val v) φ ε hvφ (by linarith) (by linarith)
      have := nrm_add_le n (fun r => vals A.val out' r - collapsed n idx m (vals A.val v) r)
        (fun r => collapsed n idx m (vals A.val v) r - collapsed n idx m φ r)
      rw [nrm_congr n (fun r => vals A.val out' r - collapsed n idx m (vals A.val v) r + (collapsed n idx m (vals A.val v) r - collapsed n idx m φ r))
        (fun r => vals A.val out' r - collapsed n idx m φ r) (fun r _ => by ring)] at this
      linarith

end Format.Arith
end Verif
