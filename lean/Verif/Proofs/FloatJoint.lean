import Verif.Spec.FloatJoint
import Verif.Proofs.Freq
import Verif.Proofs.Born
import Verif.Proofs.Equiv

/-!
# Several measurements in floating point arithmetic
-/

namespace Verif
open Finset Classical Complex

/-! ## shares -/

theorem shareOf_nonneg (N J : ℕ) (S : (Fin J → Fin N) → Prop) : 0 ≤ shareOf N J S := by unfold shareOf; positivity

theorem shareOf_le_one (N J : ℕ) (S : (Fin J → Fin N) → Prop) : shareOf N J S ≤ 1 := by
  unfold shareOf
  have h : (univ.filter S).card ≤ N ^ J := by
    have := card_filter_le (univ : Finset (Fin J → Fin N)) S
    rwa [card_univ, Fintype.card_fun, Fintype.card_fin, Fintype.card_fin] at this
  refine div_le_one_of_le₀ ?_ (by positivity)
  exact_mod_cast h

theorem shareOf_congr (N J : ℕ) {S T : (Fin J → Fin N) → Prop} (h : ∀ js, S js ↔ T js) : shareOf N J S = shareOf N J T := by
  rw [show S = T from funext fun js => propext (h js)]

theorem shareOf_false (N J : ℕ) {S : (Fin J → Fin N) → Prop} (h : ∀ js, ¬ S js) : shareOf N J S = 0 := by
  unfold shareOf
  rw [filter_eq_empty_iff.mpr fun js _ => h js]
  simp

theorem shareOf_zero (N : ℕ) {S : (Fin 0 → Fin N) → Prop} (h : ∀ js, S js) : shareOf N 0 S = 1 := by
  unfold shareOf
  rw [filter_true_of_mem fun js _ => h js, card_univ, Fintype.card_fun]
  simp

/-- the share over the first draw and the others -/
theorem shareOf_cons (N J : ℕ) (S : (Fin (J + 1) → Fin N) → Prop) (g : ℕ → ℝ)
    (hg : ∀ j : Fin N, g j = shareOf N J fun js => S (Fin.cons j js)) : shareOf N (J + 1) S = (∑ j ∈ range N, g j) / N := by
  have h1 : ((univ.filter S).card : ℝ) = ∑ j : Fin N, ((univ.filter fun js : Fin J → Fin N => S (Fin.cons j js)).card : ℝ) := by
    rw [card_filter]
    push_cast
    rw [← (Fin.consEquiv fun _ : Fin (J + 1) => Fin N).sum_comp, Fintype.sum_prod_type]
    refine sum_congr rfl fun j _ => ?_
    rw [card_filter]
    push_cast
    rfl
  rw [← Fin.sum_univ_eq_sum_range, sum_congr rfl fun j _ => hg j]
  unfold shareOf
  rw [h1, ← sum_div, div_div, pow_succ]

/-! ## one measurement -/

/-- a mean over draws whose first outcome matters -/
theorem avg_close (n : ℕ) (idx : List ℕ) (m : ℕ) (a : ℕ → ℂ) (h1 : cumul a (2 ^ n) = 1) (N : ℕ) (hN : 0 < N) (ρ : ℝ) (hρ : 0 ≤ ρ) (g : ℕ → ℝ)
    (hg : ∀ j, j < N → 0 ≤ g j ∧ g j ≤ 1) (b β : ℝ) (hb0 : 0 ≤ b) (hb1 : b ≤ 1) (hβ0 : 0 ≤ β) (hβ1 : β ≤ 1)
    (h : ∀ j, j < N → (∀ k, k ≤ 2 ^ n → ρ < |(j : ℝ) / N - cumul a k|) → ∀ x, x < 2 ^ n → cumul a x ≤ (j : ℝ) / N → (j : ℝ) / N < cumul a (x + 1) →
      (Spells n idx m x → |g j - b| ≤ β) ∧ (¬ Spells n idx m x → g j = 0)) :
    |(∑ j ∈ range N, g j) / N - bornProb n idx m a * b| ≤ (2 ^ n + 1) * (2 * ρ + 1 / N) + 2 * 2 ^ n / N + bornProb n idx m a * β := by
  have hN' : (0 : ℝ) < N := by exact_mod_cast hN
  set T : ℕ → Prop := fun j => ∃ x, x < 2 ^ n ∧ Spells n idx m x ∧ cumul a x ≤ (j : ℝ) / N ∧ (j : ℝ) / N < cumul a (x + 1) with hT
  set F : ℕ → Prop := fun j => ∃ k, k ≤ 2 ^ n ∧ |(j : ℝ) / N - cumul a k| ≤ ρ with hF
  have hnear : (((range N).filter F).card : ℝ) ≤ (2 ^ n + 1) * (2 * ρ * N + 1) := by
    have := card_close n a N hN ρ hρ F (fun _ => False) (by
      intro j _ hfar
      rw [iff_false]
      rintro ⟨k, k1, k2⟩
      exact absurd (hfar k k1) (not_lt.mpr k2))
    rw [filter_false, card_empty, Nat.cast_zero, sub_zero, Nat.abs_cast] at this
    exact this
  have hout := abs_le.mp (card_outcome n idx m a h1 N hN)
  change _ ≤ (((range N).filter T).card : ℝ) - _ ∧ (((range N).filter T).card : ℝ) - _ ≤ _ at hout
  have hterm : ∀ j ∈ range N, |g j - (if T j then b else 0)| ≤ (if T j then β else 0) + if F j then 1 else 0 := by
    intro j hj
    have hj := mem_range.mp hj
    obtain ⟨g0, g1⟩ := hg j hj
    by_cases hFj : F j
    · have : |g j - (if T j then b else 0)| ≤ 1 := by rw [_root_.abs_le]; split <;> constructor <;> linarith
      have h2 : 0 ≤ (if T j then β else 0) := by split <;> simp [hβ0]
      simp only [hFj, if_true]
      linarith
    · have hfar : ∀ k, k ≤ 2 ^ n → ρ < |(j : ℝ) / N - cumul a k| := by
        intro k hk
        by_contra hc
        exact hFj ⟨k, hk, not_lt.mp hc⟩
      obtain ⟨x, x1, x2, x3⟩ := exists_slot n a h1 ((j : ℝ) / N) (by positivity) (by rw [div_lt_one hN']; exact_mod_cast hj)
      obtain ⟨k1, k2⟩ := h j hj hfar x x1 x2 x3
      by_cases hs : Spells n idx m x
      · have hTj : T j := ⟨x, x1, hs, x2, x3⟩
        simp only [hTj, hFj, if_true, if_false, add_zero]
        exact k1 hs
      · have hTj : ¬ T j := by
          rintro ⟨y, y1, y2, y3⟩
          obtain rfl := slot_unique a _ x y ⟨x2, x3⟩ y3
          exact hs y2
        simp [hTj, hFj, k2 hs]
  have hsum : |∑ j ∈ range N, g j - ((range N).filter T).card * b| ≤ ((range N).filter T).card * β + ((range N).filter F).card := by
    have e1 : ∀ c : ℝ, ∑ j ∈ range N, (if T j then c else 0) = ((range N).filter T).card * c := by
      intro c
      rw [← sum_filter, sum_const, nsmul_eq_mul]
    have e2 : ∑ j ∈ range N, (if F j then (1 : ℝ) else 0) = ((range N).filter F).card := by
      rw [← sum_filter, sum_const, nsmul_eq_mul, mul_one]
    rw [← e1 b, ← e1 β, ← e2, ← sum_sub_distrib, ← sum_add_distrib]
    exact (abs_sum_le_sum_abs _ _).trans (sum_le_sum hterm)
  have hQ := bornProb_nonneg n idx m a
  generalize bornProb n idx m a = Q at hout hQ ⊢
  generalize (((range N).filter T).card : ℝ) = t at hout hsum
  generalize (((range N).filter F).card : ℝ) = w at hnear hsum
  generalize ∑ j ∈ range N, g j = G at hsum ⊢
  have e : G / N - Q * b = (G - N * Q * b) / N := by field_simp
  rw [e, abs_div, abs_of_pos hN', div_le_iff₀ hN']
  have e3 : ((2 ^ n + 1) * (2 * ρ + 1 / N) + 2 * 2 ^ n / N + Q * β) * N = (2 ^ n + 1) * (2 * ρ * N + 1) + 2 * 2 ^ n + Q * β * N := by field_simp
  rw [e3]
  have s := _root_.abs_le.mp hsum
  have p1 : t * β ≤ N * Q * β + 2 ^ n := by nlinarith [show (0 : ℝ) < 2 ^ n by positivity]
  have p2 : t * b ≤ N * Q * b + 2 ^ n := by nlinarith [show (0 : ℝ) < 2 ^ n by positivity]
  have p3 : N * Q * b - 2 ^ n ≤ t * b := by nlinarith [show (0 : ℝ) < 2 ^ n by positivity]
  rw [_root_.abs_le]
  constructor <;> nlinarith

/-! ## branches -/

theorem normW_proj_le {n : ℕ} {ψ : Wave} (h : On (Low n) ψ) (r : Reg) (m : ℕ) : normW (projW r m ψ) ≤ normW ψ := by
  rw [normW_low (h.proj r m), normW_low h]
  refine sum_le_sum fun i _ => ?_
  rw [projW_apply]
  split
  · exact le_rfl
  · simpa using normSq_nonneg _

theorem normW_branch_le {n : ℕ} (p : Pipeline) (hp : ∀ e ∈ p, StepOK n e) (ms : List ℕ) {ψ : Wave} (h : On (Low n) ψ) :
    normW (branchW rotAngle p ms ψ) ≤ normW ψ := by
  induction p generalizing ms ψ with
  | nil => exact le_rfl
  | cons e p ih =>
    have hp' : ∀ e ∈ p, StepOK n e := fun e' he' => hp e' (by simp [he'])
    rcases hp e (by simp) with he | ⟨ho, hn, hi⟩
    · obtain ⟨-, -, u, hu, -⟩ := he.1
      rw [branchW_unitary _ _ _ _ _ u hu, ← normW_entry h e he]
      exact ih hp' ms (h.entryLow e he.1.1.2.1)
    · cases ms with
      | nil => simp only [branchW, ho]; rw [normW_zero]; exact normW_nonneg _
      | cons m ms =>
        rw [branchW_meas _ _ _ _ _ _ _ ho]
        exact (ih hp' ms (h.proj e.1 m)).trans (normW_proj_le h e.1 m)

/-- without measurements nothing is lost -/
theorem normW_branch_gates {n : ℕ} (p : Pipeline) (hp : ∀ e ∈ p, StepOK n e) (h0 : measCount p = 0) (ms : List ℕ) {ψ : Wave} (h : On (Low n) ψ) :
    normW (branchW rotAngle p ms ψ) = normW ψ := by
  induction p generalizing ms ψ with
  | nil => rfl
  | cons e p ih =>
    have hp' : ∀ e ∈ p, StepOK n e := fun e' he' => hp e' (by simp [he'])
    rcases hp e (by simp) with he | ⟨ho, hn, hi⟩
    · obtain ⟨-, -, u, hu, -⟩ := he.1
      rw [branchW_unitary _ _ _ _ _ u hu, ← normW_entry h e he]
      exact ih hp' (by simpa [measCount, isMeas, hu] using h0) ms (h.entryLow e he.1.1.2.1)
    · simp [measCount, isMeas, ho] at h0

/-- a branch of a state, and the branch of the state scaled after the first measurement -/
theorem normW_branch_unit (p : Pipeline) (ms : List ℕ) {ψ : Wave} (h : 0 < normW ψ) :
    normW (branchW rotAngle p ms ψ) = normW ψ * normW (branchW rotAngle p ms (unitW ψ)) := by
  unfold unitW
  rw [branchW_smul, normW_smul, normSq_ofReal, div_mul_div_comm, Real.mul_self_sqrt h.le]
  field_simp

/-- the state after an outcome -/
theorem collapsed_wave {n : ℕ} {ψ : Wave} (h : On (Low n) ψ) (r : Reg) (hr : ∀ q ∈ r, q < n) (m : ℕ) (hm : m < 2 ^ r.length) (i : ℕ) (hi : i < 2 ^ n) :
    collapsed n r m (ampAt (vecW n ψ) 0) i = unitW (projW r m ψ) (asg n i) := by
  unfold collapsed unitW
  rw [rep_born (rep_vecW n ψ) h r hr m hm, rep_amp (rep_vecW n ψ) i hi, Finsupp.smul_apply, projW_apply, smul_eq_mul]
  by_cases hs : Spells n r m i
  · rw [if_pos hs, if_pos ((spells_valQ n r hr m i hm).mp hs), mul_comm]
  · rw [if_neg hs, if_neg fun e => hs ((spells_valQ n r hr m i hm).mpr e), mul_zero]

theorem nrm_wave {n : ℕ} {ψ : Wave} (h : On (Low n) ψ) (h1 : normW ψ = 1) : nrm n (ampAt (vecW n ψ) 0) = 1 := by
  unfold nrm
  rw [sum_congr rfl fun i hi => by rw [rep_amp (rep_vecW n ψ) i (mem_range.mp hi), ← normSq_eq_norm_sq], ← normW_low h, h1, Real.sqrt_one]

/-! ## the bound -/

section
variable (f : Format) (n N : ℕ) (τ θ : ℝ)

theorem jointBound_gate (e : List ℕ × CObj) (p : Pipeline) (ε : ℝ) (u : UObj) (h : e.2.object = .unitary u) :
    jointBound f n N τ θ (e :: p) ε = jointBound f n N τ θ p (ε + (elemCost e : ℝ) * f.eps) := by
  simp only [jointBound, h]

theorem jointBound_meas (e : List ℕ × CObj) (p : Pipeline) (ε : ℝ) (o : MObj) (h : e.2.object = .meas o) :
    jointBound f n N τ θ (e :: p) ε =
      if ε ≤ 1 then min 1 (measLoss f n N τ ε + max θ (jointBound f n N τ θ p (2 * ε / Real.sqrt θ + 13 * (2 ^ n * f.eps)))) else 1 := by
  simp only [jointBound, h]

theorem measLoss_nonneg (hτ : 0 ≤ τ) (ε : ℝ) (hε : 0 ≤ ε) : 0 ≤ measLoss f n N τ ε := by
  have := Format.Arith.eps_pos f
  unfold measLoss
  positivity

theorem measLoss_mono (ε ε' : ℝ) (hε : 0 ≤ ε) (h : ε ≤ ε') : measLoss f n N τ ε ≤ measLoss f n N τ ε' := by
  unfold measLoss
  have : ε * (2 + ε) ≤ ε' * (2 + ε') := by nlinarith
  have h2 : (0 : ℝ) ≤ 2 ^ n + 1 := by positivity
  have := mul_le_mul_of_nonneg_left (show 2 * (ε * (2 + ε) + 20 * (2 ^ n * f.eps) + τ) + 1 / (N : ℝ) ≤
    2 * (ε' * (2 + ε') + 20 * (2 ^ n * f.eps) + τ) + 1 / N by linarith) h2
  linarith

theorem jointBound_range (hτ : 0 ≤ τ) (hθ : 0 < θ) (p : Pipeline) (ε : ℝ) (hε : 0 ≤ ε) : 0 ≤ jointBound f n N τ θ p ε ∧ jointBound f n N τ θ p ε ≤ 1 := by
  have hd := Format.Arith.eps_pos f
  induction p generalizing ε with
  | nil => simp [jointBound]
  | cons e p ih =>
    cases ho : e.2.object with
    | unitary u => rw [jointBound_gate _ _ _ _ _ _ _ _ u ho]; exact ih _ (by positivity)
    | meas o =>
      rw [jointBound_meas _ _ _ _ _ _ _ _ o ho]
      split
      · refine ⟨le_min (by norm_num) (add_nonneg (measLoss_nonneg f n N τ hτ ε hε) (hθ.le.trans (le_max_left _ _))), min_le_left _ _⟩
      · simp

theorem jointBound_mono (hτ : 0 ≤ τ) (hθ : 0 < θ) (p : Pipeline) (ε ε' : ℝ) (hε : 0 ≤ ε) (h : ε ≤ ε') :
    jointBound f n N τ θ p ε ≤ jointBound f n N τ θ p ε' := by
  have hd := Format.Arith.eps_pos f
  induction p generalizing ε ε' with
  | nil => simp [jointBound]
  | cons e p ih =>
    cases ho : e.2.object with
    | unitary u =>
      rw [jointBound_gate _ _ _ _ _ _ _ _ u ho, jointBound_gate _ _ _ _ _ _ _ _ u ho]
      exact ih _ _ (by positivity) (by linarith)
    | meas o =>
      rw [jointBound_meas _ _ _ _ _ _ _ _ o ho, jointBound_meas _ _ _ _ _ _ _ _ o ho]
      by_cases h1 : ε' ≤ 1
      · rw [if_pos h1, if_pos (h.trans h1)]
        refine min_le_min_left _ (add_le_add (measLoss_mono f n N τ ε ε' hε h) (max_le_max_left _ (ih _ _ (by positivity) ?_)))
        have := div_le_div_of_nonneg_right (show 2 * ε ≤ 2 * ε' by linarith) (Real.sqrt_nonneg θ)
        linarith
      · rw [if_neg h1]
        split
        · exact min_le_left _ _
        · exact le_rfl

/-- a large error of the state: nothing is claimed if there is a measurement -/
theorem jointBound_large (p : Pipeline) (ε : ℝ) (hε : 1 < ε) : jointBound f n N τ θ p ε = if measCount p = 0 then 0 else 1 := by
  have hd := Format.Arith.eps_pos f
  induction p generalizing ε with
  | nil => simp [jointBound, measCount]
  | cons e p ih =>
    cases ho : e.2.object with
    | unitary u =>
      have : (0 : ℝ) ≤ (elemCost e : ℝ) * f.eps := by positivity
      rw [jointBound_gate _ _ _ _ _ _ _ _ u ho, ih _ (by linarith), show measCount (e :: p) = measCount p by simp [measCount, isMeas, ho]]
    | meas o =>
      rw [jointBound_meas _ _ _ _ _ _ _ _ o ho, if_neg (by linarith), if_neg (by simp [measCount, isMeas, ho])]

theorem jointBound_none (p : Pipeline) (h : measCount p = 0) (ε : ℝ) : jointBound f n N τ θ p ε = 0 := by
  induction p generalizing ε with
  | nil => rfl
  | cons e p ih =>
    cases ho : e.2.object with
    | unitary u =>
      rw [jointBound_gate _ _ _ _ _ _ _ _ u ho]
      exact ih (by simpa [measCount, isMeas, ho] using h) _
    | meas o => simp [measCount, isMeas, ho] at h

/-- the bound in closed form -/
theorem jointBound_closed (hτ : 0 ≤ τ) (hθ : 0 < θ) (hθ1 : θ ≤ 1) (p : Pipeline) (ε : ℝ) (hε : 0 ≤ ε)
    (h : (2 / Real.sqrt θ) ^ (measCount p - 1) * (ε + ((circuitCost p : ℝ) + 13 * measCount p * 2 ^ n) * f.eps) ≤ 1) :
    jointBound f n N τ θ p ε ≤
      measCount p * measLoss f n N τ ((2 / Real.sqrt θ) ^ (measCount p - 1) * (ε + ((circuitCost p : ℝ) + 13 * measCount p * 2 ^ n) * f.eps)) + θ := by
  have hd := Format.Arith.eps_pos f
  have hs : 0 < Real.sqrt θ := Real.sqrt_pos.mpr hθ
  have hs1 : Real.sqrt θ ≤ 1 := Real.sqrt_le_one.mpr hθ1
  have ha : 1 ≤ 2 / Real.sqrt θ := by rw [le_div_iff₀ hs]; linarith
  generalize ha' : 2 / Real.sqrt θ = a at ha h ⊢
  induction p generalizing ε with
  | nil => simp [jointBound, measCount]; exact hθ.le
  | cons e p ih =>
    have hlen : (circuitCost (e :: p) : ℝ) = elemCost e + circuitCost p := by
      rw [show circuitCost (e :: p) = elemCost e + circuitCost p by simp [circuitCost]]
      push_cast; ring
    cases ho : e.2.object with
    | unitary u =>
      have hm : measCount (e :: p) = measCount p := by simp [measCount, isMeas, ho]
      have e1 : ε + ((circuitCost (e :: p) : ℝ) + 13 * measCount p * 2 ^ n) * f.eps =
          ε + (elemCost e : ℝ) * f.eps + ((circuitCost p : ℝ) + 13 * measCount p * 2 ^ n) * f.eps := by rw [hlen]; ring
      rw [jointBound_gate _ _ _ _ _ _ _ _ u ho, hm, e1]
      rw [hm, e1] at h
      exact ih _ (by positivity) h
    | meas o =>
      have hm : measCount (e :: p) = measCount p + 1 := by simp [measCount, isMeas, ho]
      have hc : elemCost e = 0 := by simp [elemCost, ho]
      rw [hm, hlen, hc, Nat.cast_zero, zero_add, Nat.add_sub_cancel] at h
      rw [hm, hlen, hc, Nat.cast_zero, zero_add, Nat.add_sub_cancel, jointBound_meas _ _ _ _ _ _ _ _ o ho]
      push_cast at h ⊢
      generalize hE : a ^ measCount p * (ε + ((circuitCost p : ℝ) + 13 * (measCount p + 1) * 2 ^ n) * f.eps) = E at h ⊢
      have hap : 1 ≤ a ^ measCount p := one_le_pow₀ ha
      have hX : 0 ≤ ((circuitCost p : ℝ) + 13 * (measCount p + 1) * 2 ^ n) * f.eps := by positivity
      have hεE : ε ≤ E := by rw [← hE]; nlinarith
      have hE0 : 0 ≤ E := hε.trans hεE
      have hL := measLoss_mono f n N τ ε E hε hεE
      have hL0 := measLoss_nonneg f n N τ hτ E hE0
      rw [if_pos (hεE.trans h)]
      refine (min_le_right _ _).trans ?_
      have hJ0 : (0 : ℝ) ≤ measCount p := Nat.cast_nonneg _
      have key : jointBound f n N τ θ p (2 * ε / Real.sqrt θ + 13 * (2 ^ n * f.eps)) ≤ measCount p * measLoss f n N τ E + θ := by
        have e0 : 2 * ε / Real.sqrt θ = a * ε := by rw [← ha']; ring
        rw [e0]
        by_cases hz : measCount p = 0
        · rw [jointBound_none f n N τ θ p hz, hz]
          simp [hθ.le]
        · have hexp : a ^ measCount p = a ^ (measCount p - 1) * a := by
            rw [← pow_succ, Nat.sub_add_cancel (by omega)]
          have hq : 0 ≤ a ^ (measCount p - 1) := by positivity
          have hle : a ^ (measCount p - 1) * (a * ε + 13 * (2 ^ n * f.eps) + ((circuitCost p : ℝ) + 13 * measCount p * 2 ^ n) * f.eps) ≤ E := by
            rw [← hE, hexp, mul_assoc (a ^ (measCount p - 1)) a]
            refine mul_le_mul_of_nonneg_left ?_ hq
            have : ((circuitCost p : ℝ) + 13 * (measCount p + 1) * 2 ^ n) * f.eps ≤ a * (((circuitCost p : ℝ) + 13 * (measCount p + 1) * 2 ^ n) * f.eps) := by nlinarith
            nlinarith
          refine (ih _ (by positivity) (hle.trans h)).trans ?_
          have := measLoss_mono f n N τ _ E (by positivity) hle
          nlinarith
      have : max θ (jointBound f n N τ θ p (2 * ε / Real.sqrt θ + 13 * (2 ^ n * f.eps))) ≤ measCount p * measLoss f n N τ E + θ :=
        max_le (by have := mul_nonneg hJ0 hL0; linarith) key
      linarith

end

end Verif
