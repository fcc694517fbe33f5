import Verif.Proofs.Oracle

/-! # Grover's search -/

namespace Verif
open Complex Finset

/-- a state with `(|0⟩ - |1⟩)/√2` on the output -/
noncomputable def combW (n : ℕ) (α : ℕ → ℝ) : Wave := ∑ s ∈ range (2 ^ n), (α s : ℂ) • minusW n s

theorem comb_flip {n : ℕ} {f : ℕ → Bool} {U : Asg → Wave} (hU : ∀ x : Asg, U x = ket (setQ n (xor (x n) (f (valQ (List.range n) x))) x)) (α : ℕ → ℝ) :
    lift U (combW n α) = combW n fun s => (-1) ^ (f s).toNat * α s := by
  unfold combW
  rw [map_sum]
  refine sum_congr rfl fun s hs => ?_
  rw [map_smul, minus_flip hU s (mem_range.mp hs), smul_smul]
  push_cast
  rw [mul_comm]

theorem hadamard_twice (n : ℕ) (ψ : Wave) : eachW (Named.mat .h) (List.range n) (eachW (Named.mat .h) (List.range n) ψ) = ψ := by
  have e : (1 / (Real.sqrt 2 : ℂ)) * (1 / (Real.sqrt 2 : ℂ)) = 1 / 2 := by
    rw [div_mul_div_comm, one_mul, ← ofReal_mul, Real.mul_self_sqrt (by norm_num)]
    norm_num
  unfold Named.mat
  generalize (1 / (Real.sqrt 2 : ℂ)) = c at e ⊢
  rw [eachW_comp _ List.nodup_range, show c * c + c * c = 1 by rw [e]; norm_num, show c * c + c * -c = 0 by ring, show c * c + -c * c = 0 by ring,
    show c * c + -c * -c = 1 by rw [neg_mul_neg, e]; norm_num, eachW_one]

theorem comb_sub (n : ℕ) (α β : ℕ → ℝ) : combW n α - combW n β = combW n fun s => α s - β s := by
  unfold combW
  rw [← sum_sub_distrib]
  refine sum_congr rfl fun s _ => ?_
  rw [← sub_smul]
  push_cast
  rfl

theorem comb_smul (n : ℕ) (c : ℝ) (α : ℕ → ℝ) : (c : ℂ) • combW n α = combW n fun s => c * α s := by
  unfold combW
  rw [smul_sum]
  refine sum_congr rfl fun s _ => ?_
  rw [smul_smul]
  push_cast
  rfl

theorem comb_congr {n : ℕ} {α β : ℕ → ℝ} (h : ∀ s < 2 ^ n, α s = β s) : combW n α = combW n β :=
  sum_congr rfl fun s hs => by rw [h s (mem_range.mp hs)]

theorem minus_comb (n u : ℕ) (hu : u < 2 ^ n) : minusW n u = combW n fun s => if s = u then 1 else 0 := by
  unfold combW
  rw [sum_eq_single u]
  · simp
  · intro s _ hs
    simp [hs]
  · intro h
    exact absurd (mem_range.mpr hu) h

theorem hadamard_comb (n : ℕ) (α : ℕ → ℝ) : eachW (Named.mat .h) (List.range n) (combW n α) =
    combW n fun s => (1 / Real.sqrt 2) ^ n * ∑ u ∈ range (2 ^ n), (-1) ^ dot n u s * α u := by
  unfold combW
  rw [map_sum, sum_congr rfl fun u hu => by rw [map_smul, minus_hadamards n u (mem_range.mp hu), smul_sum, smul_sum], sum_comm]
  refine sum_congr rfl fun s _ => ?_
  push_cast
  rw [mul_sum, sum_smul]
  refine sum_congr rfl fun u _ => ?_
  rw [smul_smul, smul_smul]
  congr 1
  ring

theorem half_pow (n : ℕ) : (1 / Real.sqrt 2) ^ n * (1 / Real.sqrt 2) ^ n = 1 / 2 ^ n := by
  rw [← mul_pow, div_mul_div_comm, one_mul, Real.mul_self_sqrt (by norm_num), div_pow, one_pow]

/-- the reflection: H, the sign of the 0, H -/
theorem comb_reflect {n : ℕ} {U : Asg → Wave} (hU : ∀ x : Asg, U x = ket (setQ n (xor (x n) (decide (valQ (List.range n) x = 0))) x)) (α : ℕ → ℝ) :
    eachW (Named.mat .h) (List.range n) (lift U (eachW (Named.mat .h) (List.range n) (combW n α))) =
      combW n fun s => α s - 2 * (∑ u ∈ range (2 ^ n), α u) / 2 ^ n := by
  have h0 : (0 : ℕ) < 2 ^ n := by positivity
  have hd0 : ∀ u, dot n u 0 = 0 := fun u => by simp [dot]
  have hd1 : ∀ u, dot n 0 u = 0 := fun u => by simp [dot]
  have hs : ∀ β : ℕ → ℝ, lift U (combW n β) = combW n β - ((2 * β 0 : ℝ) : ℂ) • minusW n 0 := fun β => by
    rw [comb_flip (f := fun s => decide (s = 0)) hU, minus_comb n 0 h0, comb_smul, comb_sub]
    refine comb_congr fun s _ => ?_
    by_cases h : s = 0
    · subst h; simp; ring
    · simp [h]
  have e := hadamard_twice n (combW n α)
  have hm : eachW (Named.mat .h) (List.range n) (minusW n 0) = combW n fun _ => (1 / Real.sqrt 2) ^ n := by
    rw [minus_comb n 0 h0, hadamard_comb]
    refine comb_congr fun s _ => ?_
    rw [sum_eq_single 0]
    · simp [hd1]
    · intro u _ hu; simp [hu]
    · intro h; exact absurd (mem_range.mpr h0) h
  rw [hadamard_comb, hs, map_sub, map_smul, ← hadamard_comb, e, hm, comb_smul, comb_sub]
  refine comb_congr fun s _ => ?_
  simp only [hd0, pow_zero, one_mul]
  rw [show 2 * ((1 / Real.sqrt 2) ^ n * ∑ u ∈ range (2 ^ n), α u) * (1 / Real.sqrt 2) ^ n =
    2 * (∑ u ∈ range (2 ^ n), α u) * ((1 / Real.sqrt 2) ^ n * (1 / Real.sqrt 2) ^ n) from by ring, half_pow, mul_one_div]

/-- one round -/
noncomputable def groverStep (n : ℕ) (f : ℕ → Bool) (α : ℕ → ℝ) : ℕ → ℝ := fun s =>
  (-1) ^ (f s).toNat * α s - 2 * (∑ u ∈ range (2 ^ n), (-1) ^ (f u).toNat * α u) / 2 ^ n

theorem control_zero_wave {n : ℕ} {q : List ℕ} (hq : q = List.range n) (x : Asg) (d : Decidable (Holds (some 0) q x)) :
    (@ite _ (Holds (some 0) q x) d (gateW [n] (Named.mat .x) (ket x)) (ket x)) = ket (setQ n (xor (x n) (decide (valQ (List.range n) x = 0))) x) := by
  subst hq
  by_cases h : Holds (some 0) (List.range n) x
  · rw [if_pos h, flip_wave]
    have h' : valQ (List.range n) x = 0 := by simpa [Holds] using h
    simp [h']
  · rw [if_neg h]
    have h' : ¬ valQ (List.range n) x = 0 := by simpa [Holds] using h
    simp [h', setQ_self]

theorem grover_rounds {n : ℕ} {f : ℕ → Bool} {o : Prog} (ho : Computes n f o) (k : ℕ) (α : ℕ → ℝ) :
    lift ((groverLines o k).wave false [List.range n, [n]]) (combW n α) = combW n ((groverStep n f)^[k] α) := by
  have f0 : groupReg [List.range n, [n]] [(0, none)] = List.range n := groupReg_all _ 0
  have f1 : groupReg [List.range n, [n]] [(1, none)] = [n] := groupReg_all _ 1
  have hA : ∀ (A : Wave →ₗ[ℂ] Wave) (U : Asg → Wave) (ψ : Wave), lift (fun x => A (U x)) ψ = A (lift U ψ) := fun A U ψ => by
    rw [← LinearMap.comp_apply]
    congr 1
    exact wave_ext fun x => by rw [LinearMap.comp_apply, lift_ket, lift_ket]
  have hi : ∀ ψ, lift (fun x => ket x) ψ = ψ := fun ψ => by rw [show (fun x => ket x) = ket from rfl, lift_ket_id]; rfl
  induction k generalizing α with
  | zero =>
    simp only [groverLines, Lines.wave]
    exact hi _
  | succ k ih =>
    rw [Function.iterate_succ, Function.comp_apply, ← ih]
    simp only [groverLines, Lines.wave, lift_eq, List.map_cons, List.map_nil, f0, f1, Prog.wave, Method.wave, Bool.false_eq_true, if_false, if_true, eachW_single,
      show Named.condMat .x = Named.mat .x from rfl, hA, hi]
    rw [comb_flip ho.wave, comb_reflect fun x => control_zero_wave f0 x _]
    rfl

theorem sum_two {n : ℕ} (f : ℕ → Bool) (a b : ℝ) :
    ∑ u ∈ range (2 ^ n), (if f u = true then a else b) = marked n f * a + (2 ^ n - marked n f) * b := by
  have e : ∀ u, (if f u = true then a else b) = (if f u = true then 1 else 0) * (a - b) + b := fun u => by cases f u <;> simp
  rw [sum_congr rfl fun u _ => e u, sum_add_distrib, ← sum_mul, sum_boole, sum_const, card_range, nsmul_eq_mul]
  unfold marked
  push_cast
  ring

theorem marked_le (n : ℕ) (f : ℕ → Bool) : (marked n f : ℝ) ≤ 2 ^ n := by
  have h : marked n f ≤ (range (2 ^ n)).card := card_filter_le _ _
  rw [card_range] at h
  exact_mod_cast h

theorem step_two {n : ℕ} {f : ℕ → Bool} {α : ℕ → ℝ} {a b : ℝ} (h : ∀ s < 2 ^ n, α s = if f s = true then a else b) (s : ℕ) (hs : s < 2 ^ n) :
    groverStep n f α s = if f s = true then -a - 2 * ((2 ^ n - marked n f) * b - marked n f * a) / 2 ^ n
      else b - 2 * ((2 ^ n - marked n f) * b - marked n f * a) / 2 ^ n := by
  have e : ∀ u ∈ range (2 ^ n), (-1 : ℝ) ^ (f u).toNat * α u = if f u = true then -a else b := fun u hu => by
    rw [h u (mem_range.mp hu)]
    cases f u <;> simp
  unfold groverStep
  rw [sum_congr rfl e, e s (mem_range.mpr hs), sum_two]
  split <;> ring

/-- the angle of Grover's search -/
noncomputable def groverAngle (n : ℕ) (f : ℕ → Bool) : ℝ := Real.arcsin (Real.sqrt (marked n f / 2 ^ n))

theorem frac_le (n : ℕ) (f : ℕ → Bool) : 0 ≤ (marked n f : ℝ) / 2 ^ n ∧ (marked n f : ℝ) / 2 ^ n ≤ 1 :=
  ⟨by positivity, by rw [div_le_one (by positivity)]; exact marked_le n f⟩

theorem sin_angle (n : ℕ) (f : ℕ → Bool) : Real.sin (groverAngle n f) = Real.sqrt (marked n f) / Real.sqrt (2 ^ n) := by
  have h := frac_le n f
  unfold groverAngle
  rw [Real.sin_arcsin (by linarith [Real.sqrt_nonneg ((marked n f : ℝ) / 2 ^ n)]) (Real.sqrt_le_one.mpr h.2), Real.sqrt_div (by positivity)]

theorem cos_angle (n : ℕ) (f : ℕ → Bool) : Real.cos (groverAngle n f) = Real.sqrt (2 ^ n - marked n f) / Real.sqrt (2 ^ n) := by
  have h := frac_le n f
  unfold groverAngle
  rw [Real.cos_arcsin, Real.sq_sqrt h.1, ← Real.sqrt_div (by linarith [marked_le n f])]
  congr 1
  field_simp

theorem rounds_two {n : ℕ} (f : ℕ → Bool) (k : ℕ) : ∀ s < 2 ^ n, (groverStep n f)^[k] (fun _ => 1 / Real.sqrt (2 ^ n)) s =
    if f s = true then (-1) ^ k * (Real.sin ((2 * k + 1) * groverAngle n f) / Real.sqrt (marked n f))
      else (-1) ^ k * (Real.cos ((2 * k + 1) * groverAngle n f) / Real.sqrt (2 ^ n - marked n f)) := by
  have hN : (0 : ℝ) < Real.sqrt (2 ^ n) := Real.sqrt_pos.mpr (by positivity)
  have hp : ∀ s < 2 ^ n, f s = true → 0 < Real.sqrt (marked n f) := fun s hs h => by
    refine Real.sqrt_pos.mpr (Nat.cast_pos.mpr (card_pos.mpr ⟨s, ?_⟩))
    simp [hs, h]
  have hq : ∀ s < 2 ^ n, ¬ f s = true → 0 < Real.sqrt (2 ^ n - marked n f) := fun s hs h => by
    refine Real.sqrt_pos.mpr ?_
    have : marked n f < (range (2 ^ n)).card := card_lt_card (filter_ssubset.mpr ⟨s, mem_range.mpr hs, h⟩)
    rw [card_range] at this
    have : (marked n f : ℝ) < 2 ^ n := by exact_mod_cast this
    linarith
  induction k with
  | zero =>
    intro s hs
    simp only [Function.iterate_zero, id, pow_zero, one_mul, Nat.cast_zero, mul_zero, zero_add, sin_angle, cos_angle]
    split
    · rename_i h
      have := (hp s hs h).ne'
      field_simp
    · rename_i h
      have := (hq s hs h).ne'
      field_simp
  | succ k ih =>
    intro s hs
    rw [Function.iterate_succ_apply', step_two ih s hs]
    have e1 : (marked n f : ℝ) * ((-1) ^ k * (Real.sin ((2 * k + 1) * groverAngle n f) / Real.sqrt (marked n f))) =
        (-1) ^ k * (Real.sqrt (marked n f) * Real.sin ((2 * k + 1) * groverAngle n f)) := by
      linear_combination (-1) ^ k * Real.sin ((2 * k + 1) * groverAngle n f) * Real.div_sqrt (x := (marked n f : ℝ))
    have e2 : ((2 : ℝ) ^ n - marked n f) * ((-1) ^ k * (Real.cos ((2 * k + 1) * groverAngle n f) / Real.sqrt (2 ^ n - marked n f))) =
        (-1) ^ k * (Real.sqrt (2 ^ n - marked n f) * Real.cos ((2 * k + 1) * groverAngle n f)) := by
      linear_combination (-1) ^ k * Real.cos ((2 * k + 1) * groverAngle n f) * Real.div_sqrt (x := ((2 : ℝ) ^ n - marked n f))
    rw [e1, e2]
    have hm : Real.sqrt (marked n f) = Real.sin (groverAngle n f) * Real.sqrt (2 ^ n) := by rw [sin_angle]; field_simp
    have hu : Real.sqrt (2 ^ n - marked n f) = Real.cos (groverAngle n f) * Real.sqrt (2 ^ n) := by rw [cos_angle]; field_simp
    have hs2 : Real.sqrt (2 ^ n) * Real.sqrt (2 ^ n) = (2 : ℝ) ^ n := Real.mul_self_sqrt (by positivity)
    rw [show ((2 : ℝ) * (k + 1 : ℕ) + 1) * groverAngle n f = (2 * k + 1) * groverAngle n f + 2 * groverAngle n f by push_cast; ring]
    generalize hφ : ((2 : ℝ) * k + 1) * groverAngle n f = φ
    have hp' := hp s hs
    have hq' := hq s hs
    rw [hm] at hp' ⊢
    rw [hu] at hq' ⊢
    clear ih e1 e2 hp hq
    generalize groverAngle n f = θ at *
    generalize Real.sqrt (2 ^ n) = R at *
    rw [← hs2]
    have hsc := Real.sin_sq_add_cos_sq θ
    split
    · rename_i h
      have h1 : Real.sin θ ≠ 0 := fun h0 => by have := hp' h; rw [h0, zero_mul] at this; exact lt_irrefl _ this
      rw [Real.sin_add, Real.sin_two_mul, Real.cos_two_mul]
      field_simp
      rw [pow_succ]
      linear_combination (-1) ^ k * 2 * Real.sin φ * hsc
    · rename_i h
      have h1 : Real.cos θ ≠ 0 := fun h0 => by have := hq' h; rw [h0, zero_mul] at this; exact lt_irrefl _ this
      rw [Real.cos_add, Real.sin_two_mul, Real.cos_two_mul]
      field_simp
      rw [pow_succ]
      ring

/-- the state at the end -/
theorem grover_wave {n : ℕ} {f : ℕ → Bool} {o : Prog} (ho : Computes n f o) (k : ℕ) :
    (groverProg o k).wave false [List.range n, [n]] (fun _ => false) = combW n ((groverStep n f)^[k] fun _ => 1 / Real.sqrt (2 ^ n)) := by
  have f0 : groupReg [List.range n, [n]] [(0, none)] = List.range n := groupReg_all _ 0
  have f1 : groupReg [List.range n, [n]] [(1, none)] = [n] := groupReg_all _ 1
  have hl : ∀ (g : Named) (r : Reg), lift (fun x => eachW g.mat r (ket x)) = eachW g.mat r := fun g r => wave_ext fun x => lift_ket _ _
  have h0 : (0 : ℕ) < 2 ^ n := by positivity
  have hi : (1 / Real.sqrt 2) ^ n = 1 / Real.sqrt (2 ^ n) := by
    rw [div_pow, one_pow]
    congr 1
    rw [eq_comm, Real.sqrt_eq_iff_mul_self_eq (by positivity) (by positivity), ← mul_pow, Real.mul_self_sqrt (by norm_num)]
  rw [← grover_rounds ho]
  simp only [groverProg, Prog.wave, Lines.wave, lift_eq, List.map_cons, List.map_nil, f0, f1, Method.wave, Bool.false_eq_true, if_false, eachW_single]
  have hA : ∀ (A : Wave →ₗ[ℂ] Wave) (U : Asg → Wave) (ψ : Wave), lift (fun x => A (U x)) ψ = A (lift U ψ) := fun A U ψ => by
    rw [← LinearMap.comp_apply]
    congr 1
    exact wave_ext fun x => by rw [LinearMap.comp_apply, lift_ket, lift_ket]
  have hk : ∀ ψ, lift (fun x => ket x) ψ = ψ := fun ψ => by rw [show (fun x => ket x) = ket from rfl, lift_ket_id]; rfl
  simp only [hA, hk]
  rw [minus_start, minus_comb n 0 h0, hadamard_comb]
  congr 1
  refine comb_congr fun s _ => ?_
  rw [sum_eq_single 0, hi]
  · simp [dot]
  · intro u _ hu; simp [hu]
  · intro h; exact absurd (mem_range.mpr h0) h

theorem grover_takes {n : ℕ} (hn : 0 < n) {f : ℕ → Bool} {o : Prog} (ho : Computes n f o) (k : ℕ) :
    (groverProg o k).Takes false [List.range n, [n]] := by
  have f0 : groupReg [List.range n, [n]] [(0, none)] = List.range n := groupReg_all _ 0
  have f1 : groupReg [List.range n, [n]] [(1, none)] = [n] := groupReg_all _ 1
  have hr : List.range n ≠ [] := by simp; omega
  have hk : (groverLines o k).Takes false [List.range n, [n]] := by
    induction k with
    | zero => simp only [groverLines, Lines.Takes]
    | succ k ih =>
      simp only [groverLines, Lines.Takes, List.map_cons, List.map_nil, f0, f1, Prog.Takes, Method.Takes]
      refine ⟨valid_both hn, ho.takes, valid_in hn, ⟨hr, by simp⟩, valid_both hn, by simp, valid_in hn, ⟨hr, by simp⟩, ih⟩
  simp only [groverProg, Prog.Takes, Lines.Takes, List.map_cons, List.map_nil, f0, f1, Method.Takes]
  exact ⟨by simp; omega, valid_out, by simp, valid_out, by simp, valid_in hn, ⟨hr, by simp⟩, hk⟩

end Verif
