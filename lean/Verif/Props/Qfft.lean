import Verif.Proofs.Qfft
import Verif.Proofs.Add2

/-!
# Property C52: the quantum Fourier transform

`qfft` rotates through a conditioned builder, whose rotations ignore the condition (C37), and by angles without the
factor π (C34). What it computes is a product of one-qubit gates followed by a reversal of the register.
-/

namespace Verif.Props
open Complex Finset

/-- the quantum Fourier transform of the value of the register `r` -/
noncomputable def qftW (r : Reg) (x : Asg) : Wave :=
  (1 / (Real.sqrt 2 : ℂ)) ^ r.length • ∑ v ∈ range (2 ^ r.length), exp (2 * Real.pi * I * (valQ r x) * v / 2 ^ r.length) • ket (putVal r v x)

/-- C52 as stated -/
def C52_claim : Prop :=
  ∀ (s : LocalBuilder) (r : Reg) (L : List ℕ), r ≠ [] → Own s (r ++ L) → Does rotAngle (qfft r) s r (r ++ L) (qftW r)

theorem qfftAngle_rot (m : ℕ) : qfftAngle rotAngle m = 1 - 1 / 2 ^ m := by
  induction m with
  | zero => simp [qfftAngle]
  | succ m ih =>
    unfold qfftAngle at ih ⊢
    rw [sum_range_succ, ih]
    simp only [rotAngle]
    push_cast
    rw [pow_succ]
    field_simp
    ring

/-- what `qfft` does, for all angles the rotation objects may stand for -/
theorem qfft_does (ang : Rot → ℝ) (s : LocalBuilder) (r : Reg) (L : List ℕ) (hr : r ≠ []) (ho : Own s (r ++ L)) :
    Does ang (qfft r) s r (r ++ L) (fun x => runW ang (qfftColsSeg r ++ qfftSwapsSeg r) (ket x)) := by
  have hn : r.Nodup := (List.nodup_append.mp (List.nodup_append.mp ho.nodup).1).1
  exact (qfft_emits r hr hn).does ang ho (segOK_qfft ho r hn (by simp; tauto))

open Classical in
/-- What `qfft` computes: the amplitude of `|y⟩` in the image of `|x⟩` is a product over the qubits, in which qubit `i`
of the input meets qubit `n - 1 - i` of the output only: it is rotated by `1 - 2^-(n-1-i)` radians and gets a Hadamard
gate. -/
theorem C52_exact_partial (s : LocalBuilder) (r : Reg) (L : List ℕ) (hr : r ≠ []) (ho : Own s (r ++ L)) :
    ∃ U, Does rotAngle (qfft r) s r (r ++ L) U ∧ ∀ x y, U x y =
      if ∀ q, q ∉ r → y q = x q then
        ∏ i ∈ range r.length,
          exp ((1 - 1 / 2 ^ (r.length - 1 - i)) * (((x (r.getD i 0)).toNat : ℂ) - 1 / 2) * I) * (1 / Real.sqrt 2) *
            (if x (r.getD i 0) = true ∧ y (r.getD (r.length - 1 - i) 0) = true then -1 else 1)
      else 0 := by
  have hn : r.Nodup := (List.nodup_append.mp (List.nodup_append.mp ho.nodup).1).1
  refine ⟨_, qfft_does rotAngle s r L hr ho, fun x y => ?_⟩
  rw [qfft_amp rotAngle r hn]
  refine if_congr Iff.rfl ?_ rfl
  rw [qfftColAmp_prod]
  refine prod_congr rfl fun i hi => ?_
  rw [mem_range] at hi
  rw [qfftAngle_rot]
  unfold qfftFactor
  have e : revQ r y (r.getD i 0) = y (r.getD (r.length - 1 - i) 0) := by
    rw [List.getD_eq_getElem _ _ hi, List.getD_eq_getElem _ _ (by omega), revQ_get r hn y i hi]
  rw [e]
  push_cast
  rfl

theorem qfftFactor_sq (θ : ℝ) (b c c' : Bool) : qfftFactor θ b c ^ 2 = qfftFactor θ b c' ^ 2 := by
  unfold qfftFactor
  cases b <;> cases c <;> cases c' <;> simp

theorem qfftFactor_ne (θ : ℝ) (b c : Bool) : qfftFactor θ b c ≠ 0 := by
  unfold qfftFactor
  have h2 : (1 / (Real.sqrt 2 : ℂ)) ≠ 0 := by simp
  refine mul_ne_zero (mul_ne_zero (exp_ne_zero _) h2) ?_
  split <;> simp

theorem qfftColAmp_sq (ang : Rot → ℝ) (r : Reg) (x y z : Asg) : qfftColAmp ang r x y ^ 2 = qfftColAmp ang r x z ^ 2 := by
  induction r with
  | nil => rfl
  | cons q r ih => rw [qfftColAmp, qfftColAmp, mul_pow, mul_pow, ih, qfftFactor_sq _ _ (y q) (z q)]

theorem qfftColAmp_ne (ang : Rot → ℝ) (r : Reg) (x y : Asg) : qfftColAmp ang r x y ≠ 0 := by
  induction r with
  | nil => exact one_ne_zero
  | cons q r ih => exact mul_ne_zero (qfftFactor_ne _ _ _) ih

theorem qfftColAmp_norm (ang : Rot → ℝ) (r : Reg) (x y : Asg) : ‖qfftColAmp ang r x y‖ ^ 2 = 1 / 2 ^ r.length := by
  induction r with
  | nil => simp [qfftColAmp]
  | cons q r ih =>
    rw [qfftColAmp, norm_mul, mul_pow, ih, List.length_cons]
    have h : ‖qfftFactor (qfftAngle ang r.length) (x q) (y q)‖ ^ 2 = 1 / 2 := by
      unfold qfftFactor
      have e1 : ‖exp ((qfftAngle ang r.length : ℂ) * (((x q).toNat : ℂ) - 1 / 2) * I)‖ = 1 := by
        have := norm_exp_ofReal_mul_I (qfftAngle ang r.length * (((x q).toNat : ℝ) - 1 / 2))
        push_cast at this
        exact this
      have e2 : ‖(if x q = true ∧ y q = true then (-1 : ℂ) else 1)‖ = 1 := by split <;> simp
      have e3 : ‖(1 / (Real.sqrt 2 : ℂ))‖ ^ 2 = 1 / 2 := by
        rw [norm_div, norm_one, norm_real, Real.norm_of_nonneg (Real.sqrt_nonneg 2), div_pow, Real.sq_sqrt (by norm_num)]
        norm_num
      rw [norm_mul, norm_mul, e1, e2, one_mul, mul_one, e3]
    rw [h, pow_succ]
    field_simp

open Classical in
/-- What `qfft` has in common with the Fourier transform: from a basis state all values of the register are equally
likely. -/
theorem C52_uniform_partial (s : LocalBuilder) (r : Reg) (L : List ℕ) (hr : r ≠ []) (ho : Own s (r ++ L)) :
    ∃ U, Does rotAngle (qfft r) s r (r ++ L) U ∧ ∀ x y, ‖U x y‖ ^ 2 = if ∀ q, q ∉ r → y q = x q then 1 / 2 ^ r.length else 0 := by
  have hn : r.Nodup := (List.nodup_append.mp (List.nodup_append.mp ho.nodup).1).1
  refine ⟨_, qfft_does rotAngle s r L hr ho, fun x y => ?_⟩
  rw [qfft_amp rotAngle r hn]
  by_cases h : ∀ q, q ∉ r → y q = x q
  · rw [if_pos h, if_pos h, qfftColAmp_norm]
  · rw [if_neg h, if_neg h]; simp

theorem putVal_val (r : Reg) (hn : r.Nodup) (x y : Asg) (h : ∀ q, q ∉ r → y q = x q) : putVal r (valQ r y) x = y := by
  funext q
  by_cases hq : q ∈ r
  · have := valQ_inj r (putVal r (valQ r y) x) y (valQ_putVal r hn _ (valQ_lt r y) x) q hq
    exact this
  · unfold putVal
    rw [if_neg hq, h q hq]

open Classical in
/-- the amplitudes of the Fourier transform -/
theorem qftW_amp (r : Reg) (hn : r.Nodup) (x y : Asg) :
    qftW r x y = if ∀ q, q ∉ r → y q = x q then
      (1 / (Real.sqrt 2 : ℂ)) ^ r.length * exp (2 * Real.pi * I * (valQ r x) * (valQ r y) / 2 ^ r.length) else 0 := by
  unfold qftW
  rw [Finsupp.smul_apply, Finsupp.finset_sum_apply, smul_eq_mul]
  by_cases h : ∀ q, q ∉ r → y q = x q
  · rw [if_pos h, sum_eq_single (valQ r y)]
    · rw [Finsupp.smul_apply, ket_apply, if_pos (putVal_val r hn x y h), smul_eq_mul, mul_one]
    · intro v hv hne
      rw [Finsupp.smul_apply, ket_apply, if_neg, smul_zero]
      rintro rfl
      exact hne (valQ_putVal r hn v (mem_range.mp hv) x).symm
    · intro hc
      exact absurd (mem_range.mpr (valQ_lt r y)) hc
  · rw [if_neg h, sum_eq_zero, mul_zero]
    intro v _
    rw [Finsupp.smul_apply, ket_apply, if_neg, smul_zero]
    rintro rfl
    apply h
    intro q hq
    unfold putVal
    rw [if_neg hq]

/-- For two or more qubits `qfft` is not the Fourier transform, whichever end of the register is the low one, whatever
the angles the rotation objects stand for, and not even if every basis state may get a factor of its own. -/
theorem C52_never (ang : Rot → ℝ) (s : LocalBuilder) (r r' : Reg) (L : List ℕ) (hr : 2 ≤ r.length) (ho : Own s (r ++ L)) (h' : r' = r ∨ r' = r.reverse)
    (c : Asg → ℂ) : ¬ Does ang (qfft r) s r (r ++ L) (fun x => c x • qftW r' x) := by
  classical
  intro hd
  have hn : r.Nodup := (List.nodup_append.mp (List.nodup_append.mp ho.nodup).1).1
  have hne : r ≠ [] := by rintro rfl; simp at hr
  have hmem : ∀ q, q ∈ r' ↔ q ∈ r := by rcases h' with rfl | rfl <;> simp
  have hlen : r'.length = r.length := by rcases h' with rfl | rfl <;> simp
  have hn' : r'.Nodup := by rcases h' with rfl | rfl <;> simp [hn]
  obtain ⟨q, r1, hq⟩ : ∃ q r1, r' = q :: r1 := by
    cases r' with
    | nil => simp at hlen; omega
    | cons q r1 => exact ⟨q, r1, rfl⟩
  let x : Asg := setQ q true fun _ => false
  let y : Asg := fun _ => false
  have hqr : q ∈ r := by rw [← hmem, hq]; simp
  have hx : Clean s x := by
    intro p hp
    have : p ≠ q := by
      rintro rfl
      rcases hp with h | h
      · exact (List.nodup_append.mp ho.nodup).2.2 p (by simp [hqr]) p h rfl
      · have := ho.lt p (by simp [hqr])
        omega
    exact setQ_ne this _ _
  have e := does_unique hd (qfft_does ang s r L hne ho) x hx
  have vy : ∀ l : Reg, valQ l y = 0 := by
    intro l
    induction l with
    | nil => rfl
    | cons p l ih => rw [valQ, ih]; rfl
  have vx : valQ r' x = 1 := by
    have hq1 : q ∉ r1 := by rw [hq] at hn'; exact (List.nodup_cons.mp hn').1
    rw [hq, valQ, valQ_congr r1 x y fun p hp => setQ_ne (by rintro rfl; exact hq1 hp) _ _, vy, show x q = true from setQ_eq _ _ _]
    rfl
  have ox : ∀ p, p ∉ r → x p = x p := fun _ _ => rfl
  have oy : ∀ p, p ∉ r → y p = x p := fun p hp => (setQ_ne (by rintro rfl; exact hp hqr) _ _).symm
  have ex := DFunLike.congr_fun e x
  have ey := DFunLike.congr_fun e y
  rw [Finsupp.smul_apply, qftW_amp r' hn', if_pos (fun p _ => rfl), vx, qfft_amp ang r hn, if_pos ox, smul_eq_mul] at ex
  rw [Finsupp.smul_apply, qftW_amp r' hn', if_pos (fun p hp => oy p (by rw [← hmem]; exact hp)), vx, vy, qfft_amp ang r hn, if_pos oy, smul_eq_mul] at ey
  have hsq := qfftColAmp_sq ang r x (revQ r x) (revQ r y)
  have hnz := qfftColAmp_ne ang r x (revQ r y)
  rw [← ex, ← ey] at hsq
  rw [← ey] at hnz
  simp only [Nat.cast_zero, mul_zero, zero_div, exp_zero, mul_one, Nat.cast_one] at hsq hnz
  rw [← mul_assoc, mul_pow, ← exp_nat_mul] at hsq
  have h1 : exp ((2 : ℕ) * (2 * Real.pi * I / 2 ^ r'.length)) = 1 := by
    have := pow_ne_zero 2 hnz
    exact mul_left_cancel₀ this (by rw [hsq, mul_one])
  rw [exp_eq_one_iff] at h1
  obtain ⟨k, hk⟩ := h1
  have hpi : (2 * (Real.pi : ℂ) * I) ≠ 0 := two_pi_I_ne_zero
  have h2 : (2 : ℂ) / 2 ^ r'.length = k := by
    apply mul_right_cancel₀ hpi
    rw [← hk]
    push_cast
    ring
  have h3 : (2 : ℂ) = k * 2 ^ r'.length := by
    rw [← h2]; field_simp
  have h4 : (2 : ℤ) = k * 2 ^ r'.length := by exact_mod_cast h3
  obtain ⟨m, hm⟩ : ∃ m, r'.length = m + 2 := ⟨r'.length - 2, by omega⟩
  rw [hm, pow_add] at h4
  have h5 : (4 : ℤ) ∣ 2 := ⟨k * 2 ^ m, by linarith⟩
  omega

/-- three qubits, one of them in the pool -/
def qftQubits : LocalBuilder := ⟨[], 3, [[1]], 0⟩

theorem qftQubits_own : Own qftQubits ([2, 0] ++ []) := ⟨by simp [qftQubits], by decide, by decide⟩

theorem C52_refuted : ¬ C52_claim := by
  intro h
  refine C52_never rotAngle qftQubits [2, 0] [2, 0] [] (by simp) qftQubits_own (.inl rfl) (fun _ => 1) ?_
  simpa using h qftQubits [2, 0] [] (by simp) qftQubits_own

/-- On one qubit `qfft` is the Fourier transform. -/
theorem C52_one_qubit_partial (s : LocalBuilder) (q : ℕ) (L : List ℕ) (ho : Own s ([q] ++ L)) :
    Does rotAngle (qfft [q]) s [q] ([q] ++ L) (qftW [q]) := by
  classical
  refine (qfft_does rotAngle s [q] L (by simp) ho).congr rfl (.refl _) fun x _ => ?_
  refine Finsupp.ext fun y => ?_
  rw [qfft_amp rotAngle [q] (by simp), qftW_amp [q] (by simp)]
  refine if_congr Iff.rfl ?_ rfl
  have e : revQ [q] y q = y q := revQ_get [q] (by simp) y 0 (by simp)
  simp only [qfftColAmp, e, List.length_nil, List.length_singleton, pow_one, mul_one, valQ, mul_zero, add_zero]
  unfold qfftFactor
  rw [qfftAngle_rot]
  cases x q <;> cases y q <;> simp
  rw [show 2 * (Real.pi : ℂ) * I / 2 = Real.pi * I by ring, exp_pi_mul_I]
  simp

example := C52_exact_partial qftQubits [2, 0] [] (by simp) qftQubits_own
example := C52_uniform_partial qftQubits [2, 0] [] (by simp) qftQubits_own
example := C52_never rotAngle qftQubits [2, 0] [0, 2] [] (by simp) qftQubits_own (.inr rfl)
example := C52_one_qubit_partial qftQubits 2 [0] qftQubits_own

end Verif.Props
