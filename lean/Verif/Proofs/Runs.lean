import Verif.Props.Born

/-! # Circuit elements on disjoint qubits -/

namespace Verif
open Complex Classical Finset

/-! ## commuting -/

theorem readQ_congr (idx : List ℕ) (x y : Asg) (h : ∀ q ∈ idx, x q = y q) : readQ idx x = readQ idx y := by
  induction idx using List.reverseRecOn with
  | nil => rfl
  | append_singleton l q ih => rw [readQ_snoc, readQ_snoc, ih fun p hp => h p (by simp [hp]), h q (by simp)]

theorem writeQ_comm (a b : List ℕ) (hd : List.Disjoint a b) (c d : ℕ) (x : Asg) :
    writeQ a c (writeQ b d x) = writeQ b d (writeQ a c x) := by
  funext q
  unfold writeQ
  by_cases ha : q ∈ a
  · have hb : q ∉ b := fun hb => hd ha hb
    simp [ha, hb]
  · simp [ha]

theorem gateW_comm (a b : List ℕ) (hd : List.Disjoint a b) (A B : ℕ → ℕ → ℂ) (ψ : Wave) :
    gateW a A (gateW b B ψ) = gateW b B (gateW a A ψ) := by
  suffices h : gateW a A ∘ₗ gateW b B = gateW b B ∘ₗ gateW a A from congrArg (fun L => L ψ) h
  apply wave_ext
  intro x
  simp only [LinearMap.comp_apply]
  rw [gateW_ket, gateW_ket, map_sum, map_sum]
  simp only [map_smul, gateW_ket, Finset.smul_sum, smul_smul]
  rw [sum_comm]
  refine sum_congr rfl fun r _ => sum_congr rfl fun s _ => ?_
  rw [writeQ_comm a b hd, mul_comm,
    readQ_congr a (writeQ b s x) x fun q hq => writeQ_not_mem _ _ _ _ fun hb => hd hq hb,
    readQ_congr b (writeQ a r x) x fun q hq => writeQ_not_mem _ _ _ _ fun ha => hd ha hq]

theorem entryW_comm (ang : Rot → ℝ) (e f : List ℕ × CObj) (hd : List.Disjoint e.1 f.1) (ψ : Wave) :
    entryW ang e (entryW ang f ψ) = entryW ang f (entryW ang e ψ) := by
  unfold entryW
  cases e.2.object with
  | meas _ => rfl
  | unitary u =>
    cases f.2.object with
    | meas _ => rfl
    | unitary w => exact gateW_comm _ _ hd _ _ _

/-- `projW` as a linear map -/
noncomputable def projL (r : Reg) (m : ℕ) : Wave →ₗ[ℂ] Wave where
  toFun := projW r m
  map_add' _ _ := Finsupp.filter_add
  map_smul' c ψ := projW_smul r m c ψ

theorem projW_on {r : Reg} {m : ℕ} {ψ : Wave} (h : On {y | valQ r y = m} ψ) : projW r m ψ = ψ := by
  ext x
  rw [projW_apply]
  split
  · rfl
  · next hx =>
    by_contra hc
    exact hx (on_iff.mp h x (Finsupp.mem_support_iff.mpr (Ne.symm hc)))

theorem projW_off {r : Reg} {m k : ℕ} {ψ : Wave} (h : On {y | valQ r y = k} ψ) (hk : k ≠ m) : projW r m ψ = 0 := by
  ext x
  rw [projW_apply]
  split
  · next hx =>
    by_contra hc
    exact hk ((on_iff.mp h x (Finsupp.mem_support_iff.mpr hc)).symm.trans hx)
  · rfl

theorem proj_on (r : Reg) (m : ℕ) (ψ : Wave) : On {y | valQ r y = m} (projW r m ψ) := by
  rw [on_iff]
  intro y hy
  by_contra hc
  have hc' : ¬ valQ r y = m := hc
  rw [Finsupp.mem_support_iff, projW_apply, if_neg hc'] at hy
  exact hy rfl

/-- a gate on other qubits keeps the value of a register -/
theorem On.keeps {r : Reg} {m : ℕ} {ψ : Wave} (h : On {y | valQ r y = m} ψ) (ang : Rot → ℝ) (e : List ℕ × CObj)
    (hd : List.Disjoint e.1 r) : On {y | valQ r y = m} (entryW ang e ψ) := by
  refine h.entry ang e fun x hx c => ?_
  have hx' : valQ r x = m := hx
  show valQ r _ = m
  rw [← hx']
  exact valQ_congr _ _ _ fun q hq => writeQ_not_mem _ _ _ _ fun he => hd he hq

theorem proj_entry_comm (ang : Rot → ℝ) (e : List ℕ × CObj) (r : Reg) (hd : List.Disjoint e.1 r) (m : ℕ) (ψ : Wave) :
    projW r m (entryW ang e ψ) = entryW ang e (projW r m ψ) := by
  suffices h : projL r m ∘ₗ entryW ang e = entryW ang e ∘ₗ projL r m from congrArg (fun L => L ψ) h
  apply wave_ext
  intro x
  simp only [LinearMap.comp_apply]
  show projW r m (entryW ang e (ket x)) = entryW ang e (projW r m (ket x))
  have hk : On {y | valQ r y = valQ r x} (entryW ang e (ket x)) :=
    (On.ket (S := {y | valQ r y = valQ r x}) rfl).keeps ang e hd
  rw [Props.projW_ket]
  split
  · next h => rw [h] at hk; exact projW_on hk
  · next h => rw [map_zero]; exact projW_off hk h

theorem proj_proj_comm (r s : Reg) (m k : ℕ) (ψ : Wave) : projW r m (projW s k ψ) = projW s k (projW r m ψ) := by
  ext x
  simp only [projW_apply]
  split <;> split <;> rfl

/-! ## runs of composed circuits -/

theorem branchW_append (ang : Rot → ℝ) (p q : Pipeline) (ms ks : List ℕ) (hm : ms.length = measCount p) (ψ : Wave) :
    branchW ang (p ++ q) (ms ++ ks) ψ = branchW ang q ks (branchW ang p ms ψ) := by
  induction p generalizing ms ψ with
  | nil => rw [List.length_eq_zero_iff.mp hm]; rfl
  | cons e p ih =>
    unfold measCount at hm ih
    rw [List.countP_cons] at hm
    rw [List.cons_append]
    cases ho : e.2.object with
    | unitary u =>
      rw [branchW_unitary _ _ _ _ _ u ho, branchW_unitary _ _ _ _ _ u ho]
      exact ih _ (by simpa [isMeas, ho] using hm) _
    | meas o =>
      cases ms with
      | nil => simp [isMeas, ho] at hm
      | cons m ms =>
        rw [List.cons_append, branchW_meas _ _ _ _ _ _ _ ho, branchW_meas _ _ _ _ _ _ _ ho]
        exact ih _ (by simpa [isMeas, ho] using hm) _

theorem reportW_append (ang : Rot → ℝ) (p q : Pipeline) (ms ks : List ℕ) (hm : ms.length = measCount p) (ψ : Wave) :
    reportW ang (p ++ q) (ms ++ ks) ψ = reportW ang p ms ψ ++ reportW ang q ks (branchW ang p ms ψ) := by
  induction p generalizing ms ψ with
  | nil => rw [List.length_eq_zero_iff.mp hm]; rfl
  | cons e p ih =>
    unfold measCount at hm ih
    rw [List.countP_cons] at hm
    rw [List.cons_append]
    cases ho : e.2.object with
    | unitary u =>
      rw [branchW_unitary _ _ _ _ _ u ho, reportW_unitary _ _ _ _ _ u ho, reportW_unitary _ _ _ _ _ u ho]
      exact ih _ (by simpa [isMeas, ho] using hm) _
    | meas o =>
      cases ms with
      | nil => simp [isMeas, ho] at hm
      | cons m ms =>
        rw [List.cons_append, branchW_meas _ _ _ _ _ _ _ ho, reportW_meas _ _ _ _ _ _ _ ho, reportW_meas _ _ _ _ _ _ _ ho,
          List.cons_append]
        rw [ih _ (by simpa [isMeas, ho] using hm) _]

theorem drawSets_append (n : ℕ) (p q : Pipeline) (ms ks : List ℕ) (hm : ms.length = measCount p) (ψ : Wave) :
    drawSets n (p ++ q) (ms ++ ks) ψ = drawSets n p ms ψ ++ drawSets n q ks (branchW rotAngle p ms ψ) := by
  induction p generalizing ms ψ with
  | nil => rw [List.length_eq_zero_iff.mp hm]; rfl
  | cons e p ih =>
    unfold measCount at hm ih
    rw [List.countP_cons] at hm
    rw [List.cons_append]
    cases ho : e.2.object with
    | unitary u =>
      rw [branchW_unitary _ _ _ _ _ u ho]
      simp only [drawSets, ho]
      exact ih _ (by simpa [isMeas, ho] using hm) _
    | meas o =>
      cases ms with
      | nil => simp [isMeas, ho] at hm
      | cons m ms =>
        rw [branchW_meas _ _ _ _ _ _ _ ho]
        simp only [drawSets, ho, List.cons_append]
        rw [ih _ (by simpa [isMeas, ho] using hm) _]

theorem branch_low {n : ℕ} {p : Pipeline} (hp : ∀ e ∈ p, StepOK n e) (ms : List ℕ) {ψ : Wave} (h : On (Low n) ψ) :
    On (Low n) (branchW rotAngle p ms ψ) := by
  induction p generalizing ms ψ with
  | nil => exact h
  | cons e p ih =>
    have ih' := fun ms ψ h => ih (fun e' he' => hp e' (by simp [he'])) ms (ψ := ψ) h
    rcases hp e (by simp) with he | ⟨ho, -, -⟩
    · have hlt := he.1.1.2.1
      obtain ⟨-, -, u, hu, -⟩ := he.1
      rw [branchW_unitary _ _ _ _ _ u hu]
      exact ih' _ _ (h.entryLow e hlt)
    · cases ms with
      | nil => simp only [branchW, ho]; exact Submodule.zero_mem _
      | cons m ms => rw [branchW_meas _ _ _ _ _ _ _ ho]; exact ih' _ _ (h.proj _ _)

/-- a gate commutes with a circuit on other qubits -/
theorem branch_entry (ang : Rot → ℝ) (e : List ℕ × CObj) (q : Pipeline) (hd : ∀ f ∈ q, List.Disjoint e.1 f.1) (ms : List ℕ)
    (ψ : Wave) : branchW ang q ms (entryW ang e ψ) = entryW ang e (branchW ang q ms ψ) := by
  induction q generalizing ms ψ with
  | nil => rfl
  | cons f q ih =>
    have ih' := fun ms ψ => ih (fun e' he' => hd e' (by simp [he'])) ms ψ
    have hf := hd f (by simp)
    cases ho : f.2.object with
    | unitary u =>
      rw [branchW_unitary _ _ _ _ _ u ho, branchW_unitary _ _ _ _ _ u ho, entryW_comm ang f e hf.symm]
      exact ih' _ _
    | meas o =>
      cases ms with
      | nil => simp only [branchW, ho, map_zero]
      | cons m ms =>
        rw [branchW_meas _ _ _ _ _ _ _ ho, branchW_meas _ _ _ _ _ _ _ ho, proj_entry_comm ang e f.1 hf]
        exact ih' _ _

/-- so does a measurement with a given outcome -/
theorem branch_proj (ang : Rot → ℝ) (r : Reg) (k : ℕ) (q : Pipeline) (hd : ∀ f ∈ q, List.Disjoint r f.1) (ms : List ℕ)
    (ψ : Wave) : branchW ang q ms (projW r k ψ) = projW r k (branchW ang q ms ψ) := by
  induction q generalizing ms ψ with
  | nil => rfl
  | cons f q ih =>
    have ih' := fun ms ψ => ih (fun e' he' => hd e' (by simp [he'])) ms ψ
    have hf := hd f (by simp)
    cases ho : f.2.object with
    | unitary u =>
      rw [branchW_unitary _ _ _ _ _ u ho, branchW_unitary _ _ _ _ _ u ho, ← proj_entry_comm ang f r hf.symm]
      exact ih' _ _
    | meas o =>
      cases ms with
      | nil =>
        simp only [branchW, ho]
        exact (map_zero (projL r k)).symm
      | cons m ms =>
        rw [branchW_meas _ _ _ _ _ _ _ ho, branchW_meas _ _ _ _ _ _ _ ho, proj_proj_comm]
        exact ih' _ _

theorem On.branch {r : Reg} {m : ℕ} {ψ : Wave} (h : On {y | valQ r y = m} ψ) (ang : Rot → ℝ) (q : Pipeline)
    (hd : ∀ f ∈ q, List.Disjoint r f.1) (ms : List ℕ) : On {y | valQ r y = m} (branchW ang q ms ψ) := by
  rw [← projW_on h, branch_proj ang r m q hd]
  exact proj_on _ _ _

theorem normW_proj_sum (r : Reg) (ψ : Wave) : ∑ m ∈ range (2 ^ r.length), normW (projW r m ψ) = normW ψ := by
  have e : ∀ m, normW (projW r m ψ) = ∑ x ∈ ψ.support, if valQ r x = m then normSq (ψ x) else 0 := by
    intro m
    unfold normW Finsupp.sum
    refine Finset.sum_subset_zero_on_sdiff ?_ ?_ ?_
    · unfold projW; rw [Finsupp.support_filter]; exact Finset.filter_subset _ _
    · intro x hx
      have := (Finset.mem_sdiff.mp hx).2
      rw [Finsupp.notMem_support_iff, projW_apply] at this
      split
      · next h => rw [if_pos h] at this; rw [this]; simp
      · rfl
    · intro x hx
      have : valQ r x = m := on_iff.mp (proj_on r m ψ) x hx
      rw [if_pos this, projW_apply, if_pos this]
  simp only [e]
  rw [sum_comm]
  unfold normW Finsupp.sum
  refine sum_congr rfl fun x _ => ?_
  rw [sum_ite_eq, if_pos (mem_range.mpr (valQ_lt r x))]

end Verif
