import Verif.Spec.Born
import Verif.Proofs.Calc3
import Verif.Proofs.InvertFn
import Verif.Proofs.Grow
import Verif.Props.Measure

/-! # Runs of circuits with measurements -/

namespace Verif
open Complex Classical Finset MeasureTheory

/-! ## lengths of states -/

theorem normW_nonneg (ψ : Wave) : 0 ≤ normW ψ := Finset.sum_nonneg fun _ _ => normSq_nonneg _

theorem normW_zero : normW 0 = 0 := by simp [normW]

theorem normW_eq_zero {ψ : Wave} (h : normW ψ = 0) : ψ = 0 := by
  ext x
  by_contra hx
  have := (Finset.sum_eq_zero_iff_of_nonneg fun _ _ => normSq_nonneg _).mp h x (Finsupp.mem_support_iff.mpr hx)
  exact hx (normSq_eq_zero.mp this)

theorem normW_smul (c : ℂ) (ψ : Wave) : normW (c • ψ) = normSq c * normW ψ := by
  by_cases hc : c = 0
  · simp [hc, normW]
  · unfold normW Finsupp.sum
    rw [Finsupp.support_smul_eq hc, Finset.mul_sum]
    refine sum_congr rfl fun x _ => ?_
    rw [Finsupp.smul_apply, smul_eq_mul]
    exact normSq_mul _ _

theorem asg_low (n i : ℕ) : asg n i ∈ Low n := by
  intro q hq
  unfold asg
  simp [show ¬ q < n by omega]

theorem normW_low {n : ℕ} {ψ : Wave} (h : On (Low n) ψ) : normW ψ = ∑ i ∈ range (2 ^ n), normSq (ψ (asg n i)) := by
  unfold normW Finsupp.sum
  rw [← Finset.sum_image (s := range (2 ^ n)) (g := asg n) (f := fun x => normSq (ψ x))]
  · refine Finset.sum_subset ?_ ?_
    · intro x hx
      obtain ⟨j, hj, rfl⟩ := asg_surj n x (on_iff.mp h x hx)
      exact Finset.mem_image.mpr ⟨j, mem_range.mpr hj, rfl⟩
    · intro x _ hx
      rw [Finsupp.notMem_support_iff.mp hx]; simp
  · intro i hi j hj e
    exact asg_inj n i j (mem_range.mp hi) (mem_range.mp hj) e

theorem rep_amp {n : ℕ} {v : List ℂ} {ψ : Wave} (h : Rep n v ψ) (i : ℕ) (hi : i < 2 ^ n) : ampAt v 0 i = ψ (asg n i) := by
  unfold ampAt
  rw [if_neg (by omega), Nat.sub_zero, h.2 i hi]; rfl

theorem rep_prob {n : ℕ} {v : List ℂ} {ψ : Wave} (h : Rep n v ψ) (hψ : On (Low n) ψ) : probMagnitude v = normW ψ := by
  rw [probMagnitude_eq, h.1, normW_low hψ]
  exact sum_congr rfl fun i hi => by rw [rep_amp h i (mem_range.mp hi)]

theorem spells_valQ (n : ℕ) (r : Reg) (hr : ∀ q ∈ r, q < n) (m i : ℕ) (hm : m < 2 ^ r.length) :
    Spells n r m i ↔ valQ r (asg n i) = m := by
  rw [spells_iff _ _ _ _ hm, eq_comm]
  have : outcomeOf n r i = valQ r (asg n i) := by
    apply Nat.eq_of_testBit_eq
    intro j
    rw [testBit_valQ]
    by_cases h : j < r.length
    · rw [dif_pos h, ← spells_outcomeOf n r i j h]
      unfold asg
      simp [hr _ (List.getElem_mem h)]
    · rw [dif_neg h, Nat.testBit_lt_two_pow (lt_of_lt_of_le (outcomeOf_lt n r i) (Nat.pow_le_pow_right (by omega) (by omega)))]
  rw [this]

theorem On.proj {S : Set Asg} {ψ : Wave} (h : On S ψ) (r : Reg) (m : ℕ) : On S (projW r m ψ) := by
  rw [on_iff] at h ⊢
  intro y hy
  unfold projW at hy
  rw [Finsupp.support_filter] at hy
  exact h y (Finset.mem_filter.mp hy).1

theorem projW_apply (r : Reg) (m : ℕ) (ψ : Wave) (x : Asg) : projW r m ψ x = if valQ r x = m then ψ x else 0 := by
  unfold projW
  rw [Finsupp.filter_apply]

theorem projW_big (r : Reg) (m : ℕ) (hm : 2 ^ r.length ≤ m) (ψ : Wave) : projW r m ψ = 0 := by
  ext x
  rw [projW_apply, if_neg (by have := valQ_lt r x; omega)]; rfl

theorem projW_smul (r : Reg) (m : ℕ) (c : ℂ) (ψ : Wave) : projW r m (c • ψ) = c • projW r m ψ := by
  ext x
  rw [projW_apply, Finsupp.smul_apply, Finsupp.smul_apply, projW_apply]
  split <;> simp

theorem rep_born {n : ℕ} {v : List ℂ} {ψ : Wave} (h : Rep n v ψ) (hψ : On (Low n) ψ) (r : Reg) (hr : ∀ q ∈ r, q < n)
    (m : ℕ) (hm : m < 2 ^ r.length) : bornProb n r m (ampAt v 0) = normW (projW r m ψ) := by
  rw [normW_low (hψ.proj r m)]
  unfold bornProb
  rw [sum_filter]
  refine sum_congr rfl fun i hi => ?_
  rw [projW_apply, rep_amp h i (mem_range.mp hi)]
  by_cases hs : Spells n r m i
  · rw [if_pos hs, if_pos ((spells_valQ n r hr m i hm).mp hs)]
  · rw [if_neg hs, if_neg fun e => hs ((spells_valQ n r hr m i hm).mpr e)]; simp

/-- the vector of a state -/
noncomputable def vecW (n : ℕ) (ψ : Wave) : List ℂ := (List.range (2 ^ n)).map fun i => ψ (asg n i)

theorem rep_vecW (n : ℕ) (ψ : Wave) : Rep n (vecW n ψ) ψ := by
  refine ⟨by simp [vecW], fun i hi => ?_⟩
  simp [vecW, hi]

theorem On.entryLow {n : ℕ} {ψ : Wave} (h : On (Low n) ψ) {ang : Rot → ℝ} (e : List ℕ × CObj) (he : ∀ q ∈ e.1, q < n) :
    On (Low n) (entryW ang e ψ) := by
  refine h.entry ang e fun x hx c q hq => ?_
  rw [writeQ_not_mem _ _ _ _ fun hm => absurd (he q hm) (by omega)]
  exact hx q hq

theorem normW_entry {n : ℕ} {ψ : Wave} (h : On (Low n) ψ) (e : List ℕ × CObj) (he : SegU n e) :
    normW (entryW rotAngle e ψ) = normW ψ := by
  have hl : (vecW n ψ).length = 2 ^ n := (rep_vecW n ψ).1
  obtain ⟨s1, a1, a2, -, -⟩ := calcStep_unitary n (fun _ => 0) ⟨vecW n ψ, vecW n ψ, []⟩ ψ (rep_vecW n ψ) hl e he.1
  obtain ⟨s2, b1, -, -, b4⟩ := calcStep_prob n (fun _ => 0) ⟨vecW n ψ, vecW n ψ, []⟩ hl hl e he.1 he.2
  rw [a1] at b1
  cases b1
  rw [rep_prob a2 (h.entryLow e he.1.1.2.1), rep_prob (rep_vecW n ψ) h] at b4
  exact b4

theorem unitW_norm {ψ : Wave} (h : 0 < normW ψ) : normW (unitW ψ) = 1 := by
  unfold unitW
  rw [normW_smul, normSq_ofReal, div_mul_div_comm, Real.mul_self_sqrt h.le]
  field_simp

theorem On.unit {S : Set Asg} {ψ : Wave} (h : On S ψ) : On S (unitW ψ) := h.smul _

theorem entryW_unit {n : ℕ} {ψ : Wave} (h : On (Low n) ψ) (e : List ℕ × CObj) (he : SegU n e) :
    entryW rotAngle e (unitW ψ) = unitW (entryW rotAngle e ψ) := by
  unfold unitW
  rw [normW_entry h e he, map_smul]

/-! ## one measurement -/

theorem calcStep_measure (n : ℕ) (rnds : ℕ → ℝ) (st : CalcState) (ψ : Wave) (hψ : On (Low n) ψ) (hp : 0 < normW ψ)
    (hv : Rep n st.state (unitW ψ)) (ha : st.arena.length = 2 ^ n) (e : List ℕ × CObj)
    (ho : e.2.object = .meas .measurement) (hn : e.1.Nodup) (hi : ∀ q ∈ e.1, q < n)
    (h0 : 0 < rnds st.measurements.length) (h1 : rnds st.measurements.length < 1) :
    ∃ st' m, calcStep n rnds st e = some st' ∧
      softMeasure n e.1 (vecW n (unitW ψ)) none (rnds st.measurements.length) = some m ∧
      0 < normW (projW e.1 m ψ) ∧ Rep n st'.state (unitW (projW e.1 m ψ)) ∧ st'.arena.length = 2 ^ n ∧
      st'.measurements = st.measurements ++ [.single m (normW (projW e.1 m ψ) / normW ψ)] := by
  have hst : st.state = vecW n (unitW ψ) := rep_unique hv (rep_vecW n _)
  have hprob : probMagnitude st.state = 1 := by rw [rep_prob hv hψ.unit, unitW_norm hp]
  obtain ⟨m, m1, m2, m3⟩ := Props.C23_positive_partial n e.1 hi st.state none (by simp [hv.1]) (Or.inr hprob)
    (by rw [hprob]; exact one_pos) _ h0 h1
  simp only [Option.getD_none] at m3
  obtain ⟨out, o1, o2, o3, o4, -⟩ := Props.C22_collapse n m e.1 hn hi m2 st.state st.arena hv.1 ha
    (rnds st.measurements.length) m3.ne'
  have hb : bornProb n e.1 m (ampAt st.state 0) = normW (projW e.1 m ψ) / normW ψ := by
    rw [rep_born hv hψ.unit e.1 hi m m2]
    unfold unitW
    rw [projW_smul, normW_smul, normSq_ofReal, div_mul_div_comm, Real.mul_self_sqrt hp.le]
    ring
  rw [hb] at m3 o1 o4
  have hpos : 0 < normW (projW e.1 m ψ) := by
    have := mul_pos m3 hp
    rwa [div_mul_cancel₀ _ hp.ne'] at this
  refine ⟨{ state := out, arena := st.state, measurements := st.measurements ++ [.single m (normW (projW e.1 m ψ) / normW ψ)] },
    m, ?_, by rw [← hst]; exact m1, hpos, ⟨o2, ?_⟩, hv.1, rfl⟩
  · have hm : measure n e.1 st.state st.arena none none (rnds st.measurements.length) =
        some ((m, normW (projW e.1 m ψ) / normW ψ), out) := by
      rw [← o1]
      unfold measure
      simp only [Option.map_none, Option.bind_none, Option.bind_some, m1]
    unfold calcStep
    rw [ho]
    simp only
    rw [hm]; rfl
  · intro i hi'
    unfold unitW
    rw [Finsupp.smul_apply, projW_apply]
    by_cases hs : Spells n e.1 m i
    · rw [o4 i hi' hs, if_pos ((spells_valQ n e.1 hi m i m2).mp hs), rep_amp hv i hi']
      unfold unitW
      rw [Finsupp.smul_apply, smul_eq_mul, smul_eq_mul]
      have : (1 / Real.sqrt (normW ψ)) * (1 / Real.sqrt (normW (projW e.1 m ψ) / normW ψ)) =
          1 / Real.sqrt (normW (projW e.1 m ψ)) := by
        rw [Real.sqrt_div hpos.le]
        have h1 : Real.sqrt (normW ψ) ≠ 0 := (Real.sqrt_pos.mpr hp).ne'
        have h2 : Real.sqrt (normW (projW e.1 m ψ)) ≠ 0 := (Real.sqrt_pos.mpr hpos).ne'
        field_simp
      rw [← this]
      push_cast
      congr 1
      ring
    · rw [o3 i hi' hs, if_neg fun h => hs ((spells_valQ n e.1 hi m i m2).mpr h)]; simp

/-! ## a whole run -/

theorem branchW_unitary (ang : Rot → ℝ) (e : List ℕ × CObj) (p : Pipeline) (ms : List ℕ) (ψ : Wave) (u : UObj)
    (h : e.2.object = .unitary u) : branchW ang (e :: p) ms ψ = branchW ang p ms (entryW ang e ψ) := by
  simp only [branchW, h]

theorem branchW_meas (ang : Rot → ℝ) (e : List ℕ × CObj) (p : Pipeline) (m : ℕ) (ms : List ℕ) (ψ : Wave) (o : MObj)
    (h : e.2.object = .meas o) : branchW ang (e :: p) (m :: ms) ψ = branchW ang p ms (projW e.1 m ψ) := by
  simp only [branchW, h]

theorem reportW_unitary (ang : Rot → ℝ) (e : List ℕ × CObj) (p : Pipeline) (ms : List ℕ) (ψ : Wave) (u : UObj)
    (h : e.2.object = .unitary u) : reportW ang (e :: p) ms ψ = reportW ang p ms (entryW ang e ψ) := by
  simp only [reportW, h]

theorem reportW_meas (ang : Rot → ℝ) (e : List ℕ × CObj) (p : Pipeline) (m : ℕ) (ms : List ℕ) (ψ : Wave) (o : MObj)
    (h : e.2.object = .meas o) :
    reportW ang (e :: p) (m :: ms) ψ = normW (projW e.1 m ψ) / normW ψ :: reportW ang p ms (projW e.1 m ψ) := by
  simp only [reportW, h]

theorem reportW_length (ang : Rot → ℝ) (p : Pipeline) (ms : List ℕ) (ψ : Wave) (h : ms.length = measCount p) :
    (reportW ang p ms ψ).length = ms.length := by
  induction p generalizing ms ψ with
  | nil => rw [h]; rfl
  | cons e p ih =>
    unfold measCount at h ih
    rw [List.countP_cons] at h
    cases ho : e.2.object with
    | unitary u => rw [reportW_unitary _ _ _ _ _ u ho]; exact ih ms _ (by simpa [isMeas, ho] using h)
    | meas o =>
      cases ms with
      | nil => simp [isMeas, ho] at h
      | cons m ms =>
        rw [reportW_meas _ _ _ _ _ _ _ ho, List.length_cons, List.length_cons, ih ms _ (by simpa [isMeas, ho] using h)]

theorem branchW_zero (ang : Rot → ℝ) (p : Pipeline) (ms : List ℕ) : branchW ang p ms 0 = 0 := by
  induction p generalizing ms with
  | nil => rfl
  | cons e p ih =>
    cases ho : e.2.object with
    | unitary u => rw [branchW_unitary _ _ _ _ _ u ho, map_zero]; exact ih _
    | meas o =>
      cases ms with
      | nil => simp only [branchW, ho]
      | cons m ms =>
        rw [branchW_meas _ _ _ _ _ _ _ ho, show projW e.1 m (0 : Wave) = 0 from by ext x; rw [projW_apply]; simp]
        exact ih _

/-- the draws that make a run give the outcomes `ms`, measurement by measurement -/
noncomputable def drawSets (n : ℕ) : Pipeline → List ℕ → Wave → List (Set ℝ)
  | [], _, _ => []
  | e :: p, ms, ψ =>
    match e.2.object, ms with
    | .unitary _, ms => drawSets n p ms (entryW rotAngle e ψ)
    | .meas _, [] => []
    | .meas _, m :: ms =>
      {t | t ∈ Set.Ioo (0 : ℝ) 1 ∧ softMeasure n e.1 (vecW n (unitW ψ)) none t = some m} :: drawSets n p ms (projW e.1 m ψ)

theorem drawSets_length (n : ℕ) (p : Pipeline) (ms : List ℕ) (ψ : Wave) (h : ms.length = measCount p) :
    (drawSets n p ms ψ).length = measCount p := by
  induction p generalizing ms ψ with
  | nil => rfl
  | cons e p ih =>
    unfold measCount at h ih ⊢
    rw [List.countP_cons] at h ⊢
    cases ho : e.2.object with
    | unitary u =>
      rw [show isMeas e = false by simp [isMeas, ho]] at h ⊢
      simp only [drawSets, ho]
      exact ih ms _ (by simpa using h)
    | meas o =>
      rw [show isMeas e = true by simp [isMeas, ho]] at h ⊢
      cases ms with
      | nil => simp at h
      | cons m ms =>
        simp only [drawSets, ho, List.length_cons]
        rw [ih ms _ (by simpa using h)]; simp

/-- a run with draws in (0,1): it succeeds, its outcomes have positive probability, the state is the branch of these
outcomes; and it gives other outcomes exactly if some draw lies outside the sets of those outcomes -/
theorem run_branch (n : ℕ) (rnds : ℕ → ℝ) (hr : ∀ k, 0 < rnds k ∧ rnds k < 1) (p : Pipeline) (hp : ∀ e ∈ p, StepOK n e)
    (st : CalcState) (ψ : Wave) (hψ : On (Low n) ψ) (h0 : 0 < normW ψ) (hv : Rep n st.state (unitW ψ))
    (ha : st.arena.length = 2 ^ n) :
    ∃ st' ms, calcFold n rnds p st = some st' ∧ ms.length = measCount p ∧
      st'.measurements = st.measurements ++ List.zipWith MeasResult.single ms (reportW rotAngle p ms ψ) ∧
      0 < normW (branchW rotAngle p ms ψ) ∧ On (Low n) (branchW rotAngle p ms ψ) ∧
      Rep n st'.state (unitW (branchW rotAngle p ms ψ)) ∧ st'.arena.length = 2 ^ n ∧
      ∀ ms', ms'.length = measCount p →
        (ms' = ms ↔ ∀ j A, (drawSets n p ms' ψ)[j]? = some A → rnds (st.measurements.length + j) ∈ A) := by
  induction p generalizing st ψ with
  | nil =>
    refine ⟨st, [], rfl, rfl, by simp, h0, hψ, hv, ha, fun ms' h => ?_⟩
    rw [show ms' = [] from List.length_eq_zero_iff.mp h]
    simp [drawSets]
  | cons e p ih =>
    have hp' : ∀ e ∈ p, StepOK n e := fun e' he' => hp e' (by simp [he'])
    rcases hp e (by simp) with he | ⟨ho, hn, hi⟩
    · obtain ⟨s1, a1, a2, a3, a4⟩ := calcStep_unitary n rnds st _ hv ha e he.1
      rw [entryW_unit hψ e he] at a2
      obtain ⟨-, -, u, hu, -⟩ := he.1
      have hc : measCount (e :: p) = measCount p := by simp [measCount, isMeas, hu]
      obtain ⟨st', ms, b1, b2, b4, b5, b6, b7, b8, b9⟩ := ih hp' s1 _ (hψ.entryLow e he.1.1.2.1)
        (by rw [normW_entry hψ e he]; exact h0) a2 a3
      refine ⟨st', ms, ?_, by rw [hc]; exact b2, by rw [b4, a4, reportW_unitary _ _ _ _ _ u hu], ?_, ?_, ?_, b8, ?_⟩
      · rw [calcFold_cons, a1]; exact b1
      · rw [branchW_unitary _ _ _ _ _ u hu]; exact b5
      · rw [branchW_unitary _ _ _ _ _ u hu]; exact b6
      · rw [branchW_unitary _ _ _ _ _ u hu]; exact b7
      · intro ms' h'
        rw [b9 ms' (by rw [← hc]; exact h'), a4]
        have : drawSets n (e :: p) ms' ψ = drawSets n p ms' (entryW rotAngle e ψ) := by simp only [drawSets, hu]
        rw [this]
    · obtain ⟨s1, m, a1, a2, a3, a4, a5, a6⟩ := calcStep_measure n rnds st ψ hψ h0 hv ha e ho hn hi (hr _).1 (hr _).2
      have hc : measCount (e :: p) = measCount p + 1 := by simp [measCount, isMeas, ho]
      obtain ⟨st', ms, b1, b2, b4, b5, b6, b7, b8, b9⟩ := ih hp' s1 _ (hψ.proj e.1 m) a3 a4 a5
      refine ⟨st', m :: ms, ?_, by simp [hc, b2], ?_, ?_, ?_, ?_, b8, ?_⟩
      · rw [calcFold_cons, a1]; exact b1
      · rw [b4, a6, List.append_assoc, reportW_meas _ _ _ _ _ _ _ ho]; rfl
      · rw [branchW_meas _ _ _ _ _ _ _ ho]; exact b5
      · rw [branchW_meas _ _ _ _ _ _ _ ho]; exact b6
      · rw [branchW_meas _ _ _ _ _ _ _ ho]; exact b7
      · intro ms' h'
        cases ms' with
        | nil => rw [hc] at h'; simp at h'
        | cons m' ms' =>
          have hd : drawSets n (e :: p) (m' :: ms') ψ =
              {t | t ∈ Set.Ioo (0 : ℝ) 1 ∧ softMeasure n e.1 (vecW n (unitW ψ)) none t = some m'} ::
                drawSets n p ms' (projW e.1 m' ψ) := by simp only [drawSets, ho]
          rw [hd]
          have hlen : ms'.length = measCount p := by rw [hc] at h'; simpa using h'
          constructor
          · intro he
            obtain ⟨rfl, rfl⟩ := List.cons.inj he
            have h9 := (b9 ms' hlen).mp rfl
            rintro (_ | j) A hj
            · simp only [List.getElem?_cons_zero, Option.some.injEq] at hj
              rw [← hj]
              exact ⟨hr _, a2⟩
            · have := h9 j A (by simpa using hj)
              rw [a6, List.length_append, List.length_singleton] at this
              rw [show st.measurements.length + (j + 1) = st.measurements.length + 1 + j by omega]
              exact this
          · intro hall
            have h1 := (hall 0 _ rfl).2
            rw [Nat.add_zero, a2, Option.some.injEq] at h1
            subst h1
            congr 1
            rw [b9 ms' hlen]
            intro j A hj
            have := hall (j + 1) A (by simpa using hj)
            rw [a6, List.length_append, List.length_singleton]
            rw [show st.measurements.length + 1 + j = st.measurements.length + (j + 1) by omega]
            exact this

/-! ## the probability of a run -/

theorem drawSet_volume (n : ℕ) (r : Reg) (hi : ∀ q ∈ r, q < n) (ψ : Wave) (hψ : On (Low n) ψ) (h0 : 0 < normW ψ) (m : ℕ) :
    volume {t | t ∈ Set.Ioo (0 : ℝ) 1 ∧ softMeasure n r (vecW n (unitW ψ)) none t = some m} =
      ENNReal.ofReal (normW (projW r m ψ) / normW ψ) := by
  have hv := rep_vecW n (unitW ψ)
  have hprob : probMagnitude (vecW n (unitW ψ)) = 1 := by rw [rep_prob hv hψ.unit, unitW_norm h0]
  by_cases hm : m < 2 ^ r.length
  · have := Props.C23_born_rule n r hi (vecW n (unitW ψ)) none (by simp [hv.1]) (Or.inr hprob)
      (by rw [hprob]; exact one_pos) m hm
    rw [hprob, div_one, Option.getD_none, rep_born hv hψ.unit r hi m hm] at this
    have e : normW (projW r m (unitW ψ)) = normW (projW r m ψ) / normW ψ := by
      unfold unitW
      rw [projW_smul, normW_smul, normSq_ofReal, div_mul_div_comm, Real.mul_self_sqrt h0.le]
      ring
    rw [e] at this
    rw [← this]
    refine measure_congr ?_
    filter_upwards [compl_mem_ae_iff.mpr (show volume ({0} : Set ℝ) = 0 by simp)] with x hx
    apply propext
    change (x ∈ Set.Ioo 0 1 ∧ _) ↔ (x ∈ Set.Ico 0 1 ∧ _)
    simp only [Set.mem_compl_iff, Set.mem_singleton_iff] at hx
    constructor
    · rintro ⟨⟨a, b⟩, c⟩; exact ⟨⟨a.le, b⟩, c⟩
    · rintro ⟨⟨a, b⟩, c⟩; exact ⟨⟨lt_of_le_of_ne a (Ne.symm hx), b⟩, c⟩
  · rw [projW_big r m (by omega), normW_zero, zero_div, ENNReal.ofReal_zero]
    refine (congrArg volume (Set.eq_empty_iff_forall_notMem.mpr ?_)).trans measure_empty
    rintro t ⟨-, ht⟩
    rw [softMeasure_eq n r hi _ _ _ (Or.inr hprob), Option.some.injEq] at ht
    exact hm (ht ▸ outcomeOf_lt n r _)

theorem drawSets_volume (n : ℕ) (p : Pipeline) (hp : ∀ e ∈ p, StepOK n e) (ms : List ℕ) (hm : ms.length = measCount p)
    (ψ : Wave) (hψ : On (Low n) ψ) (h0 : 0 < normW ψ) :
    ((drawSets n p ms ψ).map volume).prod = ENNReal.ofReal (normW (branchW rotAngle p ms ψ) / normW ψ) := by
  induction p generalizing ms ψ with
  | nil => simp [drawSets, branchW, h0.ne']
  | cons e p ih =>
    have hp' : ∀ e ∈ p, StepOK n e := fun e' he' => hp e' (by simp [he'])
    rcases hp e (by simp) with he | ⟨ho, hn, hi⟩
    · obtain ⟨-, -, u, hu, -⟩ := he.1
      have hc : measCount (e :: p) = measCount p := by simp [measCount, isMeas, hu]
      have : drawSets n (e :: p) ms ψ = drawSets n p ms (entryW rotAngle e ψ) := by simp only [drawSets, hu]
      rw [this, branchW_unitary _ _ _ _ _ u hu, ih hp' ms (by rw [← hc]; exact hm) _ (hψ.entryLow e he.1.1.2.1)
        (by rw [normW_entry hψ e he]; exact h0), normW_entry hψ e he]
    · have hc : measCount (e :: p) = measCount p + 1 := by simp [measCount, isMeas, ho]
      cases ms with
      | nil => rw [hc] at hm; simp at hm
      | cons m ms =>
        have hd : drawSets n (e :: p) (m :: ms) ψ =
            {t | t ∈ Set.Ioo (0 : ℝ) 1 ∧ softMeasure n e.1 (vecW n (unitW ψ)) none t = some m} ::
              drawSets n p ms (projW e.1 m ψ) := by simp only [drawSets, ho]
        rw [hd, List.map_cons, List.prod_cons, drawSet_volume n e.1 hi ψ hψ h0 m, branchW_meas _ _ _ _ _ _ _ ho]
        rcases (normW_nonneg (projW e.1 m ψ)).eq_or_lt' with hz | hz
        · rw [hz, normW_eq_zero hz, branchW_zero, normW_zero]; simp
        · rw [ih hp' ms (by rw [hc] at hm; simpa using hm) _ (hψ.proj e.1 m) hz,
            ← ENNReal.ofReal_mul (div_nonneg (normW_nonneg _) (normW_nonneg _))]
          congr 1
          field_simp

/-! ## which circuits occur -/

/-- a gate other than a global phase, or a measurement -/
def Stepy (e : List ℕ × CObj) : Prop :=
  (∃ u, e.2.object = .unitary u ∧ ∀ ρ, u ≠ .GlobalPhase ρ) ∨ e.2.object = .meas .measurement

theorem Hist.stepy {s : LocalBuilder} {live : List Reg}
    (h : Hist (fun c => c.NoRepeat ∧ c.Sized ∧ (c.Gates ∨ ∃ r, c = .measure r)) s live) :
    Grow LocalBuilder.default s Stepy := by
  have key : ∀ {s : LocalBuilder} {live rest : List Reg},
      Hist (fun c => c.NoRepeat ∧ c.Sized ∧ (c.Gates ∨ ∃ r, c = .measure r)) s live → ∀ c : Call,
      (c.NoRepeat ∧ c.Sized ∧ (c.Gates ∨ ∃ r, c = .measure r)) → live.Perm (c.args ++ rest) →
      (∀ out s', c.run s = .ok out s' → Grow s s' Stepy) ∧ (∀ s', c.run s = .error .error s' → Grow s s' Stepy) := by
    intro s live rest h c hc hp
    obtain ⟨i1, i2⟩ := (h.mono (B := Call.NoRepeat) fun c hc => hc.1).own
    have hne : ∀ r ∈ c.args ++ rest, r ≠ [] := fun r hr => i2 r (hp.mem_iff.mpr hr)
    have how : Own s (c.args.flatten ++ rest.flatten) := by
      rw [← List.flatten_append]; exact i1.perm hp.flatten
    obtain ⟨h1, h2⟩ := Call.grows c hc.1 hc.2.1 s rest.flatten (fun r hr => hne r (by simp [hr])) how
    rcases hc.2.2 with hg | ⟨r, rfl⟩
    · have w : ∀ s', Grow s s' (Gatey c.Gates) → Grow s s' Stepy := by
        rintro s' ⟨a, seg, b, d, e⟩
        exact ⟨a, seg, b, fun e he => ⟨(d e he).1, (d e he).2.1, Or.inl ((d e he).2.2 hg)⟩, e⟩
      exact ⟨fun out s' he => w _ (h1 out s' he), fun s' he => w _ (h2 s' he)⟩
    · have e : (Call.measure r).run s = .ok [r] { s with
          pipeline := s.pipeline ++ [(r, ⟨r.length, .meas .measurement⟩)], measurements := s.measurements + 1 } := rfl
      refine ⟨fun out s' he => ?_, fun s' he => by rw [e] at he; cases he⟩
      obtain ⟨a, seg, b, d, m⟩ := h1 out s' he
      refine ⟨a, seg, b, fun e' he' => ⟨(d e' he').1, (d e' he').2.1, Or.inr ?_⟩, m⟩
      rw [e] at he
      cases he
      have := List.append_cancel_left b
      rw [← this, List.mem_singleton] at he'
      rw [he']
  induction h with
  | start => exact Grow.refl _ _
  | ok c h a b d ih => exact ih.trans ((key h c a b).1 _ _ d)
  | err c h a b d ih => exact ih.trans ((key h c a b).2 _ d)
  | drop _ _ ih => exact ih

end Verif
