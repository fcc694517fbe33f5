import Verif.Proofs.Born

/-!
# Property C76: circuits with measurements follow the Born rule

C76: measurements may be placed anywhere in a circuit. A sequence of outcomes occurs with the probability quantum
mechanics gives to it, each measurement reports the probability of its outcome given the earlier ones, and the state
returned is what the measurements leave, scaled to length 1.
-/

namespace Verif.Props
open Complex Classical MeasureTheory

/-- The circuits of C76 are those built by any history of calls that add gates other than global phases or measure. -/
theorem C76_reachable (s : LocalBuilder) (live : List Reg)
    (h : Hist (fun c => c.NoRepeat ∧ c.Sized ∧ (c.Gates ∨ ∃ r, c = .measure r)) s live) (hm : UnitaryMats s.pipeline) :
    (∀ e ∈ s.pipeline, StepOK s.n e) ∧ measCount s.pipeline = s.measurements := by
  obtain ⟨-, seg, h1, h2, h3⟩ := h.stepy
  have h1' : s.pipeline = seg := by rw [h1]; simp [LocalBuilder.default]
  refine ⟨fun e he => ?_, by rw [h1', h3]; simp [LocalBuilder.default]⟩
  obtain ⟨a, b, c⟩ := h2 e (h1' ▸ he)
  rcases c with ⟨u, hu, hg⟩ | c
  · exact Or.inl ⟨⟨a, b, u, hu, hg⟩, hm e he⟩
  · exact Or.inr ⟨c, a.1, a.2.1⟩

theorem normW_ket (x : Asg) : normW (ket x) = 1 := by
  unfold normW ket
  rw [Finsupp.sum_single_index] <;> simp

theorem unitW_ket (x : Asg) : unitW (ket x) = ket x := by
  unfold unitW
  rw [normW_ket]; simp

/-- the run of a builder's circuit -/
theorem run_calculate (b : LocalBuilder) (it : List (Reg × ℕ)) (h : ∀ p ∈ it, ∀ q ∈ p.1, q < b.n) (rnds : ℕ → ℝ) :
    ∃ st, b.calculateStateWithInit it rnds =
        (calcFold b.n rnds b.pipeline st).map (fun r => (r.state, r.measurements)) ∧
      st.measurements = [] ∧ Rep b.n st.state (unitW (ket (initAsg it))) ∧ st.arena.length = 2 ^ b.n ∧
      On (Low b.n) (ket (initAsg it)) := by
  obtain ⟨i, i1, i2, -, i4⟩ := calculate_eq b it h rnds
  refine ⟨calcInit b.n i, i4, rfl, ?_, by simp [calcInit, Nat.one_shiftLeft], ?_⟩
  · rw [unitW_ket, ← i2]
    have := rep_ket b.n i i1
    have e : (calcInit b.n i).state = bvec b.n i := by unfold calcInit bvec; rw [Nat.one_shiftLeft]
    rw [e]; exact this
  · rw [← i2]; exact On.ket (asg_low _ _)

theorem getMeasurement_zip (ms : List ℕ) (prs : List ℝ) (hl : prs.length = ms.length) (j m : ℕ) (pr : ℝ) :
    getMeasurement (List.zipWith MeasResult.single ms prs) j = some (m, pr) ↔ ms[j]? = some m ∧ prs[j]? = some pr := by
  unfold getMeasurement
  rw [List.getElem?_zipWith]
  cases h1 : ms[j]? with
  | none => simp
  | some m' =>
    have : j < prs.length := by rw [hl]; exact (List.getElem?_eq_some_iff.mp h1).1
    rw [List.getElem?_eq_getElem this]
    simp

/-- the run of a whole circuit -/
theorem run_all (b : LocalBuilder) (it : List (Reg × ℕ)) (h : ∀ p ∈ it, ∀ q ∈ p.1, q < b.n)
    (hp : ∀ e ∈ b.pipeline, StepOK b.n e) (rnds : ℕ → ℝ) (hr : ∀ k, 0 < rnds k ∧ rnds k < 1) :
    ∃ v ms, b.calculateStateWithInit it rnds =
        some (v, List.zipWith MeasResult.single ms (reportW rotAngle b.pipeline ms (ket (initAsg it)))) ∧
      ms.length = measCount b.pipeline ∧ 0 < normW (branchW rotAngle b.pipeline ms (ket (initAsg it))) ∧
      Rep b.n v (unitW (branchW rotAngle b.pipeline ms (ket (initAsg it)))) ∧
      ∀ ms', ms'.length = measCount b.pipeline →
        (ms' = ms ↔ ∀ j A, (drawSets b.n b.pipeline ms' (ket (initAsg it)))[j]? = some A → rnds j ∈ A) := by
  obtain ⟨st, s1, s2, s3, s4, s5⟩ := run_calculate b it h rnds
  obtain ⟨st', ms, a1, a2, a4, a5, -, a7, -, a9⟩ := run_branch b.n rnds hr b.pipeline hp st _ s5
    (by rw [normW_ket]; exact one_pos) s3 s4
  rw [s2, List.nil_append] at a4
  refine ⟨st'.state, ms, by rw [s1, a1, ← a4]; rfl, a2, a5, a7, fun ms' h' => ?_⟩
  rw [a9 ms' h', s2]
  simp

theorem gives_iff (b : LocalBuilder) (it : List (Reg × ℕ)) (rnds : ℕ → ℝ) (v : List ℂ) (ms : List ℕ) (prs : List ℝ)
    (hl : prs.length = ms.length)
    (h : b.calculateStateWithInit it rnds = some (v, List.zipWith MeasResult.single ms prs)) (ms' : List ℕ) :
    Outcomes b it rnds ms' ↔ ms' = ms := by
  constructor
  · rintro ⟨v, l, e1, e0, e2⟩
    rw [h] at e1
    cases e1
    rw [List.length_zipWith, hl, min_self] at e0
    refine List.ext_getElem e0.symm fun i h1 h2 => ?_
    obtain ⟨pr, e3⟩ := e2 i h1
    rw [getMeasurement_zip ms prs hl, List.getElem?_eq_getElem h2] at e3
    exact (Option.some.inj e3.1).symm
  · rintro rfl
    refine ⟨_, _, h, by rw [List.length_zipWith, hl, min_self], fun j hj => ⟨prs[j]'(by omega), ?_⟩⟩
    rw [getMeasurement_zip ms' prs hl]
    exact ⟨List.getElem?_eq_getElem hj, List.getElem?_eq_getElem _⟩

/-- Whatever numbers in (0,1) are drawn: the calculation succeeds, with one outcome per measurement. The outcomes found
together have a positive probability. Each measurement reports the probability of its outcome given the earlier
outcomes. The state returned is what the outcomes leave of the initial state, scaled to length 1. -/
theorem C76_state (b : LocalBuilder) (it : List (Reg × ℕ)) (h : ∀ p ∈ it, ∀ q ∈ p.1, q < b.n)
    (hp : ∀ e ∈ b.pipeline, StepOK b.n e) (rnds : ℕ → ℝ) (hr : ∀ k, 0 < rnds k ∧ rnds k < 1) :
    ∃ v l ms, b.calculateStateWithInit it rnds = some (v, l) ∧ l.length = measCount b.pipeline ∧
      ms.length = measCount b.pipeline ∧
      (∀ (j : ℕ) (hj : j < ms.length),
        ∃ pr, (reportW rotAngle b.pipeline ms (ket (initAsg it)))[j]? = some pr ∧ getMeasurement l j = some (ms[j], pr)) ∧
      0 < normW (branchW rotAngle b.pipeline ms (ket (initAsg it))) ∧
      Rep b.n v (unitW (branchW rotAngle b.pipeline ms (ket (initAsg it)))) := by
  obtain ⟨v, ms, a1, a2, a3, a4, -⟩ := run_all b it h hp rnds hr
  have hl := reportW_length rotAngle b.pipeline ms (ket (initAsg it)) a2
  refine ⟨v, _, ms, a1, ?_, a2, ?_, a3, a4⟩
  · rw [List.length_zipWith, hl, a2, min_self]
  · intro j hj
    refine ⟨(reportW rotAngle b.pipeline ms (ket (initAsg it)))[j]'(by omega), List.getElem?_eq_getElem _, ?_⟩
    rw [getMeasurement_zip ms _ hl]
    exact ⟨List.getElem?_eq_getElem hj, List.getElem?_eq_getElem _⟩

/-- The Born rule for a whole run: the probability that the measurements give the outcomes `ms` is the squared length
of what these outcomes leave of the initial state. -/
theorem C76_born_rule (b : LocalBuilder) (it : List (Reg × ℕ)) (h : ∀ p ∈ it, ∀ q ∈ p.1, q < b.n)
    (hp : ∀ e ∈ b.pipeline, StepOK b.n e) (ms : List ℕ) (hms : ms.length = measCount b.pipeline) :
    outcomeProb b it ms = ENNReal.ofReal (normW (branchW rotAngle b.pipeline ms (ket (initAsg it)))) := by
  have hlow : On (Low b.n) (ket (initAsg it)) := (run_calculate b it h fun _ => 0).choose_spec.2.2.2.2
  have hlen : (drawSets b.n b.pipeline ms (ket (initAsg it))).length = ms.length := by
    rw [drawSets_length _ _ _ _ hms, hms]
  have hvol := drawSets_volume b.n b.pipeline hp ms hms _ hlow (by rw [normW_ket]; exact one_pos)
  rw [normW_ket, div_one] at hvol
  have hpi : volume (Set.pi Set.univ fun j : Fin ms.length =>
      (drawSets b.n b.pipeline ms (ket (initAsg it)))[j.1]'(by omega)) =
      ENNReal.ofReal (normW (branchW rotAngle b.pipeline ms (ket (initAsg it)))) := by
    rw [volume_pi_pi, ← hvol, ← List.prod_ofFn]
    congr 1
    refine List.ext_getElem (by simp [hlen]) fun i h1 h2 => ?_
    simp
  unfold outcomeProb
  rw [← hpi]
  refine measure_congr ?_
  have hne : ∀ᵐ ω : Fin ms.length → ℝ, ∀ j, ω j ≠ 0 := by
    rw [ae_all_iff]
    intro j
    have := Measure.pi_hyperplane (fun _ : Fin ms.length => (volume : Measure ℝ)) j (0 : ℝ)
    rw [ae_iff]
    rw [volume_pi]; simpa using this
  filter_upwards [hne] with ω hω
  apply propext
  show ((∀ j, ω j ∈ Set.Ico (0 : ℝ) 1) ∧ _) ↔ ω ∈ Set.pi Set.univ _
  by_cases hbox : ∀ j, ω j ∈ Set.Ico (0 : ℝ) 1
  · have hr : ∀ j : ℕ, 0 < (if hj : j < ms.length then ω ⟨j, hj⟩ else 1 / 2) ∧
        (if hj : j < ms.length then ω ⟨j, hj⟩ else 1 / 2) < 1 := by
      intro j
      split
      · exact ⟨lt_of_le_of_ne (hbox _).1 (Ne.symm (hω _)), (hbox _).2⟩
      · norm_num
    obtain ⟨v, ms0, a1, a2, -, -, a5⟩ := run_all b it h hp _ hr
    rw [gives_iff b it _ v ms0 _ (reportW_length _ _ _ _ a2) a1, a5 ms hms]
    simp only [hbox, implies_true, true_and, Set.mem_pi, Set.mem_univ, forall_const]
    constructor
    · intro hA j
      have := hA j.1 _ (List.getElem?_eq_getElem (by omega))
      simpa using this
    · intro hA j A hj
      obtain ⟨hj1, rfl⟩ := List.getElem?_eq_some_iff.mp hj
      have := hA ⟨j, by omega⟩
      simpa [show j < ms.length by omega] using this
  · refine iff_of_false (fun hc => hbox hc.1) fun hc => hbox fun j => ?_
    have hA := hc j (Set.mem_univ _)
    have hsub : ∀ (p : Pipeline) (ms : List ℕ) (ψ : Wave), ∀ A ∈ drawSets b.n p ms ψ, A ⊆ Set.Ico (0 : ℝ) 1 := by
      intro p
      induction p with
      | nil => intro ms ψ A hA; simp [drawSets] at hA
      | cons e p ih =>
        intro ms ψ A hA
        cases ho : e.2.object with
        | unitary u => simp only [drawSets, ho] at hA; exact ih _ _ _ hA
        | meas o =>
          cases ms with
          | nil => simp [drawSets, ho] at hA
          | cons m ms =>
            simp only [drawSets, ho, List.mem_cons] at hA
            rcases hA with rfl | hA
            · intro t ht; exact ⟨ht.1.1.le, ht.1.2⟩
            · exact ih _ _ _ hA
    exact hsub _ _ _ _ (List.getElem_mem _) hA

/-- Other numbers of outcomes do not occur. -/
theorem C76_length (b : LocalBuilder) (it : List (Reg × ℕ)) (h : ∀ p ∈ it, ∀ q ∈ p.1, q < b.n)
    (hp : ∀ e ∈ b.pipeline, StepOK b.n e) (rnds : ℕ → ℝ) (hr : ∀ k, 0 < rnds k ∧ rnds k < 1) (ms : List ℕ)
    (hg : Outcomes b it rnds ms) : ms.length = measCount b.pipeline := by
  obtain ⟨v, ms0, a1, a2, -⟩ := run_all b it h hp _ hr
  rw [(gives_iff b it _ v ms0 _ (reportW_length _ _ _ _ a2) a1 ms).mp hg, a2]

/-- a circuit with two measurements: `h` on qubit 0, measure it, CNOT from qubit 0 to qubit 1, measure qubit 1 -/
def coinCopy : LocalBuilder :=
  ⟨[([0], ⟨1, .unitary .H⟩), ([0], ⟨1, .meas .measurement⟩), ([0, 1], ⟨2, .unitary .CNOT⟩), ([1], ⟨1, .meas .measurement⟩)],
    2, [], 2⟩

theorem coinCopy_ok : ∀ e ∈ coinCopy.pipeline, StepOK coinCopy.n e := by
  intro e he
  simp only [coinCopy, List.mem_cons, List.not_mem_nil, or_false] at he
  rcases he with rfl | rfl | rfl | rfl
  · exact Or.inl ⟨⟨⟨by simp, by simp [coinCopy], fun u hu => by cases hu; rfl⟩, rfl, _, rfl, by simp⟩, by simp⟩
  · exact Or.inr ⟨rfl, by simp, by simp [coinCopy]⟩
  · exact Or.inl ⟨⟨⟨by simp, by simp [coinCopy], fun u hu => by cases hu; rfl⟩, rfl, _, rfl, by simp⟩, by simp⟩
  · exact Or.inr ⟨rfl, by simp, by simp [coinCopy]⟩

theorem projW_ket (r : Reg) (m : ℕ) (x : Asg) : projW r m (ket x) = if valQ r x = m then ket x else 0 := by
  ext y
  rw [projW_apply]
  by_cases e : x = y
  · subst e; split <;> simp
  · split <;> split <;> simp [ket, e]

theorem projW_add (r : Reg) (m : ℕ) (ψ φ : Wave) : projW r m (ψ + φ) = projW r m ψ + projW r m φ := Finsupp.filter_add

theorem coinCopy_branch (m m' : ℕ) (hm : m < 2) :
    normW (branchW rotAngle coinCopy.pipeline [m, m'] (ket (initAsg []))) = if m = m' then 1 / 2 else 0 := by
  have hz : ∀ q, initAsg [] q = false := fun q => rfl
  have e0 : entryW rotAngle ([0], ⟨1, .unitary .H⟩) (ket (initAsg [])) =
      (1 / Real.sqrt 2 : ℂ) • ket (setQ 0 false (initAsg [])) + (1 / Real.sqrt 2 : ℂ) • ket (setQ 0 true (initAsg [])) := by
    have := h_ket (ang := rotAngle) 0 (initAsg [])
    simp only [hz] at this
    simpa [entryW, u1] using this
  have v0 : valQ [0] (setQ 0 false (initAsg [])) = 0 := by simp [valQ, setQ]
  have v1 : valQ [0] (setQ 0 true (initAsg [])) = 1 := by simp [valQ, setQ]
  have key : ∀ b : Bool, normW (branchW rotAngle coinCopy.pipeline [b.toNat, m'] (ket (initAsg []))) =
      if b.toNat = m' then 1 / 2 else 0 := by
    intro b
    have e1 : projW [0] b.toNat (entryW rotAngle ([0], ⟨1, .unitary .H⟩) (ket (initAsg []))) =
        (1 / Real.sqrt 2 : ℂ) • ket (setQ 0 b (initAsg [])) := by
      rw [e0, projW_add, projW_smul, projW_smul, projW_ket, projW_ket, v0, v1]
      cases b <;> simp
    have e2 : entryW rotAngle ([0, 1], ⟨2, .unitary .CNOT⟩) (ket (setQ 0 b (initAsg []))) =
        ket (if b then flipQ 1 (setQ 0 b (initAsg [])) else setQ 0 b (initAsg [])) := by
      have := cnot_ket (ang := rotAngle) 0 1 (by omega) (setQ 0 b (initAsg []))
      simpa [setQ, entryW] using this
    have v2 : valQ [1] (if b then flipQ 1 (setQ 0 b (initAsg [])) else setQ 0 b (initAsg [])) = b.toNat := by
      cases b <;> simp [valQ, setQ, flipQ, initAsg]
    show normW (projW [1] m' (entryW rotAngle ([0, 1], ⟨2, .unitary .CNOT⟩)
      (projW [0] b.toNat (entryW rotAngle ([0], ⟨1, .unitary .H⟩) (ket (initAsg [])))))) = _
    rw [e1, map_smul, e2, projW_smul, projW_ket, v2, normW_smul]
    split
    · rw [normW_ket, mul_one, ← ofReal_one, ← ofReal_div, normSq_ofReal, div_mul_div_comm, Real.mul_self_sqrt (by norm_num), one_mul]
    · rw [normW_zero, mul_zero]
  have h2 : m = 0 ∨ m = 1 := by omega
  rcases h2 with rfl | rfl
  · exact key false
  · exact key true

/-- both measurements give 1 with probability 1/2, and they never give 0 and 1 -/
example : outcomeProb coinCopy [] [1, 1] = ENNReal.ofReal (1 / 2) ∧ outcomeProb coinCopy [] [0, 1] = 0 := by
  rw [C76_born_rule coinCopy [] (by simp) coinCopy_ok [1, 1] rfl, C76_born_rule coinCopy [] (by simp) coinCopy_ok [0, 1] rfl,
    coinCopy_branch _ _ (by omega), if_pos rfl, coinCopy_branch _ _ (by omega), if_neg (by omega), ENNReal.ofReal_zero]
  exact ⟨rfl, rfl⟩

/-- such a circuit arises from calls of the builder -/
example : ∃ s, Hist (fun c => c.NoRepeat ∧ c.Sized ∧ (c.Gates ∨ ∃ r, c = .measure r)) s [[0]] ∧ s.measurements = 1 ∧
    s.pipeline.length = 2 :=
  ⟨_, Hist.ok (.measure [0]) (Hist.ok (.named .h [0]) (Hist.ok (.register 1) .start ⟨trivial, trivial, Or.inl trivial⟩
    (List.Perm.refl _) rfl) ⟨trivial, trivial, Or.inl trivial⟩ (List.Perm.refl _) rfl) ⟨trivial, trivial, Or.inr ⟨_, rfl⟩⟩
    (List.Perm.refl _) rfl, rfl, rfl⟩

end Verif.Props
