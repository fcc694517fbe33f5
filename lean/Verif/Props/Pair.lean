import Verif.Proofs.Pair

/-!
# Properties C96, C97: circuits of any elements

C96: what the calculation gives for a circuit of gates, global phases, stochastic and collapsing measurements in any
order. C97: a measured register keeps its value (refuted: a stochastic measurement brings back the state from before
the measurement).
-/

namespace Verif.Props
open Complex Classical MeasureTheory

/-- The circuits of C96 are those built by any history of builder calls. -/
theorem C96_reachable (s : LocalBuilder) (live : List Reg) (h : Hist (fun c => c.NoRepeat ∧ c.Sized) s live)
    (hm : UnitaryMats s.pipeline) :
    (∀ e ∈ s.pipeline, AnyOK s.n e) ∧ measCount s.pipeline = s.measurements := by
  obtain ⟨-, seg, h1, h2, h3⟩ := h.grow (fun c hc => hc) False (fun c hc => False.elim)
  have h1' : s.pipeline = seg := by rw [h1]; simp [LocalBuilder.default]
  refine ⟨fun e he => ?_, by rw [h1', h3]; simp [LocalBuilder.default]⟩
  obtain ⟨a, b, -⟩ := h2 e (h1' ▸ he)
  cases ho : e.2.object with
  | unitary u =>
    by_cases hg : ∃ ρ, u = .GlobalPhase ρ
    · obtain ⟨ρ, rfl⟩ := hg
      exact Or.inr ⟨a, Or.inl (Or.inl ⟨ρ, ho⟩)⟩
    · exact Or.inl ⟨⟨a, b, u, ho, fun ρ hc => hg ⟨ρ, hc⟩⟩, hm e he⟩
  | meas o =>
    cases o with
    | measurement => exact Or.inr ⟨a, Or.inr ho⟩
    | stochastic => exact Or.inr ⟨a, Or.inl (Or.inr ho)⟩

theorem pair_init (b : LocalBuilder) (it : List (Reg × ℕ)) (h : ∀ p ∈ it, ∀ q ∈ p.1, q < b.n) (rnds : ℕ → ℝ) :
    ∃ st, b.calculateStateWithInit it rnds =
        (calcFold b.n rnds b.pipeline st).map (fun r => (r.state, r.measurements)) ∧
      st.measurements = [] ∧ PairInv b.n st (ket (initAsg it), 0) := by
  obtain ⟨i, i1, i2, i3, i4⟩ := calculate_eq b it h rnds
  refine ⟨calcInit b.n i, i4, rfl, ?_, rep_zero b.n, ?_, fun x hx => absurd hx (by simp), Or.inr (normW_ket _), Or.inl rfl⟩
  · rw [← i2]
    unfold calcInit
    rw [Nat.one_shiftLeft]
    exact rep_ket b.n i i1
  · rw [← i2]
    exact On.ket (asg_low b.n i)

theorem pair_all (b : LocalBuilder) (it : List (Reg × ℕ)) (h : ∀ p ∈ it, ∀ q ∈ p.1, q < b.n)
    (hp : ∀ e ∈ b.pipeline, AnyOK b.n e) (rnds : ℕ → ℝ) (hr : ∀ k, 0 < rnds k ∧ rnds k < 1) :
    ∃ v ms, b.calculateStateWithInit it rnds = some (v, resultsW rotAngle b.pipeline ms (ket (initAsg it), 0)) ∧
      ms.length = collCount b.pipeline ∧ 0 < chancesW rotAngle b.pipeline ms (ket (initAsg it), 0) ∧
      Rep b.n v (pairW rotAngle b.pipeline ms (ket (initAsg it), 0)).1 ∧
      ∀ ms', ms'.length = collCount b.pipeline →
        (ms' = ms ↔ ∀ j A, (pairSets b.n b.pipeline ms' (ket (initAsg it), 0))[j]? = some A → rnds j ∈ A) := by
  obtain ⟨st, s1, s2, s3⟩ := pair_init b it h rnds
  obtain ⟨st', ms, a1, a2, a3, a4, a5, a6⟩ := pair_run b.n rnds hr b.pipeline hp st _ s3
  rw [s2, List.nil_append] at a3
  refine ⟨st'.state, ms, by rw [s1, a1, ← a3]; rfl, a2, a4, a5.r1, fun ms' h' => ?_⟩
  rw [a6 ms' h', s2]
  simp

/-- C96: Whatever numbers are drawn, the calculation of any circuit succeeds, with one outcome per collapsing measurement;
the results reported and the state returned are those of the rules in `pairStep`. -/
theorem C96_exact (b : LocalBuilder) (it : List (Reg × ℕ)) (h : ∀ p ∈ it, ∀ q ∈ p.1, q < b.n)
    (hp : ∀ e ∈ b.pipeline, AnyOK b.n e) (rnds : ℕ → ℝ) :
    ∃ v ms, b.calculateStateWithInit it rnds = some (v, resultsW rotAngle b.pipeline ms (ket (initAsg it), 0)) ∧
      ms.length = collCount b.pipeline ∧ Rep b.n v (pairW rotAngle b.pipeline ms (ket (initAsg it), 0)).1 := by
  obtain ⟨st, s1, s2, s3⟩ := pair_init b it h rnds
  obtain ⟨st', ms, a1, a2, a3, a5⟩ := pair_run_any b.n rnds b.pipeline hp st _ s3
  rw [s2, List.nil_append] at a3
  exact ⟨st'.state, ms, by rw [s1, a1, ← a3]; rfl, a2, a5.r1⟩

theorem resultsW_outcomes (ang : Rot → ℝ) (p : Pipeline) (ms : List ℕ) (S : Wave × Wave) (h : ms.length = collCount p) :
    (resultsW ang p ms S).filterMap MeasResult.outcome = ms := by
  induction p generalizing ms S with
  | nil => rw [List.length_eq_zero_iff.mp h]; rfl
  | cons e p ih =>
    unfold collCount at h ih
    rw [List.countP_cons] at h
    rw [resultsW, List.filterMap_append]
    cases hc : isColl e with
    | true =>
      cases ms with
      | nil => rw [hc] at h; simp at h
      | cons m ms =>
        rw [show restOf e (m :: ms) = ms by simp [restOf, hc], ih ms _ (by simpa [hc] using h)]
        have : resultW e m S.1 = [.single m (normW (projW e.1 m S.1))] := by
          unfold isColl at hc
          unfold resultW
          split at hc
          · next ho => rw [ho]
          · cases hc
        simp [this, MeasResult.outcome]
    | false =>
      rw [show restOf e ms = ms by simp [restOf, hc], ih ms _ (by simpa [hc] using h)]
      have : (resultW e (ms.headD 0) S.1).filterMap MeasResult.outcome = [] := by
        unfold isColl at hc
        unfold resultW
        split <;> simp_all [MeasResult.outcome]
      rw [this]; rfl

theorem finds_iff (b : LocalBuilder) (it : List (Reg × ℕ)) (rnds : ℕ → ℝ) (v : List ℂ) (ms : List ℕ) (S : Wave × Wave)
    (hl : ms.length = collCount b.pipeline)
    (h : b.calculateStateWithInit it rnds = some (v, resultsW rotAngle b.pipeline ms S)) (ms' : List ℕ) :
    Finds b it rnds ms' ↔ ms' = ms := by
  constructor
  · rintro ⟨v, l, e1, e2⟩
    rw [h] at e1
    cases e1
    rw [← e2, resultsW_outcomes _ _ _ _ hl]
  · rintro rfl
    exact ⟨_, _, h, resultsW_outcomes _ _ _ _ hl⟩

theorem pairSets_sub (n : ℕ) (p : Pipeline) (ms : List ℕ) (S : Wave × Wave) :
    ∀ A ∈ pairSets n p ms S, A ⊆ Set.Ico (0 : ℝ) 1 := by
  induction p generalizing ms S with
  | nil => intro A hA; simp [pairSets] at hA
  | cons e p ih =>
    intro A hA
    rw [pairSets, List.mem_append] at hA
    rcases hA with hA | hA
    · split at hA
      · rw [List.mem_singleton] at hA
        rw [hA]
        exact fun t ht => ⟨ht.1.1.le, ht.1.2⟩
      · split at hA
        · rw [List.mem_singleton] at hA
          rw [hA]
          exact fun t ht => ⟨ht.1.le, ht.2⟩
        · simp at hA
    · exact ih _ _ _ hA

/-- C96: The probability that the collapsing measurements give the outcomes `ms` is the product of their chances by the
same rules. -/
theorem C96_probability (b : LocalBuilder) (it : List (Reg × ℕ)) (h : ∀ p ∈ it, ∀ q ∈ p.1, q < b.n)
    (hp : ∀ e ∈ b.pipeline, AnyOK b.n e) (ms : List ℕ) (hms : ms.length = collCount b.pipeline) :
    findProb b it ms = ENNReal.ofReal (chancesW rotAngle b.pipeline ms (ket (initAsg it), 0)) := by
  obtain ⟨_, _, _, hinv⟩ := pair_init b it h fun _ => 0
  have hlen := pairSets_length b.n b.pipeline ms (ket (initAsg it), 0)
  have hvol := pairSets_volume b.n b.pipeline hp ms (ket (initAsg it), 0) hinv.l1 hinv.l2 hinv.u1 hinv.u2
  have hpi : volume (Set.pi Set.univ fun j : Fin (measCount b.pipeline) =>
      (pairSets b.n b.pipeline ms (ket (initAsg it), 0))[j.1]'(by omega)) =
      ENNReal.ofReal (chancesW rotAngle b.pipeline ms (ket (initAsg it), 0)) := by
    rw [volume_pi_pi, ← hvol, ← List.prod_ofFn]
    congr 1
    refine List.ext_getElem (by simp [hlen]) fun i h1 h2 => ?_
    simp
  unfold findProb
  rw [← hpi]
  refine measure_congr ?_
  have hne : ∀ᵐ ω : Fin (measCount b.pipeline) → ℝ, ∀ j, ω j ≠ 0 := by
    rw [ae_all_iff]
    intro j
    have := Measure.pi_hyperplane (fun _ : Fin (measCount b.pipeline) => (volume : Measure ℝ)) j (0 : ℝ)
    rw [ae_iff]
    rw [volume_pi]; simpa using this
  filter_upwards [hne] with ω hω
  apply propext
  show ((∀ j, ω j ∈ Set.Ico (0 : ℝ) 1) ∧ _) ↔ ω ∈ Set.pi Set.univ _
  by_cases hbox : ∀ j, ω j ∈ Set.Ico (0 : ℝ) 1
  · have hr : ∀ j : ℕ, 0 < (if hj : j < measCount b.pipeline then ω ⟨j, hj⟩ else 1 / 2) ∧
        (if hj : j < measCount b.pipeline then ω ⟨j, hj⟩ else 1 / 2) < 1 := by
      intro j
      split
      · exact ⟨lt_of_le_of_ne (hbox _).1 (Ne.symm (hω _)), (hbox _).2⟩
      · norm_num
    obtain ⟨v, ms0, a1, a2, -, -, a5⟩ := pair_all b it h hp _ hr
    rw [finds_iff b it _ v ms0 _ a2 a1, a5 ms hms]
    simp only [hbox, implies_true, true_and, Set.mem_pi, Set.mem_univ, forall_const]
    constructor
    · intro hA j
      have := hA j.1 _ (List.getElem?_eq_getElem (by omega))
      simpa using this
    · intro hA j A hj
      obtain ⟨hj1, rfl⟩ := List.getElem?_eq_some_iff.mp hj
      have := hA ⟨j, by omega⟩
      simpa [show j < measCount b.pipeline by omega] using this
  · exact iff_of_false (fun hc => hbox hc.1) fun hc => hbox fun j =>
      pairSets_sub _ _ _ _ _ (List.getElem_mem _) (hc j (Set.mem_univ _))

/-- With draws in (0,1) only outcomes of positive probability are found. -/
theorem C96_possible (b : LocalBuilder) (it : List (Reg × ℕ)) (h : ∀ p ∈ it, ∀ q ∈ p.1, q < b.n)
    (hp : ∀ e ∈ b.pipeline, AnyOK b.n e) (rnds : ℕ → ℝ) (hr : ∀ k, 0 < rnds k ∧ rnds k < 1) (ms : List ℕ)
    (hg : Finds b it rnds ms) : 0 < findProb b it ms := by
  obtain ⟨v, ms0, a1, a2, a3, -⟩ := pair_all b it h hp _ hr
  rw [(finds_iff b it _ v ms0 _ a2 a1 ms).mp hg, C96_probability b it h hp ms0 a2]
  exact ENNReal.ofReal_pos.mpr a3

/-- Other numbers of outcomes do not occur. -/
theorem C96_length (b : LocalBuilder) (it : List (Reg × ℕ)) (h : ∀ p ∈ it, ∀ q ∈ p.1, q < b.n)
    (hp : ∀ e ∈ b.pipeline, AnyOK b.n e) (rnds : ℕ → ℝ) (ms : List ℕ)
    (hg : Finds b it rnds ms) : ms.length = collCount b.pipeline := by
  obtain ⟨v, ms0, a1, a2, -⟩ := C96_exact b it h hp rnds
  rw [(finds_iff b it _ v ms0 _ a2 a1 ms).mp hg, a2]

/-! ## agreement with the textbook rules -/

theorem pairStep_unitary (ang : Rot → ℝ) {n : ℕ} {e : List ℕ × CObj} (he : SegOK n e) (m : ℕ) (S : Wave × Wave) :
    pairStep ang e m S = (entryW ang e S.1, S.1) ∧ isColl e = false := by
  obtain ⟨-, -, u, hu, hg⟩ := he
  unfold pairStep isColl
  rw [hu]
  cases u with
  | GlobalPhase ρ => exact absurd rfl (hg ρ)
  | _ => exact ⟨rfl, rfl⟩

theorem pairStep_idle (ang : Rot → ℝ) {e : List ℕ × CObj} (he : IdleE e) (m : ℕ) (S : Wave × Wave) :
    pairStep ang e m S = (S.2, S.1) ∧ isColl e = false := by
  unfold pairStep isColl
  rcases he with ⟨ρ, h⟩ | h <;> rw [h] <;> exact ⟨rfl, rfl⟩

theorem pairStep_coll (ang : Rot → ℝ) {e : List ℕ × CObj} (he : e.2.object = .meas .measurement) (m : ℕ) (S : Wave × Wave) :
    pairStep ang e m S = (if normW (projW e.1 m S.1) = 0 then (S.2, S.1) else (unitW (projW e.1 m S.1), S.1)) ∧
      isColl e = true := by
  unfold pairStep isColl
  rw [he]
  exact ⟨rfl, rfl⟩

/-- The rules extend the textbook rules: for a circuit of gates and collapsing measurements they give outcomes the
probability, and leave the state, that quantum mechanics says (C76). -/
theorem C96_textbook (n : ℕ) (p : Pipeline) (hp : ∀ e ∈ p, StepOK n e) (ms : List ℕ) (hms : ms.length = collCount p)
    (S : Wave × Wave) (hl : On (Low n) S.1) (hu : normW S.1 = 1) :
    chancesW rotAngle p ms S = normW (branchW rotAngle p ms S.1) ∧
      (normW (branchW rotAngle p ms S.1) ≠ 0 → (pairW rotAngle p ms S).1 = unitW (branchW rotAngle p ms S.1)) := by
  have key : ∀ (p : Pipeline), (∀ e ∈ p, StepOK n e) → ∀ (ms : List ℕ), ms.length = collCount p → ∀ (φ : Wave) (S : Wave × Wave),
      On (Low n) φ → 0 < normW φ → S.1 = unitW φ →
      chancesW rotAngle p ms S = normW (branchW rotAngle p ms φ) / normW φ ∧
        (normW (branchW rotAngle p ms φ) ≠ 0 → (pairW rotAngle p ms S).1 = unitW (branchW rotAngle p ms φ)) := by
    intro p
    induction p with
    | nil => intro _ ms _ φ S _ h0 hS; exact ⟨by simp [chancesW, branchW, h0.ne'], fun _ => hS⟩
    | cons e p ih =>
      intro hp ms hms φ S hl h0 hS
      have hp' : ∀ e ∈ p, StepOK n e := fun e' he' => hp e' (by simp [he'])
      unfold collCount at hms ih
      rw [List.countP_cons] at hms
      rcases hp e (by simp) with he | ⟨ho, hn, hi⟩
      · obtain ⟨a1, a2⟩ := pairStep_unitary rotAngle he.1 (ms.headD 0) S
        obtain ⟨-, -, u, hu, -⟩ := id he.1
        have hrest : restOf e ms = ms := by simp [restOf, a2]
        rw [chancesW, pairW, hrest, a1, branchW_unitary _ _ _ _ _ u hu, a2, ← normW_entry hl e he]
        obtain ⟨b1, b2⟩ := ih hp' ms (by simpa [a2] using hms) (entryW rotAngle e φ) (entryW rotAngle e S.1, S.1)
          (hl.entryLow e he.1.1.2.1) (by rw [normW_entry hl e he]; exact h0)
          (by rw [hS, entryW_unit hl e he])
        exact ⟨by rw [b1]; simp, b2⟩
      · cases ms with
        | nil => rw [(pairStep_coll rotAngle ho 0 S).2] at hms; simp at hms
        | cons m ms =>
          obtain ⟨a1, a2⟩ := pairStep_coll rotAngle ho m S
          have hrest : restOf e (m :: ms) = ms := by simp [restOf, a2]
          have hpr : normW (projW e.1 m S.1) = normW (projW e.1 m φ) / normW φ := by
            rw [hS]
            unfold unitW
            rw [projW_smul, normW_smul, normSq_ofReal, div_mul_div_comm, Real.mul_self_sqrt h0.le]
            ring
          have hS0 : S.1 ≠ 0 := by
            intro hc
            have := unitW_norm h0
            rw [← hS, hc, normW_zero] at this
            exact absurd this (by norm_num)
          have hch : chanceW e.1 m S.1 = normW (projW e.1 m φ) / normW φ := by
            unfold chanceW
            rw [if_neg hS0, hpr]
          rw [chancesW, pairW, hrest, branchW_meas _ _ _ _ _ _ _ ho, a2, if_pos rfl]
          simp only [List.headD_cons]
          rw [hch, a1]
          rcases (normW_nonneg (projW e.1 m φ)).eq_or_lt' with hz | hz
          · rw [hz, normW_eq_zero hz, branchW_zero, normW_zero]
            exact ⟨by simp, fun hc => absurd rfl hc⟩
          · have hne : normW (projW e.1 m S.1) ≠ 0 := by rw [hpr]; exact (div_pos hz h0).ne'
            rw [if_neg hne]
            have hun : unitW (projW e.1 m S.1) = unitW (projW e.1 m φ) := by
              rw [show unitW (projW e.1 m S.1) = ((1 / Real.sqrt (normW (projW e.1 m S.1)) : ℝ) : ℂ) • projW e.1 m S.1 from rfl,
                hpr, hS]
              unfold unitW
              rw [projW_smul, smul_smul, ← ofReal_mul]
              congr 2
              rw [Real.sqrt_div hz.le]
              have h1 : Real.sqrt (normW φ) ≠ 0 := (Real.sqrt_pos.mpr h0).ne'
              have h2 : Real.sqrt (normW (projW e.1 m φ)) ≠ 0 := (Real.sqrt_pos.mpr hz).ne'
              field_simp
            obtain ⟨b1, b2⟩ := ih hp' ms (by rw [a2] at hms; simpa using hms) (projW e.1 m φ)
              (unitW (projW e.1 m S.1), S.1) (hl.proj _ _) hz hun
            refine ⟨?_, b2⟩
            rw [b1]
            field_simp
  have hS : S.1 = unitW S.1 := by unfold unitW; rw [hu]; simp
  obtain ⟨a, b⟩ := key p hp ms hms S.1 S hl (by rw [hu]; exact one_pos) hS
  rw [hu, div_one] at a
  exact ⟨a, b⟩

/-- Hadamard gate, measurement, stochastic measurement, CNOT, measurement, global phase -/
def mixedB : LocalBuilder :=
  ⟨[([0], ⟨1, .unitary .H⟩), ([0], ⟨1, .meas .measurement⟩), ([0, 1], ⟨2, .meas .stochastic⟩), ([0, 1], ⟨2, .unitary .CNOT⟩),
    ([1], ⟨1, .meas .measurement⟩), ([0], ⟨1, .unitary (.GlobalPhase (.floating 1))⟩)], 2, [], 3⟩

theorem mixedB_ok : ∀ e ∈ mixedB.pipeline, AnyOK mixedB.n e := by
  intro e he
  simp only [mixedB, List.mem_cons, List.not_mem_nil, or_false] at he
  rcases he with rfl | rfl | rfl | rfl | rfl | rfl
  · exact Or.inl ⟨⟨⟨by simp, by simp [mixedB], fun u hu => by cases hu; rfl⟩, rfl, _, rfl, by simp⟩, by simp⟩
  · exact Or.inr ⟨⟨by simp, by simp [mixedB], by simp⟩, Or.inr rfl⟩
  · exact Or.inr ⟨⟨by simp, by simp [mixedB], by simp⟩, Or.inl (Or.inr rfl)⟩
  · exact Or.inl ⟨⟨⟨by simp, by simp [mixedB], fun u hu => by cases hu; rfl⟩, rfl, _, rfl, by simp⟩, by simp⟩
  · exact Or.inr ⟨⟨by simp, by simp [mixedB], by simp⟩, Or.inr rfl⟩
  · exact Or.inr ⟨⟨by simp, by simp [mixedB], fun u hu => by cases hu; exact Nat.one_pos⟩, Or.inl (Or.inl ⟨_, rfl⟩)⟩

/-- its two outcomes have a probability, and the calculation succeeds -/
example (m m' : ℕ) (rnds : ℕ → ℝ) :
    findProb mixedB [([1], 1)] [m, m'] = ENNReal.ofReal (chancesW rotAngle mixedB.pipeline [m, m'] (ket (initAsg [([1], 1)]), 0)) ∧
      ∃ c, mixedB.calculateStateWithInit [([1], 1)] rnds = some c := by
  refine ⟨C96_probability mixedB _ (by simp [mixedB]) mixedB_ok _ rfl, ?_⟩
  obtain ⟨v, ms, h, -⟩ := C96_exact mixedB [([1], 1)] (by simp [mixedB]) mixedB_ok rnds
  exact ⟨_, h⟩

/-! ## C97 -/

/-- C97: a measured register keeps its value: if only stochastic measurements and global phases come between two
measurements of a register, the second repeats the outcome of the first. -/
def C97_claim : Prop :=
  ∀ (b : LocalBuilder) (it : List (Reg × ℕ)) (p w q : Pipeline) (r : Reg) (k k' m m' : ℕ) (ks ls : List ℕ),
    (∀ p ∈ it, ∀ q ∈ p.1, q < b.n) → (∀ e ∈ b.pipeline, AnyOK b.n e) →
    b.pipeline = p ++ (r, ⟨k, .meas .measurement⟩) :: (w ++ (r, ⟨k', .meas .measurement⟩) :: q) → (∀ e ∈ w, IdleE e) →
    ks.length = collCount p → ls.length = collCount q → m ≠ m' → findProb b it (ks ++ m :: m' :: ls) = 0

theorem pair_append (ang : Rot → ℝ) (p q : Pipeline) (ks ls : List ℕ) (S : Wave × Wave) (h : ks.length = collCount p) :
    pairW ang (p ++ q) (ks ++ ls) S = pairW ang q ls (pairW ang p ks S) ∧
      chancesW ang (p ++ q) (ks ++ ls) S = chancesW ang p ks S * chancesW ang q ls (pairW ang p ks S) := by
  induction p generalizing ks S with
  | nil => rw [List.length_eq_zero_iff.mp h]; simp [pairW, chancesW]
  | cons e p ih =>
    unfold collCount at h ih
    rw [List.countP_cons] at h
    cases hc : isColl e with
    | true =>
      cases ks with
      | nil => rw [hc] at h; simp at h
      | cons m ks =>
        obtain ⟨a, b⟩ := ih ks (pairStep ang e m S) (by simpa [hc] using h)
        have r1 : ∀ l, restOf e (m :: l) = l := fun l => by simp [restOf, hc]
        simp only [List.cons_append, pairW, chancesW, r1, List.headD_cons]
        rw [a, b, mul_assoc]
        exact ⟨rfl, rfl⟩
    | false =>
      obtain ⟨a, b⟩ := ih ks (pairStep ang e (ks.headD 0) S) (by simpa [hc] using h)
      have r1 : ∀ l, restOf e l = l := fun l => by simp [restOf, hc]
      simp only [List.cons_append, pairW, chancesW, r1, hc]
      rw [(pairStep_congr ang e hc ((ks ++ ls).headD 0) (ks.headD 0) S).1, a, b]
      simp

theorem collCount_append (p q : Pipeline) : collCount (p ++ q) = collCount p + collCount q := List.countP_append

/-- A stochastic measurement or a global phase undoes a measurement before it: its outcome is independent of all others,
and the other outcomes are as likely as in the circuit without the two. -/
theorem C97_forgotten (b b' : LocalBuilder) (it : List (Reg × ℕ)) (p q : Pipeline) (c d g : List ℕ × CObj) (hn : b'.n = b.n)
    (hb : b.pipeline = p ++ c :: d :: g :: q) (hb' : b'.pipeline = p ++ g :: q) (hc : c.2.object = .meas .measurement)
    (hd : IdleE d) (hg : SegOK b.n g) (h : ∀ p ∈ it, ∀ q ∈ p.1, q < b.n) (hp : ∀ e ∈ b.pipeline, AnyOK b.n e)
    (ks ls : List ℕ) (m : ℕ) (hk : ks.length = collCount p) (hl : ls.length = collCount q) :
    findProb b it (ks ++ m :: ls) =
      ENNReal.ofReal (chanceW c.1 m (pairW rotAngle p ks (ket (initAsg it), 0)).1) * findProb b' it (ks ++ ls) := by
  have hcc := (pairStep_coll rotAngle hc m (0, 0)).2
  have hdd := (pairStep_idle rotAngle hd m (0, 0)).2
  have hgg := (pairStep_unitary rotAngle hg m (0, 0)).2
  rw [C96_probability b it h hp _ (by
      rw [hb, collCount_append]
      simp [collCount, hcc, hdd, hgg] at hl ⊢
      simp [collCount] at hk
      omega),
    C96_probability b' it (by rw [hn]; exact h) (by
      rw [hn]
      intro e he
      refine hp e ?_
      rw [hb'] at he
      rw [hb]
      simp at he ⊢
      tauto) _ (by
      rw [hb', collCount_append]
      simp [collCount, hgg] at hl ⊢
      simp [collCount] at hk
      omega),
    hb, hb', (pair_append _ _ _ _ _ _ hk).2, (pair_append _ _ _ _ _ _ hk).2]
  generalize hS : pairW rotAngle p ks (ket (initAsg it), 0) = S
  have rc : ∀ l, restOf c (m :: l) = l := fun l => by simp [restOf, hcc]
  have rd : ∀ l, restOf d l = l := fun l => by simp [restOf, hdd]
  have rg : ∀ l, restOf g l = l := fun l => by simp [restOf, hgg]
  simp only [chancesW, rc, rd, rg, hcc, hdd, hgg, List.headD_cons, if_true]
  rw [(pairStep_idle rotAngle hd _ _).1, (pairStep_unitary rotAngle hg _ _).1, (pairStep_unitary rotAngle hg _ S).1,
    (pairStep_coll rotAngle hc m S).1]
  have h2 : (if normW (projW c.1 m S.1) = 0 then (S.2, S.1) else (unitW (projW c.1 m S.1), S.1)).2 = S.1 := by
    split <;> rfl
  simp only [h2]
  rw [← ENNReal.ofReal_mul]
  · congr 1
    simp
    ring
  · unfold chanceW
    split
    · split <;> norm_num
    · exact normW_nonneg _

/-- Two measurements with a stochastic measurement or a global phase between them are independent, also if they measure
the same register: both are made on the same state. -/
theorem C97_independent (b : LocalBuilder) (it : List (Reg × ℕ)) (p : Pipeline) (c d c' : List ℕ × CObj)
    (hb : b.pipeline = p ++ [c, d, c']) (hc : c.2.object = .meas .measurement) (hc' : c'.2.object = .meas .measurement)
    (hd : IdleE d) (h : ∀ p ∈ it, ∀ q ∈ p.1, q < b.n) (hp : ∀ e ∈ b.pipeline, AnyOK b.n e)
    (ks : List ℕ) (m m' : ℕ) (hk : ks.length = collCount p) :
    findProb b it (ks ++ [m, m']) = ENNReal.ofReal (chancesW rotAngle p ks (ket (initAsg it), 0) *
      chanceW c.1 m (pairW rotAngle p ks (ket (initAsg it), 0)).1 *
      chanceW c'.1 m' (pairW rotAngle p ks (ket (initAsg it), 0)).1) := by
  have hcc := (pairStep_coll rotAngle hc m (0, 0)).2
  have hcc' := (pairStep_coll rotAngle hc' m (0, 0)).2
  have hdd := (pairStep_idle rotAngle hd m (0, 0)).2
  rw [C96_probability b it h hp _ (by
      rw [hb, collCount_append]
      simp [collCount, hcc, hdd, hcc'] at hk ⊢
      omega), hb, (pair_append _ _ _ _ _ _ hk).2]
  generalize hS : pairW rotAngle p ks (ket (initAsg it), 0) = S
  have rc : ∀ l, restOf c (m :: l) = l := fun l => by simp [restOf, hcc]
  have rd : ∀ l, restOf d l = l := fun l => by simp [restOf, hdd]
  simp only [chancesW, rc, rd, hcc, hdd, hcc', List.headD_cons, if_true]
  rw [(pairStep_idle rotAngle hd _ _).1, (pairStep_coll rotAngle hc m S).1]
  have h2 : (if normW (projW c.1 m S.1) = 0 then (S.2, S.1) else (unitW (projW c.1 m S.1), S.1)).2 = S.1 := by
    split <;> rfl
  simp only [h2]
  congr 1
  simp
  ring

/-- Hadamard gate, then measurement, stochastic measurement and measurement of the qubit -/
def againB : LocalBuilder :=
  ⟨[([0], ⟨1, .unitary .H⟩), ([0], ⟨1, .meas .measurement⟩), ([0], ⟨1, .meas .stochastic⟩), ([0], ⟨1, .meas .measurement⟩)],
    1, [], 3⟩

theorem againB_ok : ∀ e ∈ againB.pipeline, AnyOK againB.n e := by
  intro e he
  simp only [againB, List.mem_cons, List.not_mem_nil, or_false] at he
  rcases he with rfl | rfl | rfl | rfl
  · exact Or.inl ⟨⟨⟨by simp, by simp [againB], fun u hu => by cases hu; rfl⟩, rfl, _, rfl, by simp⟩, by simp⟩
  · exact Or.inr ⟨⟨by simp, by simp [againB], by simp⟩, Or.inr rfl⟩
  · exact Or.inr ⟨⟨by simp, by simp [againB], by simp⟩, Or.inl (Or.inr rfl)⟩
  · exact Or.inr ⟨⟨by simp, by simp [againB], by simp⟩, Or.inr rfl⟩

theorem coin_chance (b : Bool) : chanceW [0] b.toNat (entryW rotAngle ([0], ⟨1, .unitary .H⟩) (ket (initAsg []))) = 1 / 2 := by
  have hn : normSq (1 / Real.sqrt 2 : ℂ) = 1 / 2 := by
    rw [← ofReal_one, ← ofReal_div, normSq_ofReal, div_mul_div_comm, Real.mul_self_sqrt (by norm_num)]; norm_num
  have hp : normW (projW [0] b.toNat (entryW rotAngle ([0], ⟨1, .unitary .H⟩) (ket (initAsg [])))) = 1 / 2 := by
    have v0 : valQ [0] zz = 0 := by simp [valQ, zz]
    have v1 : valQ [0] (setQ 0 true zz) = 1 := by decide
    rw [simple_h, projW_add, projW_smul, projW_smul, projW_ket, projW_ket, v0, v1]
    cases b <;> simp [normW_smul_ket, hn, normW_smul, normW_ket] 
  unfold chanceW
  rw [if_neg, hp]
  intro hc
  rw [hc, probsW_zero_proj, normW_zero] at hp
  norm_num at hp

/-- All four pairs of outcomes have probability 1/4, although the register is not touched between the measurements. -/
theorem C97_again (x y : Bool) : findProb againB [] [x.toNat, y.toNat] = ENNReal.ofReal (1 / 4) := by
  have := C97_independent againB [] [([0], ⟨1, .unitary .H⟩)] ([0], ⟨1, .meas .measurement⟩) ([0], ⟨1, .meas .stochastic⟩)
    ([0], ⟨1, .meas .measurement⟩) rfl rfl rfl (Or.inr rfl) (by simp) againB_ok [] x.toNat y.toNat rfl
  rw [List.nil_append] at this
  rw [this]
  have hs : (pairW rotAngle [([0], ⟨1, .unitary .H⟩)] [] (ket (initAsg []), 0)).1 =
      entryW rotAngle ([0], ⟨1, .unitary .H⟩) (ket (initAsg [])) := rfl
  have hch : chancesW rotAngle [([0], ⟨1, .unitary .H⟩)] [] (ket (initAsg []), 0) = 1 := by simp [chancesW, isColl]
  rw [hs, coin_chance, coin_chance, hch]
  norm_num

theorem C97_refuted : ¬ C97_claim := by
  intro h
  have := h againB [] [([0], ⟨1, .unitary .H⟩)] [([0], ⟨1, .meas .stochastic⟩)] [] [0] 1 1 0 1 [] [] (by simp) againB_ok rfl
    (by simp [IdleE]) rfl rfl (by omega)
  have h2 := C97_again false true
  simp only [Bool.toNat_false, Bool.toNat_true] at h2
  rw [List.nil_append, h2] at this
  simp at this

theorem idle_even (ang : Rot → ℝ) (w : Pipeline) (hw : ∀ e ∈ w, IdleE e) (he : Even w.length) (S : Wave × Wave) (ms : List ℕ) :
    pairW ang w ms S = S := by
  have key : ∀ w : Pipeline, (∀ e ∈ w, IdleE e) → ∀ S : Wave × Wave, pairW ang w ms S = if Even w.length then S else (S.2, S.1) := by
    intro w
    induction w with
    | nil => intro _ S; simp [pairW]
    | cons e w ih =>
      intro hw S
      obtain ⟨a, b⟩ := pairStep_idle ang (hw e (by simp)) (ms.headD 0) S
      rw [pairW, a, show restOf e ms = ms by simp [restOf, b], ih (fun e' he' => hw e' (by simp [he']))]
      simp only [List.length_cons, Nat.even_add_one]
      split <;> simp_all
  rw [key w hw, if_pos he]

theorem idle_count (w : Pipeline) (hw : ∀ e ∈ w, IdleE e) : collCount w = 0 := by
  unfold collCount
  rw [List.countP_eq_zero]
  intro e he
  rw [(pairStep_idle rotAngle (hw e he) 0 (0, 0)).2]
  simp

/-- Proved part of C97: with an even number of stochastic measurements and global phases (zero included) between the
measurements, and only gates and collapsing measurements before the first, the outcome is repeated. -/
theorem C97_partial (b : LocalBuilder) (it : List (Reg × ℕ)) (p w q : Pipeline) (r : Reg) (k k' m m' : ℕ) (ks ls : List ℕ)
    (h : ∀ p ∈ it, ∀ q ∈ p.1, q < b.n) (hp : ∀ e ∈ b.pipeline, AnyOK b.n e)
    (hb : b.pipeline = p ++ (r, ⟨k, .meas .measurement⟩) :: (w ++ (r, ⟨k', .meas .measurement⟩) :: q)) (hw : ∀ e ∈ w, IdleE e)
    (he : Even w.length) (hs : ∀ e ∈ p, StepOK b.n e) (hk : ks.length = collCount p) (hl : ls.length = collCount q)
    (hm : m ≠ m') : findProb b it (ks ++ m :: m' :: ls) = 0 := by
  have cw := idle_count w hw
  have hcount : (ks ++ m :: m' :: ls).length = collCount b.pipeline := by
    rw [hb, collCount_append]
    have : collCount ((r, ⟨k, .meas .measurement⟩) :: (w ++ (r, ⟨k', .meas .measurement⟩) :: q)) = collCount q + 2 := by
      unfold collCount at cw ⊢
      rw [List.countP_cons, List.countP_append, cw, List.countP_cons]
      simp [isColl]
    rw [this]
    simp
    omega
  rw [C96_probability b it h hp _ hcount, hb, (pair_append _ _ _ _ _ _ hk).2]
  obtain ⟨_, _, _, hinv⟩ := pair_init b it h fun _ => 0
  obtain ⟨t1, t2⟩ := C96_textbook b.n p hs ks hk (ket (initAsg it), 0) hinv.l1 (normW_ket _)
  rw [t1]
  by_cases hz : normW (branchW rotAngle p ks (ket (initAsg it))) = 0
  · rw [hz, zero_mul, ENNReal.ofReal_zero]
  · have hS := t2 hz
    generalize pairW rotAngle p ks (ket (initAsg it), 0) = S at hS ⊢
    have hS0 : S.1 ≠ 0 := by
      intro hc
      have := unitW_norm (lt_of_le_of_ne (normW_nonneg _) (Ne.symm hz))
      rw [← hS, hc, normW_zero] at this
      exact absurd this (by norm_num)
    have e1 : chancesW rotAngle ((r, ⟨k, .meas .measurement⟩) :: (w ++ (r, ⟨k', .meas .measurement⟩) :: q)) (m :: m' :: ls) S =
        chanceW r m S.1 * chancesW rotAngle (w ++ (r, ⟨k', .meas .measurement⟩) :: q) (m' :: ls)
          (pairStep rotAngle (r, ⟨k, .meas .measurement⟩) m S) := by
      rw [chancesW]; rfl
    have e2 := (pairStep_coll rotAngle (e := (r, ⟨k, .meas .measurement⟩)) rfl m S).1
    rw [e1, e2]
    by_cases h0 : normW (projW r m S.1) = 0
    · have : chanceW r m S.1 = 0 := by unfold chanceW; rw [if_neg hS0, h0]
      rw [this]; simp
    · rw [if_neg h0, show m' :: ls = [] ++ (m' :: ls) from rfl, (pair_append _ w _ [] _ _ (by rw [cw]; rfl)).2,
        idle_even rotAngle w hw he, chancesW]
      have : chanceW r m' (unitW (projW r m S.1)) = 0 := by
        unfold chanceW
        rw [if_neg]
        · have : projW r m' (unitW (projW r m S.1)) = 0 := by
            unfold unitW
            rw [projW_smul]
            ext x
            rw [Finsupp.smul_apply, projW_apply, projW_apply]
            split
            · next hx => rw [if_neg (by rw [hx]; exact hm.symm)]; simp
            · simp
          rw [this, normW_zero]
        · intro hc
          have := unitW_norm (lt_of_le_of_ne (normW_nonneg _) (Ne.symm h0))
          rw [hc, normW_zero] at this
          exact absurd this (by norm_num)
      simp only [isColl, if_true, List.headD_cons, this]
      simp

/-- two stochastic measurements in between: 0 and then 1 does not occur -/
example : findProb ⟨[([0], ⟨1, .unitary .H⟩), ([0], ⟨1, .meas .measurement⟩), ([0], ⟨1, .meas .stochastic⟩),
    ([0], ⟨1, .meas .stochastic⟩), ([0], ⟨1, .meas .measurement⟩)], 1, [], 4⟩ [] [0, 1] = 0 :=
  C97_partial _ [] [([0], ⟨1, .unitary .H⟩)] [([0], ⟨1, .meas .stochastic⟩), ([0], ⟨1, .meas .stochastic⟩)] [] [0] 1 1 0 1 [] []
    (by simp) (by
      intro e he
      refine againB_ok e ?_
      simp only [againB, List.mem_cons, List.not_mem_nil, or_false] at he ⊢
      tauto) rfl (by simp [IdleE]) (by decide) (by
      intro e he
      rw [List.mem_singleton] at he
      subst he
      exact Or.inl ⟨⟨⟨by simp, by simp, fun u hu => by cases hu; rfl⟩, rfl, _, rfl, by simp⟩, by simp⟩) rfl rfl (by omega)

/-- the measurement of a coin, forgotten by the stochastic measurement after it: the later outcome is 0 or 1 with the
probability it has without the two -/
example (m m' : ℕ) : findProb ⟨[([0], ⟨1, .unitary .H⟩), ([0], ⟨1, .meas .measurement⟩), ([0], ⟨1, .meas .stochastic⟩),
    ([0], ⟨1, .unitary .H⟩), ([0], ⟨1, .meas .measurement⟩)], 1, [], 3⟩ [] [m, m'] =
    ENNReal.ofReal (chanceW [0] m (pairW rotAngle [([0], ⟨1, .unitary .H⟩)] [] (ket (initAsg []), 0)).1) *
      findProb ⟨[([0], ⟨1, .unitary .H⟩), ([0], ⟨1, .unitary .H⟩), ([0], ⟨1, .meas .measurement⟩)], 1, [], 1⟩ [] [m'] := by
  have hH : SegOK 1 ([0], ⟨1, .unitary .H⟩) := ⟨⟨by simp, by simp, fun u hu => by cases hu; rfl⟩, rfl, _, rfl, by simp⟩
  exact C97_forgotten ⟨[([0], ⟨1, .unitary .H⟩), ([0], ⟨1, .meas .measurement⟩), ([0], ⟨1, .meas .stochastic⟩),
    ([0], ⟨1, .unitary .H⟩), ([0], ⟨1, .meas .measurement⟩)], 1, [], 3⟩
    ⟨[([0], ⟨1, .unitary .H⟩), ([0], ⟨1, .unitary .H⟩), ([0], ⟨1, .meas .measurement⟩)], 1, [], 1⟩ [] [([0], ⟨1, .unitary .H⟩)] [([0], ⟨1, .meas .measurement⟩)] ([0], ⟨1, .meas .measurement⟩)
    ([0], ⟨1, .meas .stochastic⟩) ([0], ⟨1, .unitary .H⟩) rfl rfl rfl rfl (Or.inr rfl) hH (by simp) (by
      intro e he
      refine againB_ok e ?_
      simp only [againB, List.mem_cons, List.not_mem_nil, or_false] at he ⊢
      tauto) [] [m'] m rfl rfl

end Verif.Props
