import Verif.Proofs.Runs

/-!
# Properties C77, C78, C79: circuit elements on disjoint qubits

C77: neighbouring elements on disjoint qubits may be exchanged.
C78: what is done to other qubits does not influence the outcomes of measurements (no signalling).
C79: a register keeps its value as long as it is not touched: it is read back with its initial value, and measuring it
again repeats the outcome.
-/

namespace Verif.Props
open Complex Classical MeasureTheory

theorem split_outcomes (p q : Pipeline) (ms : List ℕ) (h : ms.length = measCount (p ++ q)) :
    ∃ ks ls, ms = ks ++ ls ∧ ks.length = measCount p ∧ ls.length = measCount q := by
  rw [measCount_append] at h
  exact ⟨ms.take (measCount p), ms.drop (measCount p), (List.take_append_drop _ _).symm, by simp; omega, by simp; omega⟩

theorem some_outcome {p : Pipeline} {e : List ℕ × CObj} (he : e ∈ p) (hm : isMeas e = true) {ms : List ℕ}
    (h : ms.length = measCount p) : ∃ m ks, ms = m :: ks := by
  cases ms with
  | nil =>
    have := List.countP_pos_iff.mpr ⟨e, he, hm⟩
    unfold measCount at h
    rw [← h] at this
    exact absurd this (by simp)
  | cons m ks => exact ⟨m, ks, rfl⟩

/-! ## C77 -/

/-- Exchanging two neighbouring gates on disjoint qubits changes nothing at all: with the same draws the calculation
returns the same state, the same outcomes and the same probabilities. -/
theorem C77_gates (b b' : LocalBuilder) (p q : Pipeline) (e f : List ℕ × CObj) (hn : b'.n = b.n)
    (hb : b.pipeline = p ++ e :: f :: q) (hb' : b'.pipeline = p ++ f :: e :: q) (hd : List.Disjoint e.1 f.1)
    (he : isMeas e = false) (hf : isMeas f = false) (hp : ∀ e ∈ b.pipeline, StepOK b.n e) (it : List (Reg × ℕ))
    (h : ∀ p ∈ it, ∀ q ∈ p.1, q < b.n) (rnds : ℕ → ℝ) (hr : ∀ k, 0 < rnds k ∧ rnds k < 1) :
    b'.calculateStateWithInit it rnds = b.calculateStateWithInit it rnds := by
  have hperm : b'.pipeline.Perm b.pipeline := by
    rw [hb, hb']; exact List.Perm.append_left p (List.Perm.swap _ _ _)
  have hp' : ∀ e ∈ b'.pipeline, StepOK b'.n e := fun e he => hn ▸ hp e (hperm.mem_iff.mp he)
  obtain ⟨v, ms, a1, a2, a3, a4, a5⟩ := run_all b it h hp rnds hr
  obtain ⟨v', ms', b1, b2, b3, b4, b5⟩ := run_all b' it (hn ▸ h) hp' rnds hr
  have hmc : measCount b'.pipeline = measCount b.pipeline := hperm.countP_eq _
  obtain ⟨u, hu⟩ : ∃ u, e.2.object = .unitary u := by
    cases ho : e.2.object with
    | unitary u => exact ⟨u, rfl⟩
    | meas o => simp [isMeas, ho] at he
  obtain ⟨w, hw⟩ : ∃ u, f.2.object = .unitary u := by
    cases ho : f.2.object with
    | unitary u => exact ⟨u, rfl⟩
    | meas o => simp [isMeas, ho] at hf
  have key : ∀ ks, ks.length = measCount b.pipeline → ∀ ψ,
      branchW rotAngle b'.pipeline ks ψ = branchW rotAngle b.pipeline ks ψ ∧
      reportW rotAngle b'.pipeline ks ψ = reportW rotAngle b.pipeline ks ψ ∧
      drawSets b'.n b'.pipeline ks ψ = drawSets b.n b.pipeline ks ψ := by
    intro ks hks ψ
    rw [hb] at hks
    obtain ⟨k1, k2, rfl, hk1, hk2⟩ := split_outcomes _ _ _ hks
    rw [hb, hb', hn, branchW_append _ _ _ _ _ hk1, branchW_append _ _ _ _ _ hk1, reportW_append _ _ _ _ _ hk1,
      reportW_append _ _ _ _ _ hk1, drawSets_append _ _ _ _ _ hk1, drawSets_append _ _ _ _ _ hk1,
      branchW_unitary _ _ _ _ _ w hw, branchW_unitary _ _ _ _ _ u hu, branchW_unitary _ _ _ _ _ u hu,
      branchW_unitary _ _ _ _ _ w hw, reportW_unitary _ _ _ _ _ w hw, reportW_unitary _ _ _ _ _ u hu,
      reportW_unitary _ _ _ _ _ u hu, reportW_unitary _ _ _ _ _ w hw, entryW_comm rotAngle e f hd]
    simp only [drawSets, hu, hw]
    rw [entryW_comm rotAngle e f hd]
    exact ⟨trivial, trivial, rfl⟩
  have hms : ms' = ms := by
    rw [a5 ms' (by rw [b2, hmc])]
    have := (b5 ms' b2).mp rfl
    rwa [(key ms' (by rw [b2, hmc]) _).2.2] at this
  subst hms
  obtain ⟨k1, k2, -⟩ := key ms' a2 (ket (initAsg it))
  rw [k1, hn] at b4
  rw [a1, b1, k2, rep_unique a4 b4]

/-- Exchanging a gate and a measurement on disjoint qubits does not change the probabilities of outcomes. -/
theorem C77_gate_measurement (b b' : LocalBuilder) (p q : Pipeline) (e f : List ℕ × CObj) (hn : b'.n = b.n)
    (hb : b.pipeline = p ++ e :: f :: q) (hb' : b'.pipeline = p ++ f :: e :: q) (hd : List.Disjoint e.1 f.1)
    (he : isMeas e = false) (hf : isMeas f = true) (hp : ∀ e ∈ b.pipeline, StepOK b.n e) (it : List (Reg × ℕ))
    (h : ∀ p ∈ it, ∀ q ∈ p.1, q < b.n) (ms : List ℕ) (hms : ms.length = measCount b.pipeline) :
    outcomeProb b' it ms = outcomeProb b it ms ∧
      ∀ rnds rnds' v v' l l', (∀ k, 0 < rnds k ∧ rnds k < 1) → (∀ k, 0 < rnds' k ∧ rnds' k < 1) →
        Outcomes b it rnds ms → Outcomes b' it rnds' ms → b.calculateStateWithInit it rnds = some (v, l) →
        b'.calculateStateWithInit it rnds' = some (v', l') → v = v' ∧ l = l' := by
  have hperm : b'.pipeline.Perm b.pipeline := by
    rw [hb, hb']; exact List.Perm.append_left p (List.Perm.swap _ _ _)
  have hp' : ∀ e ∈ b'.pipeline, StepOK b'.n e := fun e he => hn ▸ hp e (hperm.mem_iff.mp he)
  have hmc : measCount b'.pipeline = measCount b.pipeline := hperm.countP_eq _
  have heU : SegU b.n e := by
    rcases hp e (by rw [hb]; simp) with hu | ⟨ho, -⟩
    · exact hu
    · simp [isMeas, ho] at he
  obtain ⟨u, hu⟩ : ∃ u, e.2.object = .unitary u := heU.1.2.2.imp fun u hu => hu.1
  obtain ⟨o, ho⟩ : ∃ o, f.2.object = .meas o := by
    cases ho : f.2.object with
    | unitary u => simp [isMeas, ho] at hf
    | meas o => exact ⟨o, rfl⟩
  have hlow : On (Low b.n) (ket (initAsg it)) := (run_calculate b it h fun _ => 0).choose_spec.2.2.2.2
  have key : branchW rotAngle b'.pipeline ms (ket (initAsg it)) = branchW rotAngle b.pipeline ms (ket (initAsg it)) ∧
      reportW rotAngle b'.pipeline ms (ket (initAsg it)) = reportW rotAngle b.pipeline ms (ket (initAsg it)) := by
    have hms' := hms
    rw [hb] at hms'
    obtain ⟨k1, k2, rfl, hk1, hk2⟩ := split_outcomes _ _ _ hms'
    obtain ⟨m, k3, rfl⟩ := some_outcome (e := f) (by simp) hf hk2
    have hl1 := branch_low (fun e he => hp e (by rw [hb]; simp [he])) k1 hlow (p := p)
    rw [hb, hb', branchW_append _ _ _ _ _ hk1, branchW_append _ _ _ _ _ hk1, reportW_append _ _ _ _ _ hk1,
      reportW_append _ _ _ _ _ hk1, branchW_meas _ _ _ _ _ _ _ ho, branchW_unitary _ _ _ _ _ u hu,
      branchW_unitary _ _ _ _ _ u hu, branchW_meas _ _ _ _ _ _ _ ho, reportW_meas _ _ _ _ _ _ _ ho,
      reportW_unitary _ _ _ _ _ u hu, reportW_unitary _ _ _ _ _ u hu, reportW_meas _ _ _ _ _ _ _ ho,
      proj_entry_comm rotAngle e f.1 hd, normW_entry hl1 e heU, normW_entry (hl1.proj _ _) e heU]
    exact ⟨rfl, rfl⟩
  refine ⟨?_, ?_⟩
  · rw [C76_born_rule b it h hp ms hms, C76_born_rule b' it (hn ▸ h) hp' ms (by rw [hms, hmc]), key.1]
  · intro rnds rnds' v v' l l' hr hr' g g' c c'
    obtain ⟨v1, ms1, a1, a2, -, a4, -⟩ := run_all b it h hp rnds hr
    obtain ⟨v2, ms2, b1, b2, -, b4, -⟩ := run_all b' it (hn ▸ h) hp' rnds' hr'
    have e1 := (gives_iff b it _ v1 ms1 _ (reportW_length _ _ _ _ a2) a1 ms).mp g
    have e2 := (gives_iff b' it _ v2 ms2 _ (reportW_length _ _ _ _ b2) b1 ms).mp g'
    subst e1
    subst e2
    rw [a1] at c
    rw [b1] at c'
    cases c
    cases c'
    rw [key.1, hn] at b4
    exact ⟨rep_unique a4 b4, by rw [key.2]⟩

/-- Exchanging two measurements of disjoint registers: the outcomes come in the other order, with the same
probabilities. -/
theorem C77_measurements (b b' : LocalBuilder) (p q : Pipeline) (e f : List ℕ × CObj) (hn : b'.n = b.n)
    (hb : b.pipeline = p ++ e :: f :: q) (hb' : b'.pipeline = p ++ f :: e :: q)
    (he : isMeas e = true) (hf : isMeas f = true) (hp : ∀ e ∈ b.pipeline, StepOK b.n e) (it : List (Reg × ℕ))
    (h : ∀ p ∈ it, ∀ q ∈ p.1, q < b.n) (ms ks : List ℕ) (i j : ℕ) (hms : ms.length = measCount p)
    (hks : ks.length = measCount q) :
    outcomeProb b' it (ms ++ j :: i :: ks) = outcomeProb b it (ms ++ i :: j :: ks) := by
  have hperm : b'.pipeline.Perm b.pipeline := by
    rw [hb, hb']; exact List.Perm.append_left p (List.Perm.swap _ _ _)
  have hp' : ∀ e ∈ b'.pipeline, StepOK b'.n e := fun e he => hn ▸ hp e (hperm.mem_iff.mp he)
  have hmc : measCount b'.pipeline = measCount b.pipeline := hperm.countP_eq _
  obtain ⟨o, ho⟩ : ∃ o, f.2.object = .meas o := by
    cases ho : f.2.object with
    | unitary u => simp [isMeas, ho] at hf
    | meas o => exact ⟨o, rfl⟩
  obtain ⟨o', ho'⟩ : ∃ o, e.2.object = .meas o := by
    cases ho : e.2.object with
    | unitary u => simp [isMeas, ho] at he
    | meas o => exact ⟨o, rfl⟩
  have hl : (ms ++ i :: j :: ks).length = measCount b.pipeline := by
    rw [hb, measCount_append]
    unfold measCount at hms hks ⊢
    rw [List.countP_cons, List.countP_cons, he, hf]
    simp
    omega
  rw [C76_born_rule b it h hp _ hl, C76_born_rule b' it (hn ▸ h) hp' _ (by rw [hmc, ← hl]; simp), hb, hb',
    branchW_append _ _ _ _ _ hms, branchW_append _ _ _ _ _ hms, branchW_meas _ _ _ _ _ _ _ ho, branchW_meas _ _ _ _ _ _ _ ho',
    branchW_meas _ _ _ _ _ _ _ ho', branchW_meas _ _ _ _ _ _ _ ho, proj_proj_comm]

/-- the hypotheses are met: `h` on qubit 0 next to a CNOT from qubit 2 to qubit 1 and a measurement of qubit 1, with a
measurement before and a gate after -/
example : ∀ e ∈ ([([2], ⟨1, .meas .measurement⟩), ([0], ⟨1, .unitary .H⟩), ([2, 1], ⟨2, .unitary .CNOT⟩),
    ([1], ⟨1, .meas .measurement⟩), ([0, 2], ⟨2, .unitary .SWAP⟩)] : Pipeline), StepOK 3 e := by
  intro e he
  simp only [List.mem_cons, List.not_mem_nil, or_false] at he
  rcases he with rfl | rfl | rfl | rfl | rfl
  · exact Or.inr ⟨rfl, by simp, by simp⟩
  · exact Or.inl ⟨⟨⟨by simp, by simp, fun u hu => by cases hu; rfl⟩, rfl, _, rfl, by simp⟩, by simp⟩
  · exact Or.inl ⟨⟨⟨by simp, by simp, fun u hu => by cases hu; rfl⟩, rfl, _, rfl, by simp⟩, by simp⟩
  · exact Or.inr ⟨rfl, by simp, by simp⟩
  · exact Or.inl ⟨⟨⟨by simp, by simp, fun u hu => by cases hu; exact ⟨rfl, by simp⟩⟩, rfl, _, rfl, by simp⟩, by simp⟩

/-! ## C78 -/

/-- Leave out a gate whose qubits are not touched afterwards: the probabilities of all outcomes stay the same. -/
theorem C78_gate (b b' : LocalBuilder) (p q : Pipeline) (e : List ℕ × CObj) (hn : b'.n = b.n)
    (hb : b.pipeline = p ++ e :: q) (hb' : b'.pipeline = p ++ q) (hd : ∀ f ∈ q, List.Disjoint e.1 f.1)
    (he : isMeas e = false) (hp : ∀ e ∈ b.pipeline, StepOK b.n e) (it : List (Reg × ℕ))
    (h : ∀ p ∈ it, ∀ q ∈ p.1, q < b.n) (ms : List ℕ) (hms : ms.length = measCount b.pipeline) :
    outcomeProb b it ms = outcomeProb b' it ms := by
  have heU : SegU b.n e := by
    rcases hp e (by rw [hb]; simp) with hu | ⟨ho, -⟩
    · exact hu
    · simp [isMeas, ho] at he
  obtain ⟨u, hu⟩ : ∃ u, e.2.object = .unitary u := heU.1.2.2.imp fun u hu => hu.1
  have hp' : ∀ e ∈ b'.pipeline, StepOK b'.n e := by
    intro e he
    rw [hb'] at he
    rw [hn]
    refine hp e ?_
    rw [hb]
    simp only [List.mem_append, List.mem_cons] at he ⊢
    tauto
  have hms' := hms
  rw [hb] at hms'
  obtain ⟨k1, k2, rfl, hk1, hk2⟩ := split_outcomes _ _ _ hms'
  have hk2' : k2.length = measCount q := by
    rw [hk2]; unfold measCount; rw [List.countP_cons, he]; simp
  have hlow : On (Low b.n) (ket (initAsg it)) := (run_calculate b it h fun _ => 0).choose_spec.2.2.2.2
  have hl1 := branch_low (fun e he => hp e (by rw [hb]; simp [he])) k1 hlow (p := p)
  have hl2 := branch_low (fun e he => hp e (by rw [hb]; simp [he])) k2 hl1 (p := q)
  rw [C76_born_rule b it h hp _ hms, C76_born_rule b' it (hn ▸ h) hp' _ (by rw [hb', measCount_append, List.length_append, hk1, hk2']),
    hb, hb', branchW_append _ _ _ _ _ hk1, branchW_append _ _ _ _ _ hk1, branchW_unitary _ _ _ _ _ u hu,
    branch_entry rotAngle e q hd, normW_entry hl2 e heU]

/-- Leave out a measurement whose qubits are not touched afterwards: the probabilities of the outcomes of the other
measurements stay the same, if the outcome of the measurement left out is ignored. -/
theorem C78_measurement (b b' : LocalBuilder) (p q : Pipeline) (e : List ℕ × CObj) (hn : b'.n = b.n)
    (hb : b.pipeline = p ++ e :: q) (hb' : b'.pipeline = p ++ q) (hd : ∀ f ∈ q, List.Disjoint e.1 f.1)
    (he : isMeas e = true) (hp : ∀ e ∈ b.pipeline, StepOK b.n e) (it : List (Reg × ℕ))
    (h : ∀ p ∈ it, ∀ q ∈ p.1, q < b.n) (ms ks : List ℕ) (hms : ms.length = measCount p) (hks : ks.length = measCount q) :
    ∑ m ∈ Finset.range (2 ^ e.1.length), outcomeProb b it (ms ++ m :: ks) = outcomeProb b' it (ms ++ ks) := by
  obtain ⟨o, ho⟩ : ∃ o, e.2.object = .meas o := by
    cases ho : e.2.object with
    | unitary u => simp [isMeas, ho] at he
    | meas o => exact ⟨o, rfl⟩
  have hp' : ∀ e ∈ b'.pipeline, StepOK b'.n e := by
    intro e he
    rw [hb'] at he
    rw [hn]
    refine hp e ?_
    rw [hb]
    simp only [List.mem_append, List.mem_cons] at he ⊢
    tauto
  have hl : ∀ m, (ms ++ m :: ks).length = measCount b.pipeline := by
    intro m
    rw [hb, measCount_append]
    unfold measCount at hms hks ⊢
    rw [List.countP_cons, he]
    simp
    omega
  rw [C76_born_rule b' it (hn ▸ h) hp' _ (by rw [hb', measCount_append, List.length_append, hms, hks]), hb',
    branchW_append _ _ _ _ _ hms, ← normW_proj_sum e.1, ENNReal.ofReal_sum_of_nonneg fun _ _ => normW_nonneg _]
  refine Finset.sum_congr rfl fun m _ => ?_
  rw [C76_born_rule b it h hp _ (hl m), hb, branchW_append _ _ _ _ _ hms, branchW_meas _ _ _ _ _ _ _ ho,
    branch_proj rotAngle e.1 m q hd]

/-- The probabilities of the outcomes of a measurement that comes last sum up to the probability of what came before;
all probabilities together sum up to 1. -/
theorem C78_total (b b' : LocalBuilder) (p : Pipeline) (e : List ℕ × CObj) (hn : b'.n = b.n)
    (hb : b.pipeline = p ++ [e]) (hb' : b'.pipeline = p) (he : isMeas e = true) (hp : ∀ e ∈ b.pipeline, StepOK b.n e)
    (it : List (Reg × ℕ)) (h : ∀ p ∈ it, ∀ q ∈ p.1, q < b.n) (ms : List ℕ) (hms : ms.length = measCount p) :
    ∑ m ∈ Finset.range (2 ^ e.1.length), outcomeProb b it (ms ++ [m]) = outcomeProb b' it ms := by
  have := C78_measurement b b' p [] e hn hb (by rw [hb', List.append_nil]) (by simp) he hp it h ms [] hms rfl
  simpa using this

/-- the hypotheses are met by `coinCopy`, where the last measurement may be left out, and so may the first two elements
be seen as a circuit whose last element is a measurement -/
example : ∑ m ∈ Finset.range 2, outcomeProb coinCopy [] [1, m] = ENNReal.ofReal (1 / 2) := by
  rw [Finset.sum_range_succ, Finset.sum_range_one, C76_born_rule coinCopy [] (by simp) coinCopy_ok [1, 0] rfl,
    C76_born_rule coinCopy [] (by simp) coinCopy_ok [1, 1] rfl, coinCopy_branch _ _ (by omega), if_neg (by omega),
    coinCopy_branch _ _ (by omega), if_pos rfl]
  simp

example : ∑ m ∈ Finset.range 2, outcomeProb coinCopy [] ([1] ++ [m]) =
    outcomeProb { coinCopy with pipeline := coinCopy.pipeline.dropLast } [] [1] :=
  C78_total coinCopy { coinCopy with pipeline := coinCopy.pipeline.dropLast } coinCopy.pipeline.dropLast
    ([1], ⟨1, .meas .measurement⟩) rfl rfl rfl rfl coinCopy_ok [] (by simp) [1] rfl

/-! ## C79 -/

/-- A register that nothing in the circuit has touched is read back with its initial value, with probability 1,
whatever the rest of the circuit does. (The other initialised registers share no qubit with it.) -/
theorem C79_untouched (b : LocalBuilder) (p q : Pipeline) (r : Reg) (k : ℕ)
    (hb : b.pipeline = p ++ (r, ⟨k, .meas .measurement⟩) :: q) (hd : ∀ f ∈ p, List.Disjoint r f.1)
    (hp : ∀ e ∈ b.pipeline, StepOK b.n e) (it : List (Reg × ℕ)) (h : ∀ p ∈ it, ∀ q ∈ p.1, q < b.n) (x : ℕ)
    (hx : (r, x) ∈ it) (hi : ∀ p ∈ it, p ≠ (r, x) → List.Disjoint r p.1) (rnds : ℕ → ℝ)
    (hr : ∀ k, 0 < rnds k ∧ rnds k < 1) :
    ∃ v l, b.calculateStateWithInit it rnds = some (v, l) ∧
      getMeasurement l (measCount p) = some (x % 2 ^ r.length, 1) := by
  obtain ⟨v, ms, a1, a2, a3, -, -⟩ := run_all b it h hp rnds hr
  have hl := reportW_length rotAngle b.pipeline ms (ket (initAsg it)) a2
  refine ⟨v, _, a1, ?_⟩
  rw [getMeasurement_zip ms _ hl]
  have hrn : r.Nodup := by
    rcases hp (r, ⟨k, .meas .measurement⟩) (by rw [hb]; simp) with hu | ⟨-, hn, -⟩
    · exact hu.1.1.1
    · exact hn
  rw [hb] at a2
  obtain ⟨k1, k2, rfl, hk1, hk2⟩ := split_outcomes _ _ _ a2
  obtain ⟨m, k3, rfl⟩ := some_outcome (e := (r, ⟨k, .meas .measurement⟩)) (by simp) rfl hk2
  have hon : On {y | valQ r y = x % 2 ^ r.length} (branchW rotAngle p k1 (ket (initAsg it))) :=
    (On.ket (S := {y | valQ r y = x % 2 ^ r.length}) (valQ_init r hrn x it hx hi)).branch rotAngle p hd k1
  rw [hb, branchW_append _ _ _ _ _ hk1, branchW_meas _ _ _ _ _ _ _ rfl] at a3
  have hm : x % 2 ^ r.length = m := by
    by_contra hc
    rw [projW_off hon hc, branchW_zero, normW_zero] at a3
    exact lt_irrefl _ a3
  have hne : normW (branchW rotAngle p k1 (ket (initAsg it))) ≠ 0 := by
    intro hc
    rw [normW_eq_zero hc, show projW r m (0 : Wave) = 0 from map_zero (projL r m), branchW_zero, normW_zero] at a3
    exact lt_irrefl _ a3
  have hk : (reportW rotAngle p k1 (ket (initAsg it))).length = measCount p := by rw [reportW_length _ _ _ _ hk1, hk1]
  rw [hb, reportW_append _ _ _ _ _ hk1, reportW_meas _ _ _ _ _ _ _ rfl, List.getElem?_append_right (by omega), hk1,
    Nat.sub_self, List.getElem?_append_right (by omega), hk, Nat.sub_self]
  refine ⟨by rw [hm]; rfl, ?_⟩
  rw [List.getElem?_cons_zero, ← hm, projW_on hon, div_self hne]

/-- Measuring a register again, with nothing done to it in between, repeats the outcome, with probability 1. -/
theorem C79_repeated (b : LocalBuilder) (p q w : Pipeline) (r : Reg) (k k' : ℕ)
    (hb : b.pipeline = p ++ (r, ⟨k, .meas .measurement⟩) :: q ++ (r, ⟨k', .meas .measurement⟩) :: w)
    (hd : ∀ f ∈ q, List.Disjoint r f.1) (hp : ∀ e ∈ b.pipeline, StepOK b.n e) (it : List (Reg × ℕ))
    (h : ∀ p ∈ it, ∀ q ∈ p.1, q < b.n) (rnds : ℕ → ℝ) (hr : ∀ k, 0 < rnds k ∧ rnds k < 1) :
    ∃ v l m pr, b.calculateStateWithInit it rnds = some (v, l) ∧ getMeasurement l (measCount p) = some (m, pr) ∧
      getMeasurement l (measCount p + 1 + measCount q) = some (m, 1) := by
  obtain ⟨v, ms, a1, a2, a3, -, -⟩ := run_all b it h hp rnds hr
  have hl := reportW_length rotAngle b.pipeline ms (ket (initAsg it)) a2
  rw [hb, List.append_assoc] at a2
  obtain ⟨k1, k2, rfl, hk1, hk2⟩ := split_outcomes _ _ _ a2
  obtain ⟨m, k3, rfl⟩ := some_outcome (e := (r, ⟨k, .meas .measurement⟩)) (by simp) rfl hk2
  have hk3 : k3.length = measCount (q ++ (r, ⟨k', .meas .measurement⟩) :: w) := by
    rw [List.cons_append] at hk2
    unfold measCount at hk2 ⊢
    rw [List.countP_cons] at hk2
    simpa [isMeas] using hk2
  obtain ⟨k4, k5, rfl, hk4, hk5⟩ := split_outcomes _ _ _ hk3
  obtain ⟨m', k6, rfl⟩ := some_outcome (e := (r, ⟨k', .meas .measurement⟩)) (by simp) rfl hk5
  have hon : On {y | valQ r y = m} (branchW rotAngle q k4 (projW r m (branchW rotAngle p k1 (ket (initAsg it))))) :=
    (proj_on _ _ _).branch rotAngle q hd k4
  rw [hb, List.append_assoc, branchW_append _ _ _ _ _ hk1, List.cons_append, branchW_meas _ _ _ _ _ _ _ rfl,
    branchW_append _ _ _ _ _ hk4, branchW_meas _ _ _ _ _ _ _ rfl] at a3
  have hm : m = m' := by
    by_contra hc
    have e : projW r m' (branchW rotAngle q k4 (projW r m (branchW rotAngle p k1 (ket (initAsg it))))) = 0 := projW_off hon hc
    rw [e, branchW_zero, normW_zero] at a3
    exact lt_irrefl _ a3
  have hne : normW (branchW rotAngle q k4 (projW r m (branchW rotAngle p k1 (ket (initAsg it))))) ≠ 0 := by
    intro hc
    have e := normW_eq_zero hc
    dsimp only at a3
    rw [e, show projW r m' (0 : Wave) = 0 from map_zero (projL r m'), branchW_zero, normW_zero] at a3
    exact lt_irrefl _ a3
  have hk : (reportW rotAngle p k1 (ket (initAsg it))).length = measCount p := by rw [reportW_length _ _ _ _ hk1, hk1]
  have hk' : (reportW rotAngle q k4 (projW r m (branchW rotAngle p k1 (ket (initAsg it))))).length = measCount q := by
    rw [reportW_length _ _ _ _ hk4, hk4]
  have hrep : reportW rotAngle b.pipeline (k1 ++ m :: (k4 ++ m' :: k6)) (ket (initAsg it)) =
      reportW rotAngle p k1 (ket (initAsg it)) ++
        (normW (projW r m (branchW rotAngle p k1 (ket (initAsg it)))) / normW (branchW rotAngle p k1 (ket (initAsg it)))) ::
          (reportW rotAngle q k4 (projW r m (branchW rotAngle p k1 (ket (initAsg it)))) ++
            1 :: reportW rotAngle w k6 (projW r m' (branchW rotAngle q k4 (projW r m (branchW rotAngle p k1 (ket (initAsg it))))))) := by
    rw [hb, List.append_assoc, reportW_append _ _ _ _ _ hk1, List.cons_append, reportW_meas _ _ _ _ _ _ _ rfl,
      reportW_append _ _ _ _ _ hk4, reportW_meas _ _ _ _ _ _ _ rfl]
    dsimp only
    rw [← hm, projW_on hon, div_self hne]
  refine ⟨v, _, m, normW (projW r m (branchW rotAngle p k1 (ket (initAsg it)))) /
    normW (branchW rotAngle p k1 (ket (initAsg it))), a1, ?_, ?_⟩
  · rw [getMeasurement_zip _ _ hl, hrep, List.getElem?_append_right (by omega), hk1,
      Nat.sub_self, List.getElem?_append_right (by omega), hk, Nat.sub_self]
    exact ⟨rfl, rfl⟩
  · rw [getMeasurement_zip _ _ hl, hrep, List.getElem?_append_right (by omega), hk1,
      show measCount p + 1 + measCount q - measCount p = measCount q + 1 by omega, List.getElem?_append_right (by omega), hk,
      show measCount p + 1 + measCount q - measCount p = measCount q + 1 by omega, List.getElem?_cons_succ,
      List.getElem?_cons_succ, List.getElem?_append_right (by omega), List.getElem?_append_right (by omega), hk4, hk',
      Nat.sub_self, hm]
    exact ⟨rfl, rfl⟩

/-- qubit 2 holds 1; qubits 0 and 1 are entangled and measured; reading qubit 2 afterwards gives 1 -/
example (rnds : ℕ → ℝ) (hr : ∀ k, 0 < rnds k ∧ rnds k < 1) :
    ∃ v l, LocalBuilder.calculateStateWithInit ⟨coinCopy.pipeline ++ [([2], ⟨1, .meas .measurement⟩)], 3, [], 3⟩ [([2], 5)] rnds =
      some (v, l) ∧ getMeasurement l 2 = some (1, 1) := by
  refine C79_untouched ⟨coinCopy.pipeline ++ [([2], ⟨1, .meas .measurement⟩)], 3, [], 3⟩ coinCopy.pipeline [] [2] 1 rfl ?_ ?_
    [([2], 5)] (by simp) 5 (by simp) (by simp) rnds hr
  · simp [coinCopy]
  · intro e he
    rcases List.mem_append.mp he with he | he
    · rcases coinCopy_ok e he with ⟨⟨h1, h2⟩, h3⟩ | ⟨h1, h2, h3⟩
      · exact Or.inl ⟨⟨h1.mono (show 2 ≤ 3 by omega), h2⟩, h3⟩
      · exact Or.inr ⟨h1, h2, fun q hq => lt_trans (h3 q hq) (show 2 < 3 by omega)⟩
    · rw [List.mem_singleton] at he
      subst he
      exact Or.inr ⟨rfl, by simp, by simp⟩

/-- measuring qubit 0 again at the end of `coinCopy` repeats its outcome -/
example (rnds : ℕ → ℝ) (hr : ∀ k, 0 < rnds k ∧ rnds k < 1) :
    ∃ v l m pr, LocalBuilder.calculateStateWithInit ⟨[([0], ⟨1, .unitary .H⟩), ([0], ⟨1, .meas .measurement⟩),
        ([1], ⟨1, .unitary .H⟩), ([0], ⟨1, .meas .measurement⟩)], 2, [], 2⟩ [] rnds = some (v, l) ∧
      getMeasurement l 0 = some (m, pr) ∧ getMeasurement l 1 = some (m, 1) := by
  refine C79_repeated ⟨[([0], ⟨1, .unitary .H⟩), ([0], ⟨1, .meas .measurement⟩), ([1], ⟨1, .unitary .H⟩),
    ([0], ⟨1, .meas .measurement⟩)], 2, [], 2⟩ [([0], ⟨1, .unitary .H⟩)] [([1], ⟨1, .unitary .H⟩)] [] [0] 1 1 rfl
    (by simp) ?_ [] (by simp) rnds hr
  intro e he
  simp only [List.mem_cons, List.not_mem_nil, or_false] at he
  rcases he with rfl | rfl | rfl | rfl
  · exact Or.inl ⟨⟨⟨by simp, by simp, fun u hu => by cases hu; rfl⟩, rfl, _, rfl, by simp⟩, by simp⟩
  · exact Or.inr ⟨rfl, by simp, by simp⟩
  · exact Or.inl ⟨⟨⟨by simp, by simp, fun u hu => by cases hu; rfl⟩, rfl, _, rfl, by simp⟩, by simp⟩
  · exact Or.inr ⟨rfl, by simp, by simp⟩

end Verif.Props
