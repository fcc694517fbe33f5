import Verif.Spec.Stale
import Verif.Model.Examples
import Verif.Proofs.Born
import Verif.Proofs.Runs
import Verif.Proofs.Kernel
import Verif.Props.Calc

/-!
# Property C81: stochastic measurements

Refuted as stated: a stochastic measurement (and a global phase) makes the calculation go on with the state before the
last gate. The exact effect of such circuits, and what remains of the claim.
-/

namespace Verif.Props
open Complex Classical

/-- C81: in a circuit of gates and stochastic measurements, every stochastic measurement reports the probabilities of
the values of its register in the state made by the gates before it, and the state returned is that made by all the
gates. -/
def C81_claim : Prop :=
  ∀ (b : LocalBuilder) (it : List (Reg × ℕ)) (p q : Pipeline) (r : Reg) (rnds : ℕ → ℝ),
    (∀ x ∈ it, ∀ k ∈ x.1, k < b.n) → b.pipeline = p ++ (r, ⟨r.length, .meas .stochastic⟩) :: q →
    (∀ e ∈ b.pipeline, SegOK b.n e ∨ (e.2.object = .meas .stochastic ∧ EntryOK b.n e)) →
    ∃ v ms, b.calculateStateWithInit it rnds = some (v, ms) ∧
      getStochasticMeasurement ms (measCount p) =
        some (probsW r (runW rotAngle (p.filter fun e => !isMeas e) (ket (initAsg it)))) ∧
      Rep b.n v (runW rotAngle (b.pipeline.filter fun e => !isMeas e) (ket (initAsg it)))

theorem rep_zero (n : ℕ) : Rep n (List.replicate (1 <<< n) (0 : ℂ)) 0 := by
  refine ⟨by simp [Nat.one_shiftLeft], fun i hi => ?_⟩
  rw [List.getElem?_replicate, if_pos (by rw [Nat.one_shiftLeft]; exact hi)]
  rfl

theorem stale_step (n : ℕ) (rnds : ℕ → ℝ) (st : CalcState) (S : Wave × Wave) (h1 : Rep n st.state S.1) (h2 : Rep n st.arena S.2)
    (l1 : On (Low n) S.1) (l2 : On (Low n) S.2)
    (e : List ℕ × CObj) (he : SegOK n e ∨ (IdleE e ∧ EntryOK n e)) :
    ∃ st', calcStep n rnds st e = some st' ∧ Rep n st'.state (staleStep rotAngle e S).1 ∧
      Rep n st'.arena (staleStep rotAngle e S).2 ∧ On (Low n) (staleStep rotAngle e S).1 ∧
      On (Low n) (staleStep rotAngle e S).2 ∧
      st'.measurements = st.measurements ++ (if isMeas e then [.stochastic (probsW e.1 S.1)] else []) := by
  rcases he with he | ⟨he, ho⟩
  · obtain ⟨⟨a1, a2, a3⟩, -, u, hu, hg⟩ := id he
    obtain ⟨op, g1, g2⟩ := unitaryOp_ok e.1 u (a3 u hu) hg
    obtain ⟨w, w1, w2⟩ := applyOp_rep n e.1 _ op g2 a1 a2 st.state st.arena S.1 h1 h2.1
    have hs : staleStep rotAngle e S = (entryW rotAngle e S.1, S.1) := by
      unfold staleStep
      rw [hu]
      cases u with
      | GlobalPhase ρ => exact absurd rfl (hg ρ)
      | _ => rfl
    rw [hs]
    refine ⟨{ state := w, arena := st.state, measurements := st.measurements }, ?_, ?_, h1, l1.entryLow e a2, l1, ?_⟩
    · unfold calcStep
      rw [hu]
      cases u with
      | GlobalPhase ρ => exact absurd rfl (hg ρ)
      | _ => simp [g1, w1]
    · unfold entryW
      rw [hu]; exact w2
    · unfold isMeas
      rw [hu]; simp
  · rcases he with ⟨ρ, hr⟩ | hr
    · unfold calcStep staleStep isMeas
      rw [hr]
      exact ⟨_, rfl, h2, h1, l2, l1, by simp⟩
    · unfold calcStep staleStep isMeas
      rw [hr]
      simp only
      rw [measureProbs_eq n e.1 ho.1 ho.2.1]
      refine ⟨_, rfl, h2, h1, l2, l1, ?_⟩
      simp only [if_true]
      congr 3
      refine List.map_congr_left fun m hm => ?_
      exact rep_born h1 l1 e.1 ho.2.1 m (List.mem_range.mp hm)

theorem stale_fold (n : ℕ) (rnds : ℕ → ℝ) (p : Pipeline) (st : CalcState) (S : Wave × Wave) (h1 : Rep n st.state S.1)
    (h2 : Rep n st.arena S.2) (l1 : On (Low n) S.1) (l2 : On (Low n) S.2)
    (hp : ∀ e ∈ p, SegOK n e ∨ (IdleE e ∧ EntryOK n e)) :
    ∃ st', calcFold n rnds p st = some st' ∧ Rep n st'.state (staleW rotAngle p S).1 ∧
      st'.measurements = st.measurements ++ (staleProbs rotAngle p S).map .stochastic := by
  induction p generalizing st S with
  | nil => exact ⟨st, rfl, h1, by simp [staleProbs]⟩
  | cons e p ih =>
    obtain ⟨s1, a1, a2, a3, a4, a5, a6⟩ := stale_step n rnds st S h1 h2 l1 l2 e (hp e (by simp))
    obtain ⟨s2, b1, b2, b3⟩ := ih s1 _ a2 a3 a4 a5 fun e' he' => hp e' (by simp [he'])
    refine ⟨s2, by rw [calcFold_cons, a1]; exact b1, b2, ?_⟩
    rw [b3, a6, staleProbs, List.map_append, List.append_assoc]
    congr 2
    split <;> rfl

/-- The exact result of a circuit of gates, global phases and stochastic measurements: the calculation succeeds, the
state returned and the probabilities reported are those of `staleW`. -/
theorem C81_exact (b : LocalBuilder) (it : List (Reg × ℕ)) (hi : ∀ x ∈ it, ∀ k ∈ x.1, k < b.n)
    (hp : ∀ e ∈ b.pipeline, SegOK b.n e ∨ (IdleE e ∧ EntryOK b.n e)) (rnds : ℕ → ℝ) :
    ∃ v ms, b.calculateStateWithInit it rnds = some (v, ms) ∧
      Rep b.n v (staleW rotAngle b.pipeline (ket (initAsg it), 0)).1 ∧
      ms.length = measCount b.pipeline ∧
      ∀ k, getStochasticMeasurement ms k = (staleProbs rotAngle b.pipeline (ket (initAsg it), 0))[k]? := by
  obtain ⟨i, i1, i2, i3, i4⟩ := calculate_eq b it hi rnds
  have hr : Rep b.n (calcInit b.n i).state (ket (initAsg it)) := by
    rw [← i2]
    unfold calcInit
    rw [Nat.one_shiftLeft]
    exact rep_ket b.n i i1
  have hlow : On (Low b.n) (ket (initAsg it)) := by
    rw [← i2]
    exact On.ket (asg_low b.n i)
  obtain ⟨st, g1, g2, g3⟩ := stale_fold b.n rnds b.pipeline (calcInit b.n i) (ket (initAsg it), 0) hr (rep_zero b.n) hlow
    (fun x hx => absurd hx (by simp)) hp
  refine ⟨st.state, st.measurements, by rw [i4, g1]; rfl, g2, ?_, fun k => ?_⟩
  · obtain ⟨l, m1, m2⟩ := calcFold_meas _ _ _ _ _ g1
    rw [m1, ← m2]
    simp [calcInit]
  · rw [g3]
    simp only [calcInit, List.nil_append]
    unfold getStochasticMeasurement
    rw [List.getElem?_map]
    cases (staleProbs rotAngle b.pipeline (ket (initAsg it), 0))[k]? <;> rfl

theorem staleW_append (ang : Rot → ℝ) (p q : Pipeline) (S : Wave × Wave) :
    staleW ang (p ++ q) S = staleW ang q (staleW ang p S) := by
  induction p generalizing S with
  | nil => rfl
  | cons e p ih => exact ih _

theorem staleProbs_append (ang : Rot → ℝ) (p q : Pipeline) (S : Wave × Wave) :
    staleProbs ang (p ++ q) S = staleProbs ang p S ++ staleProbs ang q (staleW ang p S) := by
  induction p generalizing S with
  | nil => rfl
  | cons e p ih => rw [List.cons_append, staleProbs, staleProbs, ih, List.append_assoc]; rfl

theorem staleStep_gate (ang : Rot → ℝ) {n : ℕ} {e : List ℕ × CObj} (he : SegOK n e) (S : Wave × Wave) :
    staleStep ang e S = (entryW ang e S.1, S.1) := by
  obtain ⟨-, -, u, hu, hg⟩ := he
  unfold staleStep
  rw [hu]
  cases u with
  | GlobalPhase ρ => exact absurd rfl (hg ρ)
  | _ => rfl

theorem staleStep_idle (ang : Rot → ℝ) {e : List ℕ × CObj} (he : IdleE e) (S : Wave × Wave) :
    staleStep ang e S = (S.2, S.1) := by
  unfold staleStep
  rcases he with ⟨ρ, h⟩ | h <;> rw [h]

theorem not_meas {n : ℕ} {e : List ℕ × CObj} (he : SegOK n e) : isMeas e = false := by
  obtain ⟨-, -, u, hu, -⟩ := he
  unfold isMeas
  rw [hu]

theorem stale_gates (ang : Rot → ℝ) {n : ℕ} {p : Pipeline} (hp : ∀ e ∈ p, SegOK n e) (S : Wave × Wave) :
    (staleW ang p S).1 = runW ang p S.1 ∧ staleProbs ang p S = [] := by
  induction p generalizing S with
  | nil => exact ⟨rfl, rfl⟩
  | cons e p ih =>
    have he := hp e (by simp)
    obtain ⟨a1, a2⟩ := ih (fun e' he' => hp e' (by simp [he'])) (staleStep ang e S)
    refine ⟨?_, ?_⟩
    · rw [staleW, a1, runW_cons, staleStep_gate ang he]
    · rw [staleProbs, a2, not_meas he]; rfl

/-- Proved part of C81: the first stochastic measurement of a circuit, if it comes after gates only, reports the
probabilities of the values of its register, whatever comes after it. -/
theorem C81_probabilities_partial (b : LocalBuilder) (it : List (Reg × ℕ)) (hi : ∀ x ∈ it, ∀ k ∈ x.1, k < b.n)
    (p q : Pipeline) (r : Reg) (k : ℕ) (hb : b.pipeline = p ++ (r, ⟨k, .meas .stochastic⟩) :: q) (hr : r.Nodup)
    (hrn : ∀ i ∈ r, i < b.n) (hp : ∀ e ∈ p, SegOK b.n e) (hq : ∀ e ∈ q, SegOK b.n e ∨ (IdleE e ∧ EntryOK b.n e)) (rnds : ℕ → ℝ) :
    ∃ v ms, b.calculateStateWithInit it rnds = some (v, ms) ∧
      getStochasticMeasurement ms 0 = some (probsW r (runW rotAngle p (ket (initAsg it)))) := by
  obtain ⟨v, ms, h1, -, -, h4⟩ := C81_exact b it hi (by
    rw [hb]
    intro e he
    rcases List.mem_append.mp he with he | he
    · exact Or.inl (hp e he)
    · rcases List.mem_cons.mp he with rfl | he
      · exact Or.inr ⟨Or.inr rfl, hr, hrn, fun u hu => by cases hu⟩
      · exact hq e he) rnds
  refine ⟨v, ms, h1, ?_⟩
  obtain ⟨a1, a2⟩ := stale_gates rotAngle hp (ket (initAsg it), 0)
  rw [h4, hb, staleProbs_append, a2, List.nil_append, staleProbs, a1]
  rfl

/-- ... and, if nothing comes after it, the state returned is the one before the last gate. -/
theorem C81_state (b : LocalBuilder) (it : List (Reg × ℕ)) (hi : ∀ x ∈ it, ∀ k ∈ x.1, k < b.n) (p : Pipeline)
    (g e : List ℕ × CObj) (hb : b.pipeline = p ++ [g, e]) (hp : ∀ e ∈ p, SegOK b.n e) (hg : SegOK b.n g) (he : IdleE e)
    (ho : EntryOK b.n e) (rnds : ℕ → ℝ) :
    ∃ v ms, b.calculateStateWithInit it rnds = some (v, ms) ∧ Rep b.n v (runW rotAngle p (ket (initAsg it))) := by
  obtain ⟨v, ms, h1, h2, -, -⟩ := C81_exact b it hi (by
    rw [hb]
    intro e' he'
    rcases List.mem_append.mp he' with he' | he'
    · exact Or.inl (hp e' he')
    · simp only [List.mem_cons, List.not_mem_nil, or_false] at he'
      rcases he' with rfl | rfl
      · exact Or.inl hg
      · exact Or.inr ⟨he, ho⟩) rnds
  refine ⟨v, ms, h1, ?_⟩
  rw [hb, staleW_append, staleW, staleW, staleW, staleStep_gate rotAngle hg, staleStep_idle rotAngle he,
    (stale_gates rotAngle hp _).1] at h2
  exact h2

/-- A gate `g` followed by a stochastic measurement or a global phase and another gate is lost: the state returned is
that of the circuit without it, whatever comes before and after. -/
theorem C81_lost (n : ℕ) (p q : Pipeline) (g e g' : List ℕ × CObj) (hg : SegOK n g) (he : IdleE e) (ho : EntryOK n e)
    (hg' : SegOK n g') (hp : ∀ e ∈ p, SegOK n e ∨ (IdleE e ∧ EntryOK n e)) (hq : ∀ e ∈ q, SegOK n e ∨ (IdleE e ∧ EntryOK n e))
    (it : List (Reg × ℕ)) (hi : ∀ x ∈ it, ∀ k ∈ x.1, k < n) (rnds : ℕ → ℝ) :
    ∃ v ms ms', LocalBuilder.calculateStateWithInit ⟨p ++ g :: e :: g' :: q, n, [], 0⟩ it rnds = some (v, ms) ∧
      LocalBuilder.calculateStateWithInit ⟨p ++ g' :: q, n, [], 0⟩ it rnds = some (v, ms') := by
  obtain ⟨v, ms, h1, h2, -, -⟩ := C81_exact ⟨p ++ g :: e :: g' :: q, n, [], 0⟩ it hi (by
    intro e' he'
    rcases List.mem_append.mp he' with he' | he'
    · exact hp e' he'
    · simp only [List.mem_cons] at he'
      rcases he' with rfl | rfl | rfl | he'
      · exact Or.inl hg
      · exact Or.inr ⟨he, ho⟩
      · exact Or.inl hg'
      · exact hq e' he') rnds
  obtain ⟨v', ms', h1', h2', -, -⟩ := C81_exact ⟨p ++ g' :: q, n, [], 0⟩ it hi (by
    intro e' he'
    rcases List.mem_append.mp he' with he' | he'
    · exact hp e' he'
    · simp only [List.mem_cons] at he'
      rcases he' with rfl | he'
      · exact Or.inl hg'
      · exact hq e' he') rnds
  refine ⟨v, ms, ms', h1, ?_⟩
  dsimp only at h2 h2'
  simp only [staleW_append, staleW, staleStep_gate rotAngle hg, staleStep_idle rotAngle he, staleStep_gate rotAngle hg'] at h2 h2'
  rw [h1', rep_unique h2 h2']

/-- a NOT on qubit 1, a stochastic measurement of both qubits, a CNOT, a global phase and a Hadamard gate: only the
Hadamard gate acts -/
example (rnds : ℕ → ℝ) : ∃ v ms ms', LocalBuilder.calculateStateWithInit
      ⟨[([1], ⟨1, .unitary .X⟩), ([0, 1], ⟨2, .meas .stochastic⟩), ([1, 0], ⟨2, .unitary .CNOT⟩),
        ([0], ⟨1, .unitary (.GlobalPhase (.floating 1))⟩), ([0], ⟨1, .unitary .H⟩)], 2, [], 0⟩ [([1], 1)] rnds = some (v, ms) ∧
    LocalBuilder.calculateStateWithInit ⟨[([0], ⟨1, .unitary .H⟩)], 2, [], 0⟩ [([1], 1)] rnds = some (v, ms') := by
  have hX : SegOK 2 ([1], ⟨1, .unitary .X⟩) := ⟨⟨by simp, by simp, fun u hu => by cases hu; rfl⟩, rfl, _, rfl, by simp⟩
  have hH : SegOK 2 ([0], ⟨1, .unitary .H⟩) := ⟨⟨by simp, by simp, fun u hu => by cases hu; rfl⟩, rfl, _, rfl, by simp⟩
  have hC : SegOK 2 ([1, 0], ⟨2, .unitary .CNOT⟩) := ⟨⟨by simp, by simp, fun u hu => by cases hu; rfl⟩, rfl, _, rfl, by simp⟩
  have hG : EntryOK 2 ([0], ⟨1, .unitary (.GlobalPhase (.floating 1))⟩) := ⟨by simp, by simp, fun u hu => by cases hu; exact Nat.one_pos⟩
  obtain ⟨v, ms, ms', a1, a2⟩ := C81_lost 2 [] [([0], ⟨1, .unitary (.GlobalPhase (.floating 1))⟩), ([0], ⟨1, .unitary .H⟩)]
    ([1], ⟨1, .unitary .X⟩) ([0, 1], ⟨2, .meas .stochastic⟩) ([1, 0], ⟨2, .unitary .CNOT⟩) hX (Or.inr rfl)
    ⟨by simp, by simp, by simp⟩ hC (by simp) (by
      intro e he
      simp only [List.mem_cons, List.not_mem_nil, or_false] at he
      rcases he with rfl | rfl
      · exact Or.inr ⟨Or.inl ⟨_, rfl⟩, hG⟩
      · exact Or.inl hH) [([1], 1)] (by simp) rnds
  obtain ⟨w, ns, ns', b1, b2⟩ := C81_lost 2 [] [] ([1, 0], ⟨2, .unitary .CNOT⟩) ([0], ⟨1, .unitary (.GlobalPhase (.floating 1))⟩)
    ([0], ⟨1, .unitary .H⟩) hC (Or.inl ⟨_, rfl⟩) hG hH (by simp) (by simp) [([1], 1)] (by simp) rnds
  have hvw : v = w := by
    have := a2.symm.trans b1
    simp at this
    exact this.1
  exact ⟨v, ms, ns', a1, hvw ▸ b2⟩

/-- the circuit that examples/simple.rs builds -/
theorem simple_run : simpleExample LocalBuilder.default = .ok ([0, 1], 0)
    ⟨[([0], ⟨1, .unitary .H⟩), ([0, 1], ⟨2, .unitary .CNOT⟩), ([0, 1], ⟨2, .meas .stochastic⟩)], 2, [], 1⟩ := by
  krfl

/-- `|00⟩` -/
def zz : Asg := fun _ => false

theorem simple_h : entryW rotAngle ([0], ⟨1, .unitary .H⟩) (ket (initAsg [])) =
    (1 / Real.sqrt 2 : ℂ) • ket zz + (1 / Real.sqrt 2 : ℂ) • ket (setQ 0 true zz) := by
  show gateW [0] (uMat rotAngle 1 .H) (ket zz) = _
  rw [h_ket, setQ_self 0 zz false rfl]
  simp [zz]

theorem simple_cnot : runW rotAngle [([0], ⟨1, .unitary .H⟩), ([0, 1], ⟨2, .unitary .CNOT⟩)] (ket (initAsg [])) =
    (1 / Real.sqrt 2 : ℂ) • ket zz + (1 / Real.sqrt 2 : ℂ) • ket (setQ 1 true (setQ 0 true zz)) := by
  rw [runW_cons, simple_h, runW_cons]
  show gateW [0, 1] (uMat rotAngle 2 .CNOT) _ = _
  rw [map_add, map_smul, map_smul, cnot_ket _ 0 1 (by decide), cnot_ket _ 0 1 (by decide), setQ_eq]
  rfl

theorem simple_ok : ∀ e ∈ ([([0], ⟨1, .unitary .H⟩), ([0, 1], ⟨2, .unitary .CNOT⟩)] : Pipeline), SegOK 2 e := by
  intro e he
  simp at he
  rcases he with rfl | rfl
  · exact ⟨⟨by simp, by simp, fun u hu => by cases hu; rfl⟩, rfl, _, rfl, by simp⟩
  · exact ⟨⟨by simp, by simp, fun u hu => by cases hu; rfl⟩, rfl, _, rfl, by simp⟩

theorem normW_smul_ket (c : ℂ) (x : Asg) : normW (c • ket x) = normSq c := by
  rw [normW_smul]
  unfold normW ket
  rw [Finsupp.sum_single_index (by simp)]; simp

theorem simple_probs : probsW [0, 1] ((1 / Real.sqrt 2 : ℂ) • ket zz + (1 / Real.sqrt 2 : ℂ) • ket (setQ 1 true (setQ 0 true zz))) =
    [1 / 2, 0, 0, 1 / 2] := by
  have hn : normSq (1 / Real.sqrt 2 : ℂ) = 1 / 2 := by
    rw [← ofReal_one, ← ofReal_div, normSq_ofReal, div_mul_div_comm, Real.mul_self_sqrt (by norm_num)]; norm_num
  have v0 : valQ [0, 1] zz = 0 := by simp [valQ, zz]
  have v1 : valQ [0, 1] (setQ 1 true (setQ 0 true zz)) = 3 := by decide
  have h0 : normW 0 = 0 := by simp [normW]
  have pj : ∀ m x, projL [0, 1] m (ket x) = if valQ [0, 1] x = m then ket x else 0 := fun m x => projW_ket _ _ _
  have e : ∀ m, normW (projW [0, 1] m ((1 / Real.sqrt 2 : ℂ) • ket zz + (1 / Real.sqrt 2 : ℂ) • ket (setQ 1 true (setQ 0 true zz)))) =
      normW ((1 / Real.sqrt 2 : ℂ) • (if 0 = m then ket zz else 0) +
        (1 / Real.sqrt 2 : ℂ) • (if 3 = m then ket (setQ 1 true (setQ 0 true zz)) else 0)) := by
    intro m
    show normW (projL [0, 1] m _) = _
    rw [map_add, map_smul, map_smul, pj, pj, v0, v1]
  unfold probsW
  show List.map _ [0, 1, 2, 3] = _
  simp only [List.map]
  rw [e, e, e, e]
  simp [normW_smul_ket, hn, h0]

/-- examples/simple.rs: the stochastic measurement reports the probabilities 1/2, 0, 0, 1/2 of the four values, but the
state returned is (|00⟩ + |10⟩)/√2, without the CNOT. -/
theorem C81_simple (rnds : ℕ → ℝ) : ∃ s, simpleExample LocalBuilder.default = .ok ([0, 1], 0) s ∧
    ∃ v ms, s.calculateState rnds = some (v, ms) ∧ getStochasticMeasurement ms 0 = some [1 / 2, 0, 0, 1 / 2] ∧
      v = [1 / (Real.sqrt 2 : ℂ), 0, 1 / (Real.sqrt 2 : ℂ), 0] := by
  refine ⟨_, simple_run, ?_⟩
  obtain ⟨v, ms, h1, h2⟩ := C81_probabilities_partial ⟨[([0], ⟨1, .unitary .H⟩), ([0, 1], ⟨2, .unitary .CNOT⟩), ([0, 1], ⟨2, .meas .stochastic⟩)], 2, [], 1⟩ [] (by simp)
    [([0], ⟨1, .unitary .H⟩), ([0, 1], ⟨2, .unitary .CNOT⟩)] [] [0, 1] 2 rfl (by simp) (by simp) simple_ok (by simp) rnds
  obtain ⟨w, ms', g1, g2⟩ := C81_state ⟨[([0], ⟨1, .unitary .H⟩), ([0, 1], ⟨2, .unitary .CNOT⟩), ([0, 1], ⟨2, .meas .stochastic⟩)], 2, [], 1⟩ [] (by simp) [([0], ⟨1, .unitary .H⟩)] ([0, 1], ⟨2, .unitary .CNOT⟩)
    ([0, 1], ⟨2, .meas .stochastic⟩) rfl (fun e he => simple_ok e (by simp at he; simp [he])) (simple_ok _ (by simp)) (Or.inr rfl)
    ⟨by simp, by simp, by simp⟩ rnds
  refine ⟨v, ms, h1, by rw [h2, simple_cnot, simple_probs], ?_⟩
  have hvw : v = w := by
    have := h1.symm.trans g1
    simp at this
    exact this.1
  rw [hvw]
  refine rep_unique g2 ⟨rfl, fun i hi => ?_⟩
  rw [runW_cons, simple_h]
  show _ = some (((1 / Real.sqrt 2 : ℂ) • ket zz + (1 / Real.sqrt 2 : ℂ) • ket (setQ 0 true zz)) (asg 2 i))
  have d : ∀ x y : Asg, ket x y = if x = y then 1 else 0 := fun x y => Finsupp.single_apply
  rw [Finsupp.add_apply, Finsupp.smul_apply, Finsupp.smul_apply, d, d]
  have a : ∀ i, i < 4 → (zz = asg 2 i ↔ i = 0) := by
    intro i hi
    constructor
    · intro h
      have h0 := congrFun h 0
      have h1 := congrFun h 1
      interval_cases i
      · rfl
      · exact absurd h1 (by decide)
      · exact absurd h0 (by decide)
      · exact absurd h0 (by decide)
    · rintro rfl
      funext q; simp [zz, asg]
  have c : ∀ i, i < 4 → (setQ 0 true zz = asg 2 i ↔ i = 2) := by
    intro i hi
    constructor
    · intro h
      have h0 := congrFun h 0
      have h1 := congrFun h 1
      interval_cases i
      · exact absurd h0 (by decide)
      · exact absurd h0 (by decide)
      · rfl
      · exact absurd h1 (by decide)
    · rintro rfl
      funext q
      by_cases h : q = 0
      · subst h; rfl
      · by_cases h1 : q = 1
        · subst h1; rfl
        · rw [setQ_ne h]; simp [zz, asg]; omega
  have hi4 : i < 4 := hi
  simp only [a i hi4, c i hi4]
  interval_cases i <;> simp

/-- The example refutes the claim. -/
theorem C81_refuted : ¬ C81_claim := by
  intro h
  obtain ⟨s, hs, v, ms, h1, -, h3⟩ := C81_simple fun _ => 0
  rw [simple_run] at hs
  injection hs with _ hs
  obtain ⟨w, ms', g1, -, g3⟩ := h s [] [([0], ⟨1, .unitary .H⟩), ([0, 1], ⟨2, .unitary .CNOT⟩)] [] [0, 1] (fun _ => 0) (by simp)
    (by rw [← hs]; rfl) (by
      rw [← hs]
      intro e he
      simp only [List.mem_cons, List.not_mem_nil, or_false] at he
      rcases he with rfl | rfl | rfl
      · exact Or.inl (simple_ok _ (by simp))
      · exact Or.inl (simple_ok _ (by simp))
      · exact Or.inr ⟨rfl, by simp, by simp, by simp⟩)
  have hvw : v = w := by
    have := (show s.calculateStateWithInit [] _ = _ from h1).symm.trans g1
    simp at this
    exact this.1
  rw [← hs] at g3
  have g4 : Rep 2 v (runW rotAngle [([0], ⟨1, .unitary .H⟩), ([0, 1], ⟨2, .unitary .CNOT⟩)] (ket (initAsg []))) := by
    rw [hvw]; exact g3
  rw [simple_cnot, h3] at g4
  have := g4.2 2 (by decide)
  have d : ∀ x y : Asg, ket x y = if x = y then 1 else 0 := fun x y => Finsupp.single_apply
  rw [Finsupp.add_apply, Finsupp.smul_apply, Finsupp.smul_apply, d, d,
    if_neg (fun e => absurd (congrFun e 0) (by decide)), if_neg (fun e => absurd (congrFun e 1) (by decide))] at this
  simp at this

end Verif.Props
