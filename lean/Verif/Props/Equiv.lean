import Verif.Spec.Equiv
import Verif.Proofs.Equiv
import Verif.Props.Runs
import Verif.Props.Sub
import Verif.Proofs.Qfft

/-!
# Properties C90, C91: pieces of circuit that cannot be told apart

C90: a piece of circuit may be replaced by another one that does the same up to a factor of absolute value one.
C91: a measurement may be put off until after gates that leave the value of the register alone.
-/

namespace Verif.Props
open Complex Classical MeasureTheory

/-! ## C90 -/

/-- Replace the gates `g` between two parts of a circuit by gates `g'` that, on the states that occur there, do the same up to a factor `c` of
absolute value one. With the same draws the calculation gives the same outcomes and the same probabilities, and the state times `c`. -/
theorem C90_replace (b b' : LocalBuilder) (p g g' q : Pipeline) (hn : b'.n = b.n) (hb : b.pipeline = p ++ (g ++ q)) (hb' : b'.pipeline = p ++ (g' ++ q))
    (hg : ∀ e ∈ g, isMeas e = false) (hg' : ∀ e ∈ g', isMeas e = false) (hp : ∀ e ∈ b.pipeline, StepOK b.n e) (hp' : ∀ e ∈ b'.pipeline, StepOK b'.n e)
    (it : List (Reg × ℕ)) (h : ∀ p ∈ it, ∀ q ∈ p.1, q < b.n) (c : ℂ) (hc : ‖c‖ = 1)
    (heq : ∀ ks, ks.length = measCount p → runW rotAngle g' (branchW rotAngle p ks (ket (initAsg it))) =
      c • runW rotAngle g (branchW rotAngle p ks (ket (initAsg it))))
    (rnds : ℕ → ℝ) (hr : ∀ k, 0 < rnds k ∧ rnds k < 1) :
    ∃ v l, b.calculateStateWithInit it rnds = some (v, l) ∧ b'.calculateStateWithInit it rnds = some (v.map (c * ·), l) := by
  have hc' : normSq c = 1 := by rw [normSq_eq_norm_sq, hc]; norm_num
  obtain ⟨v, ms, a1, a2, a3, a4, a5⟩ := run_all b it h hp rnds hr
  obtain ⟨v', ms', b1, b2, b3, b4, b5⟩ := run_all b' it (hn ▸ h) hp' rnds hr
  have hmc : measCount b'.pipeline = measCount b.pipeline := by
    rw [hb, hb', measCount_append, measCount_append, measCount_append, measCount_append, measCount_gates g hg, measCount_gates g' hg']
  have key : ∀ ks, ks.length = measCount b.pipeline →
      branchW rotAngle b'.pipeline ks (ket (initAsg it)) = c • branchW rotAngle b.pipeline ks (ket (initAsg it)) ∧
      reportW rotAngle b'.pipeline ks (ket (initAsg it)) = reportW rotAngle b.pipeline ks (ket (initAsg it)) ∧
      drawSets b'.n b'.pipeline ks (ket (initAsg it)) = drawSets b.n b.pipeline ks (ket (initAsg it)) := by
    intro ks hks
    rw [hb] at hks
    obtain ⟨k1, k2, rfl, hk1, hk2⟩ := split_outcomes _ _ _ hks
    rw [hb, hb', hn, branchW_append _ _ _ _ _ hk1, branchW_append _ _ _ _ _ hk1, reportW_append _ _ _ _ _ hk1,
      reportW_append _ _ _ _ _ hk1, drawSets_append _ _ _ _ _ hk1, drawSets_append _ _ _ _ _ hk1,
      branchW_gates _ _ _ hg, branchW_gates _ _ _ hg', reportW_gates _ _ _ hg, reportW_gates _ _ _ hg', drawSets_gates _ _ _ hg, drawSets_gates _ _ _ hg',
      heq k1 hk1, branchW_smul, reportW_smul _ _ _ _ hc', drawSets_smul _ _ _ _ hc']
    exact ⟨rfl, rfl, rfl⟩
  have hms : ms' = ms := by
    rw [a5 ms' (by rw [b2, hmc])]
    have := (b5 ms' b2).mp rfl
    rwa [(key ms' (by rw [b2, hmc])).2.2] at this
  subst hms
  obtain ⟨k1, k2, -⟩ := key ms' a2
  rw [k1, hn, unitW_smul c hc'] at b4
  refine ⟨v, _, a1, ?_⟩
  rw [b1, k2, rep_unique (a4.smul c) b4]

/-- The same for gates that do the same, up to the factor, on all basis states. -/
theorem C90_equal (b b' : LocalBuilder) (p g g' q : Pipeline) (hn : b'.n = b.n) (hb : b.pipeline = p ++ (g ++ q)) (hb' : b'.pipeline = p ++ (g' ++ q))
    (hg : ∀ e ∈ g, isMeas e = false) (hg' : ∀ e ∈ g', isMeas e = false) (hp : ∀ e ∈ b.pipeline, StepOK b.n e) (hp' : ∀ e ∈ b'.pipeline, StepOK b'.n e)
    (it : List (Reg × ℕ)) (h : ∀ p ∈ it, ∀ q ∈ p.1, q < b.n) (c : ℂ) (hc : ‖c‖ = 1)
    (heq : ∀ x, (∀ i, b.n ≤ i → x i = false) → runW rotAngle g' (ket x) = c • runW rotAngle g (ket x)) (rnds : ℕ → ℝ) (hr : ∀ k, 0 < rnds k ∧ rnds k < 1) :
    ∃ v l, b.calculateStateWithInit it rnds = some (v, l) ∧ b'.calculateStateWithInit it rnds = some (v.map (c * ·), l) := by
  refine C90_replace b b' p g g' q hn hb hb' hg hg' hp hp' it h c hc (fun ks hks => ?_) rnds hr
  have hlow : On (Low b.n) (ket (initAsg it)) := (run_calculate b it h fun _ => 0).choose_spec.2.2.2.2
  exact eq_on (Low b.n) (runW rotAngle g') (c • runW rotAngle g) (fun x hx => heq x hx) _
    (branch_low (fun e he => hp e (by rw [hb]; simp [he])) ks hlow)

/-- The probabilities of all sequences of outcomes are the same. -/
theorem C90_outcomes (b b' : LocalBuilder) (p g g' q : Pipeline) (hn : b'.n = b.n) (hb : b.pipeline = p ++ (g ++ q)) (hb' : b'.pipeline = p ++ (g' ++ q))
    (hg : ∀ e ∈ g, isMeas e = false) (hg' : ∀ e ∈ g', isMeas e = false) (hp : ∀ e ∈ b.pipeline, StepOK b.n e) (hp' : ∀ e ∈ b'.pipeline, StepOK b'.n e)
    (it : List (Reg × ℕ)) (h : ∀ p ∈ it, ∀ q ∈ p.1, q < b.n) (c : ℂ) (hc : ‖c‖ = 1)
    (heq : ∀ ks, ks.length = measCount p → runW rotAngle g' (branchW rotAngle p ks (ket (initAsg it))) =
      c • runW rotAngle g (branchW rotAngle p ks (ket (initAsg it)))) (ms : List ℕ) (hms : ms.length = measCount b.pipeline) :
    outcomeProb b' it ms = outcomeProb b it ms := by
  have hc' : normSq c = 1 := by rw [normSq_eq_norm_sq, hc]; norm_num
  have hmc : measCount b'.pipeline = measCount b.pipeline := by
    rw [hb, hb', measCount_append, measCount_append, measCount_append, measCount_append, measCount_gates g hg, measCount_gates g' hg']
  rw [C76_born_rule b it h hp ms hms, C76_born_rule b' it (hn ▸ h) hp' ms (by rw [hms, hmc])]
  have hms' := hms
  rw [hb] at hms'
  obtain ⟨k1, k2, rfl, hk1, hk2⟩ := split_outcomes _ _ _ hms'
  rw [hb, hb', branchW_append _ _ _ _ _ hk1, branchW_append _ _ _ _ _ hk1, branchW_gates _ _ _ hg, branchW_gates _ _ _ hg', heq k1 hk1, branchW_smul,
    normW_smul, hc', one_mul]

theorem segU_gate {n : ℕ} {e : List ℕ × CObj} (h : SegU n e) : isMeas e = false := by
  obtain ⟨u, hu, -⟩ := h.1.2.2
  simp [isMeas, hu]

/-- A subcircuit followed by its inverse, put anywhere into a circuit, changes nothing at all. -/
theorem C90_inverse (b : LocalBuilder) (p q sc : Pipeline) (hb : b.pipeline = p ++ q) (hp : ∀ e ∈ b.pipeline, StepOK b.n e) (hs : ∀ e ∈ sc, SegU b.n e) :
    ∃ inv, invertSub sc = .ok inv ∧ ∀ (it : List (Reg × ℕ)), (∀ p ∈ it, ∀ q ∈ p.1, q < b.n) → ∀ rnds : ℕ → ℝ, (∀ k, 0 < rnds k ∧ rnds k < 1) →
      LocalBuilder.calculateStateWithInit { b with pipeline := p ++ (sc ++ inv ++ q) } it rnds = b.calculateStateWithInit it rnds := by
  obtain ⟨inv, p1, p2, p3, -, -, p6⟩ := invertSub_ok rotAngle_neg b.n sc fun e he =>
    ⟨(hs e he).1.1, (hs e he).1.2.1, (hs e he).1.2.2.choose, (hs e he).1.2.2.choose_spec.1⟩
  have hm : UnitaryMats sc := fun e he data hd => (hs e he).2 data hd
  have hi : ∀ e ∈ sc ++ inv, SegU b.n e := by
    intro e he
    rcases List.mem_append.mp he with he | he
    · exact hs e he
    · exact p3 hs e he
  refine ⟨inv, p1, fun it h rnds hr => ?_⟩
  obtain ⟨v, l, a1, a2⟩ := C90_equal b { b with pipeline := p ++ (sc ++ inv ++ q) } p [] (sc ++ inv) q rfl (by rw [hb, List.nil_append]) rfl (by simp)
    (fun e he => segU_gate (hi e he)) hp (by
      intro e he
      simp only [List.mem_append] at he
      rcases he with he | (he | he) | he
      · exact hp e (by rw [hb]; simp [he])
      · exact Or.inl (hs e he)
      · exact Or.inl (p3 hs e he)
      · exact hp e (by rw [hb]; simp [he])) it h 1 (by simp) (fun x _ => by
      rw [runW_append, (p6 hm (ket x)).1, one_smul]
      rfl) rnds hr
  rw [a1, a2]
  simp

/-! ## C91 -/

/-- A measurement may be put off: exchange a measurement of `r` and the gates `g` after it, if on the basis states that occur there the gates
leave the value of `r` alone. All outcomes keep their probabilities, and runs with the same outcomes report the same probabilities and end in
the same state. -/
theorem C91_defer (b b' : LocalBuilder) (p g q : Pipeline) (e : List ℕ × CObj) (hn : b'.n = b.n) (hb : b.pipeline = p ++ e :: (g ++ q))
    (hb' : b'.pipeline = p ++ (g ++ e :: q)) (he : isMeas e = true) (hg : ∀ e ∈ g, SegU b.n e) (hp : ∀ e ∈ b.pipeline, StepOK b.n e)
    (it : List (Reg × ℕ)) (h : ∀ p ∈ it, ∀ q ∈ p.1, q < b.n) (S : Set Asg)
    (hS : ∀ ks, ks.length = measCount p → ∀ x, branchW rotAngle p ks (ket (initAsg it)) x ≠ 0 → x ∈ S)
    (hk : ∀ x ∈ S, ∀ y, runW rotAngle g (ket x) y ≠ 0 → valQ e.1 y = valQ e.1 x) (ms ks ls : List ℕ) (m : ℕ) (hms : ms = ks ++ m :: ls)
    (hks : ks.length = measCount p) (hls : ls.length = measCount q) :
    outcomeProb b' it ms = outcomeProb b it ms ∧
      ∀ rnds rnds' v v' l l', (∀ k, 0 < rnds k ∧ rnds k < 1) → (∀ k, 0 < rnds' k ∧ rnds' k < 1) →
        Outcomes b it rnds ms → Outcomes b' it rnds' ms → b.calculateStateWithInit it rnds = some (v, l) →
        b'.calculateStateWithInit it rnds' = some (v', l') → v = v' ∧ l = l' := by
  have hp' : ∀ e ∈ b'.pipeline, StepOK b'.n e := by
    intro f hf
    rw [hb'] at hf
    rw [hn]
    refine hp f ?_
    rw [hb]
    simp only [List.mem_append, List.mem_cons] at hf ⊢
    tauto
  have hgm : ∀ e ∈ g, isMeas e = false := fun e he => segU_gate (hg e he)
  obtain ⟨o, ho⟩ : ∃ o, e.2.object = .meas o := by
    cases ho : e.2.object with
    | unitary u => simp [isMeas, ho] at he
    | meas o => exact ⟨o, rfl⟩
  have hlen : ms.length = measCount b.pipeline := by
    rw [hb, measCount_append, show e :: (g ++ q) = [e] ++ (g ++ q) from rfl, measCount_append, measCount_append, measCount_gates g hgm, hms]
    have : measCount [e] = 1 := by unfold measCount; simp [he]
    rw [this]
    simp
    omega
  have hmc : measCount b'.pipeline = measCount b.pipeline := by
    rw [hb, hb', measCount_append, measCount_append, measCount_append, show e :: (g ++ q) = [e] ++ (g ++ q) from rfl, show e :: q = [e] ++ q from rfl,
      measCount_append, measCount_append, measCount_append]
    omega
  have hlow : On (Low b.n) (ket (initAsg it)) := (run_calculate b it h fun _ => 0).choose_spec.2.2.2.2
  have hl1 := branch_low (fun e he => hp e (by rw [hb]; simp [he])) ks hlow (p := p)
  have hon : On S (branchW rotAngle p ks (ket (initAsg it))) := fun x hx => hS ks hks x (Finsupp.mem_support_iff.mp hx)
  have key : branchW rotAngle b'.pipeline ms (ket (initAsg it)) = branchW rotAngle b.pipeline ms (ket (initAsg it)) ∧
      reportW rotAngle b'.pipeline ms (ket (initAsg it)) = reportW rotAngle b.pipeline ms (ket (initAsg it)) := by
    have hcomm := proj_run_comm S (runW rotAngle g) e.1 (fun x hx y hy => hk x hx y (Finsupp.mem_support_iff.mp hy)) m _ hon
    rw [hms, hb, hb', branchW_append _ _ _ _ _ hks, branchW_append _ _ _ _ _ hks, reportW_append _ _ _ _ _ hks, reportW_append _ _ _ _ _ hks,
      branchW_gates _ _ _ hgm, branchW_meas _ _ _ _ _ _ _ ho, branchW_meas _ _ _ _ _ _ _ ho, branchW_gates _ _ _ hgm, reportW_gates _ _ _ hgm,
      reportW_meas _ _ _ _ _ _ _ ho, reportW_meas _ _ _ _ _ _ _ ho, reportW_gates _ _ _ hgm, hcomm, normW_run g hg hl1, normW_run g hg (hl1.proj _ _)]
    exact ⟨rfl, rfl⟩
  refine ⟨?_, ?_⟩
  · rw [C76_born_rule b it h hp ms hlen, C76_born_rule b' it (hn ▸ h) hp' ms (by rw [hlen, hmc]), key.1]
  · intro rnds rnds' v v' l l' hr hr' g g' c c'
    obtain ⟨v1, ms1, a1, a2, -, a4, -⟩ := run_all b it h hp rnds hr
    obtain ⟨v2, ms2, b1, b2, -, b4, -⟩ := run_all b' it (hn ▸ h) hp' rnds' hr'
    have e1 := (gives_iff b it _ v1 ms1 _ (reportW_length _ _ _ _ a2) a1 ms).mp g
    have e2 := (gives_iff b' it _ v2 ms2 _ (reportW_length _ _ _ _ b2) b1 ms).mp g'
    subst e1
    subst e2
    rw [a1] at c
    rw [b1] at c'
    cases c
    cases c'
    rw [key.1, hn] at b4
    exact ⟨rep_unique a4 b4, by rw [key.2]⟩

/-- Gates on other qubits, phase gates and CNOTs whose target is not in `r` leave the value of `r` alone. -/
theorem leavesAlone_run (r : Reg) (g : Pipeline) (hg : ∀ e ∈ g, LeavesAlone r e) (m : ℕ) (ψ : Wave) (h : On {y | valQ r y = m} ψ) :
    On {y | valQ r y = m} (runW rotAngle g ψ) := by
  induction g generalizing ψ with
  | nil => exact h
  | cons e g ih =>
    refine ih (fun e he => hg e (by simp [he])) _ ?_
    cases hg e (by simp) with
    | apart _ hd => exact h.keeps rotAngle e hd
    | phase q w u hu =>
      refine h.map _ fun x hx => ?_
      have hk : On {y | valQ r y = m} (ket x) := On.ket hx
      show On _ (gateW [q] (uMat rotAngle 1 u) (ket x))
      rcases hu with rfl | rfl | rfl | ⟨ρ, rfl⟩
      · rw [show gateW [q] (uMat rotAngle 1 .Z) (ket x) = _ from z_ket rotAngle q x]; exact hk.smul _
      · rw [show gateW [q] (uMat rotAngle 1 .S) (ket x) = _ from s_ket rotAngle q x]; exact hk.smul _
      · rw [show gateW [q] (uMat rotAngle 1 .T) (ket x) = _ from t_ket rotAngle q x]; exact hk.smul _
      · rw [show gateW [q] (uMat rotAngle 1 (.Rz ρ)) (ket x) = _ from rz_ket q (rotAngle ρ) x]; exact hk.smul _
    | cnot c t w hct ht =>
      refine h.map _ fun x hx => ?_
      show On _ (gateW [c, t] (uMat rotAngle 2 .CNOT) (ket x))
      rw [cnot_ket rotAngle c t hct x]
      have hx' : valQ r x = m := hx
      refine On.ket ?_
      show valQ r _ = m
      rw [← hx']
      refine valQ_congr _ _ _ fun q hq => ?_
      split
      · exact Function.update_of_ne (fun e : q = t => ht (e ▸ hq)) _ _
      · rfl

/-- A measurement of `r` may be put off until after gates on other qubits, phase gates, and CNOTs whose target is not in `r` (principle of deferred
measurement). -/
theorem C91_deferred (b b' : LocalBuilder) (p g q : Pipeline) (e : List ℕ × CObj) (hn : b'.n = b.n) (hb : b.pipeline = p ++ e :: (g ++ q))
    (hb' : b'.pipeline = p ++ (g ++ e :: q)) (he : isMeas e = true) (hg : ∀ f ∈ g, SegU b.n f ∧ LeavesAlone e.1 f) (hp : ∀ e ∈ b.pipeline, StepOK b.n e)
    (it : List (Reg × ℕ)) (h : ∀ p ∈ it, ∀ q ∈ p.1, q < b.n) (ms ks ls : List ℕ) (m : ℕ) (hms : ms = ks ++ m :: ls)
    (hks : ks.length = measCount p) (hls : ls.length = measCount q) :
    outcomeProb b' it ms = outcomeProb b it ms ∧
      ∀ rnds rnds' v v' l l', (∀ k, 0 < rnds k ∧ rnds k < 1) → (∀ k, 0 < rnds' k ∧ rnds' k < 1) →
        Outcomes b it rnds ms → Outcomes b' it rnds' ms → b.calculateStateWithInit it rnds = some (v, l) →
        b'.calculateStateWithInit it rnds' = some (v', l') → v = v' ∧ l = l' :=
  C91_defer b b' p g q e hn hb hb' he (fun f hf => (hg f hf).1) hp it h Set.univ (fun _ _ _ _ => trivial)
    (fun x _ y hy => leavesAlone_run e.1 g (fun f hf => (hg f hf).2) _ _ (On.ket (S := {y | valQ e.1 y = valQ e.1 x}) rfl) (Finsupp.mem_support_iff.mpr hy))
    ms ks ls m hms hks hls

/-- Gates that do not leave the register alone cannot be moved past its measurement: H on a measured qubit. -/
theorem C91_needed : outcomeProb ⟨[([0], ⟨1, .meas .measurement⟩), ([0], ⟨1, .unitary .H⟩)], 1, [], 1⟩ [] [1] ≠
    outcomeProb ⟨[([0], ⟨1, .unitary .H⟩), ([0], ⟨1, .meas .measurement⟩)], 1, [], 1⟩ [] [1] := by
  have hok : ∀ e ∈ ([([0], ⟨1, .meas .measurement⟩), ([0], ⟨1, .unitary .H⟩)] : Pipeline), StepOK 1 e := by
    intro e he
    simp only [List.mem_cons, List.not_mem_nil, or_false] at he
    rcases he with rfl | rfl
    · exact Or.inr ⟨rfl, by simp, by simp⟩
    · exact Or.inl ⟨⟨⟨by simp, by simp, fun u hu => by cases hu; rfl⟩, rfl, _, rfl, by simp⟩, by simp⟩
  rw [C76_born_rule _ [] (by simp) hok [1] rfl, C76_born_rule _ [] (by simp) (fun e he => hok e (by simp at he ⊢; tauto)) [1] rfl]
  have hz : ∀ q, initAsg [] q = false := fun q => rfl
  have v0 : valQ [0] (initAsg []) = 0 := by simp [valQ, hz]
  have e0 : entryW rotAngle ([0], ⟨1, .unitary .H⟩) (ket (initAsg [])) =
      (1 / Real.sqrt 2 : ℂ) • ket (setQ 0 false (initAsg [])) + (1 / Real.sqrt 2 : ℂ) • ket (setQ 0 true (initAsg [])) := by
    have := h_ket (ang := rotAngle) 0 (initAsg [])
    simp only [hz] at this
    simpa [entryW, u1] using this
  have v2 : valQ [0] (setQ 0 false (initAsg [])) = 0 := by simp [valQ, setQ]
  have v1 : valQ [0] (setQ 0 true (initAsg [])) = 1 := by simp [valQ, setQ]
  show ENNReal.ofReal (normW (entryW rotAngle ([0], ⟨1, .unitary .H⟩) (projW [0] 1 (ket (initAsg []))))) ≠
    ENNReal.ofReal (normW (projW [0] 1 (entryW rotAngle ([0], ⟨1, .unitary .H⟩) (ket (initAsg [])))))
  rw [e0, projW_add, projW_smul, projW_smul, projW_ket, projW_ket, projW_ket, v0, v1, v2, if_neg (by omega : ¬ (0 : ℕ) = 1), if_pos rfl, if_neg (by omega : ¬ (0 : ℕ) = 1), map_zero, normW_zero, smul_zero,
    zero_add, normW_smul, normW_ket, mul_one, ← ofReal_one, ← ofReal_div, normSq_ofReal, div_mul_div_comm, Real.mul_self_sqrt (by norm_num), one_mul]
  rw [ENNReal.ofReal_zero]
  exact (by simp : ENNReal.ofReal (1 / 2) ≠ 0).symm

/-- Put off the measurement of the control in `coinCopy`: both qubits are then measured at the end. -/
example (ms : List ℕ) (i j : ℕ) (hms : ms = [i, j]) :
    outcomeProb ⟨[([0], ⟨1, .unitary .H⟩), ([0, 1], ⟨2, .unitary .CNOT⟩), ([0], ⟨1, .meas .measurement⟩), ([1], ⟨1, .meas .measurement⟩)], 2, [], 2⟩ [] ms =
      outcomeProb coinCopy [] ms := by
  refine (C91_deferred coinCopy ⟨[([0], ⟨1, .unitary .H⟩), ([0, 1], ⟨2, .unitary .CNOT⟩), ([0], ⟨1, .meas .measurement⟩), ([1], ⟨1, .meas .measurement⟩)], 2, [], 2⟩
    [([0], ⟨1, .unitary .H⟩)] [([0, 1], ⟨2, .unitary .CNOT⟩)] [([1], ⟨1, .meas .measurement⟩)] ([0], ⟨1, .meas .measurement⟩) rfl rfl
    rfl rfl (fun f hf => ?_) coinCopy_ok [] (by simp) ms [] [j] i hms rfl rfl).1
  rw [List.mem_singleton] at hf
  subst hf
  exact ⟨⟨⟨⟨by simp, by simp [coinCopy], fun u hu => by cases hu; rfl⟩, rfl, _, rfl, by simp⟩, by simp⟩, .cnot 0 1 2 (by omega) (by simp)⟩

/-- Replace Z and X by Y after H and a measurement, and before another H: the factor is `i`. -/
example (rnds : ℕ → ℝ) (hr : ∀ k, 0 < rnds k ∧ rnds k < 1) : ∃ v l,
    LocalBuilder.calculateStateWithInit ⟨[([0], ⟨1, .unitary .H⟩), ([0], ⟨1, .meas .measurement⟩)] ++ ([([0], ⟨1, .unitary .Z⟩), ([0], ⟨1, .unitary .X⟩)] ++
      [([0], ⟨1, .unitary .H⟩), ([0], ⟨1, .meas .measurement⟩)]), 1, [], 2⟩ [] rnds = some (v, l) ∧
    LocalBuilder.calculateStateWithInit ⟨[([0], ⟨1, .unitary .H⟩), ([0], ⟨1, .meas .measurement⟩)] ++ ([([0], ⟨1, .unitary .Y⟩)] ++
      [([0], ⟨1, .unitary .H⟩), ([0], ⟨1, .meas .measurement⟩)]), 1, [], 2⟩ [] rnds = some (v.map (I * ·), l) := by
  have ok : ∀ u : UObj, u.Shape 1 → (∀ ρ, u ≠ .GlobalPhase ρ) → (∀ d, u ≠ .MAT d) → StepOK 1 ([0], ⟨1, .unitary u⟩) := fun u h1 h2 h3 =>
    Or.inl ⟨⟨⟨by simp, by simp, fun v hv => by cases hv; exact h1⟩, rfl, u, rfl, h2⟩, fun d hd => absurd (by simpa using hd) (h3 d)⟩
  have om : StepOK 1 ([0], ⟨1, .meas .measurement⟩) := Or.inr ⟨rfl, by simp, by simp⟩
  have oh := ok .H rfl (by simp) (by simp)
  refine C90_equal ⟨_, 1, [], 2⟩ ⟨_, 1, [], 2⟩ [([0], ⟨1, .unitary .H⟩), ([0], ⟨1, .meas .measurement⟩)] [([0], ⟨1, .unitary .Z⟩), ([0], ⟨1, .unitary .X⟩)]
    [([0], ⟨1, .unitary .Y⟩)] [([0], ⟨1, .unitary .H⟩), ([0], ⟨1, .meas .measurement⟩)] (by rfl) rfl rfl (by simp [isMeas]) (by simp [isMeas]) ?_ ?_ [] (by simp) I (by simp) ?_ rnds hr
  · simp [oh, om, ok .Z rfl (by simp) (by simp), ok .X rfl (by simp) (by simp)]
  · simp [oh, om, ok .Y rfl (by simp) (by simp)]
  · intro x _
    show u1 rotAngle 0 .Y (ket x) = I • u1 rotAngle 0 .X (u1 rotAngle 0 .Z (ket x))
    rw [y_ket, z_ket, map_smul, x_ket, smul_smul]
    cases x 0 <;> simp

/-- a Bell pair made and taken apart again in the middle of `coinCopy` -/
example : ∃ inv, invertSub bell = .ok inv ∧ ∀ rnds : ℕ → ℝ, (∀ k, 0 < rnds k ∧ rnds k < 1) →
    LocalBuilder.calculateStateWithInit { coinCopy with pipeline := coinCopy.pipeline.take 2 ++ (bell ++ inv ++ coinCopy.pipeline.drop 2) } [] rnds =
      coinCopy.calculateStateWithInit [] rnds := by
  obtain ⟨inv, h1, h2⟩ := C90_inverse coinCopy (coinCopy.pipeline.take 2) (coinCopy.pipeline.drop 2) bell rfl coinCopy_ok bell_ok
  exact ⟨inv, h1, fun rnds hr => h2 [] (by simp) rnds hr⟩

end Verif.Props
