import Verif.Proofs.Calc3

/-!
# Properties C29, C30, C42, C43, C56: calculating the state of a circuit

C29: initial values are read back by a measurement.
C30: the state is the product of the gates applied to the initial state; total probability 1.
C42: measurement handles fetch their own measurement.
C43: refuted; stochastic measurements and global phases replace the state by a stale one.
C56: `make_circuit_matrix` tabulates the circuit.
-/

namespace Verif.Props
open Complex Classical

/-! ## C29 -/

/-- The initial state: with nothing in the circuit the calculation returns the basis state in which qubit `k` of every
register is bit `k` of its value and all other qubits are 0. -/
theorem C29_initial_state (b : LocalBuilder) (it : List (Reg × ℕ)) (h : ∀ p ∈ it, ∀ q ∈ p.1, q < b.n)
    (hp : b.pipeline = []) (rnds : ℕ → ℝ) :
    ∃ v, b.calculateStateWithInit it rnds = some (v, []) ∧ Rep b.n v (ket (initAsg it)) := by
  obtain ⟨v, h1, h2⟩ := calculate_unitary b it h (by rw [hp]; simp) rnds
  rw [hp] at h2
  exact ⟨v, h1, h2⟩

/-- Measuring a register straight away returns its initial value (modulo its size), with probability 1, whatever
random number `rnds 0` in (0,1] is drawn, and leaves the state alone. The other initialised registers share no qubit
with it. -/
theorem C29_read_back (s s' : LocalBuilder) (hp : s.pipeline = []) (hm : s.measurements = 0) (r r' : Reg) (id : ℕ)
    (hr : r.Nodup) (h : LocalBuilder.measure r s = .ok (r', id) s') (it : List (Reg × ℕ)) (x : ℕ) (hx : (r, x) ∈ it)
    (hi : ∀ p ∈ it, ∀ q ∈ p.1, q < s.n) (hd : ∀ p ∈ it, p ≠ (r, x) → List.Disjoint r p.1) (rnds : ℕ → ℝ)
    (h0 : 0 < rnds 0) (h1 : rnds 0 ≤ 1) :
    r' = r ∧ ∃ v ms, s'.calculateStateWithInit it rnds = some (v, ms) ∧
      getMeasurement ms id = some (x % 2 ^ r.length, 1) ∧ Rep s.n v (ket (initAsg it)) := by
  cases h
  refine ⟨rfl, ?_⟩
  obtain ⟨i, i1, i2, -, i4⟩ := calculate_eq { s with
      pipeline := s.pipeline ++ [(r, ⟨r.length, .meas .measurement⟩)], measurements := s.measurements + 1 } it hi rnds
  have hmb := measure_bvec s.n i i1 r hr (hi (r, x) hx) (List.replicate (2 ^ s.n) 0) (by simp) (rnds 0) h0 h1
  rw [show asg s.n i = initAsg it from i2, valQ_init r hr x it hx hd] at hmb
  refine ⟨bvec s.n i, [.single (x % 2 ^ r.length) 1], ?_, ?_, ?_⟩
  · refine i4.trans ?_
    simp only [hp, List.nil_append]
    rw [calcFold_cons]
    have e : calcStep s.n rnds (calcInit s.n i) (r, ⟨r.length, .meas .measurement⟩) =
        some { state := bvec s.n i, arena := (calcInit s.n i).state, measurements := [.single (x % 2 ^ r.length) 1] } := by
      unfold calcStep calcInit
      simp only [Nat.one_shiftLeft, List.length_nil]
      have : (List.replicate (2 ^ s.n) (0 : ℂ)).set i 1 = bvec s.n i := rfl
      rw [this, hmb]
      rfl
    rw [e]; rfl
  · show getMeasurement _ s.measurements = _
    rw [hm]; rfl
  · have := rep_ket s.n i i1
    rw [show asg s.n i = initAsg it from i2] at this
    exact this

/-- registers `[2,0]` and `[1]` of three qubits initialised to 2 and 1; measuring the first gives 2 -/
example (rnds : ℕ → ℝ) (h : 0 < rnds 0 ∧ rnds 0 ≤ 1) :
    ∃ v ms, LocalBuilder.calculateStateWithInit ⟨[([2, 0], ⟨2, .meas .measurement⟩)], 3, [], 1⟩ [([2, 0], 2), ([1], 1)] rnds =
      some (v, ms) ∧ getMeasurement ms 0 = some (2, 1) := by
  obtain ⟨-, v, ms, h1, h2, -⟩ := C29_read_back ⟨[], 3, [], 0⟩ _ rfl rfl [2, 0] _ _ (by simp) rfl [([2, 0], 2), ([1], 1)] 2
    (by simp) (by decide) (by simp) rnds h.1 h.2
  exact ⟨v, ms, h1, h2⟩

/-! ## C30 -/

/-- The state computed for a circuit of gates is the product of their matrices, in the order in which they were added,
applied to the initial state, and its total probability is 1. (`rotAngle`: the angle the code takes for a rotation
object, see C34; the builder is only read.) -/
theorem C30_calculate_state (b : LocalBuilder) (it : List (Reg × ℕ)) (h : ∀ p ∈ it, ∀ q ∈ p.1, q < b.n)
    (hp : ∀ e ∈ b.pipeline, SegOK b.n e) (hm : UnitaryMats b.pipeline) (rnds : ℕ → ℝ) :
    ∃ v, b.calculateStateWithInit it rnds = some (v, []) ∧
      Rep b.n v (runW rotAngle b.pipeline (ket (initAsg it))) ∧ probMagnitude v = 1 := by
  obtain ⟨v, h1, h2⟩ := calculate_unitary b it h hp rnds
  refine ⟨v, h1, h2, ?_⟩
  obtain ⟨i, i1, i2, -, i4⟩ := calculate_eq b it h rnds
  have hl : (calcInit b.n i).state.length = 2 ^ b.n := by simp [calcInit, Nat.one_shiftLeft]
  have ha : (calcInit b.n i).arena.length = 2 ^ b.n := by simp [calcInit, Nat.one_shiftLeft]
  obtain ⟨st, g1, -, -, g4⟩ := calcFold_prob b.n rnds b.pipeline hp hm (calcInit b.n i) hl ha
  rw [i4, g1] at h1
  have e : st.state = v := by simp at h1; exact h1.1
  rw [← e, g4]
  have : (calcInit b.n i).state = bvec b.n i := by unfold calcInit bvec; rw [Nat.one_shiftLeft]
  rw [this, bvec_prob b.n i i1]

/-- The circuits that `C30_calculate_state` speaks about are those built by any history of gate calls. -/
theorem C30_reachable (s : LocalBuilder) (live : List Reg)
    (h : Hist (fun c => c.NoRepeat ∧ c.Sized ∧ c.Gates) s live) : ∀ e ∈ s.pipeline, SegOK s.n e := by
  obtain ⟨-, seg, h1, h2, -⟩ := h.grow (fun c hc => ⟨hc.1, hc.2.1⟩) True (fun c hc _ => hc.2.2)
  intro e he
  rw [h1] at he
  obtain ⟨a, b, c⟩ := h2 e he
  exact ⟨a, b, c trivial⟩

/-- `h` on qubit 1, then a CNOT from qubit 1 to qubit 0 -/
example : ∀ e ∈ ([([1], ⟨1, .unitary .H⟩), ([1, 0], ⟨2, .unitary .CNOT⟩)] : Pipeline), SegOK 2 e := by
  intro e he
  simp at he
  rcases he with rfl | rfl
  · exact ⟨⟨by simp, by simp, fun u hu => by cases hu; rfl⟩, rfl, _, rfl, by simp⟩
  · exact ⟨⟨by simp, by simp, fun u hu => by cases hu; rfl⟩, rfl, _, rfl, by simp⟩

/-- a history: two qubits, split, `h` on the second, CNOT from the second to the first -/
example : ∃ s, Hist (fun c => c.NoRepeat ∧ c.Sized ∧ c.Gates) s [[1], [0]] ∧ s.pipeline.length = 2 := by
  refine ⟨_, Hist.ok (.cnot [1] [0]) (Hist.ok (rest := [[0]]) (.named .h [1]) (Hist.ok (.splitAll [0, 1])
    (Hist.ok (.register 2) .start ⟨trivial, trivial, trivial⟩ (List.Perm.refl _) rfl) ⟨trivial, trivial, trivial⟩
    (List.Perm.refl _) rfl) ⟨trivial, trivial, trivial⟩ (List.Perm.swap _ _ _) rfl) ⟨trivial, trivial, trivial⟩
    (List.Perm.refl _) rfl, rfl⟩

/-! ## C42 -/

/-- calls a program makes; the objects it can apply are gates of fitting size -/
def C42_calls (c : Call) : Prop := c.NoRepeat ∧ c.Sized

theorem C42_core (s : LocalBuilder) (live rest : List Reg) (r : Reg) (h : Hist C42_calls s live) (m : MObj)
    (hp : live.Perm (r :: rest)) (s1 s2 : LocalBuilder) (live2 : List Reg) (hs1 : Hist C42_calls s1 (r :: rest))
    (h1 : s1.pipeline = s.pipeline ++ [(r, ⟨r.length, .meas m⟩)]) (hl : Later C42_calls s1 (r :: rest) s2 live2)
    (it : List (Reg × ℕ)) (rnds : ℕ → ℝ) (v : List ℂ) (ms : List MeasResult)
    (hc : s2.calculateStateWithInit it rnds = some (v, ms)) :
    r.Nodup ∧ (∀ q ∈ r, q < s2.n) ∧
    ∃ st st', { s2 with pipeline := s.pipeline }.calculateStateWithInit it rnds = some (st.state, st.measurements) ∧
      st.measurements.length = s.measurements ∧
      calcStep s2.n rnds st (r, ⟨r.length, .meas m⟩) = some st' ∧ ∃ l, ms = st'.measurements ++ l := by
  obtain ⟨-, seg0, a1, -, a3⟩ := h.grow (fun c hc => hc) False (fun c _ => False.elim)
  obtain ⟨hn, seg, b1, -, -⟩ := hl.grow (fun c hc => hc) False (fun c _ => False.elim) hs1
  obtain ⟨i, i1, i2, st2, g1, g2⟩ := calculate_some s2 it rnds _ hc
  obtain ⟨own, -⟩ := (hs1.mono (B := Call.NoRepeat) fun c hc => hc.1).own
  rw [b1, h1, List.append_assoc, List.singleton_append] at g1
  obtain ⟨st, st', k1, k2, k3⟩ := calcFold_split _ _ _ _ _ _ _ g1
  obtain ⟨l0, m1, m2⟩ := calcFold_meas _ _ _ _ _ k1
  obtain ⟨l, n1, -⟩ := calcFold_meas _ _ _ _ _ k3
  have hr : r.Nodup := by
    have := own.left
    rw [List.flatten_cons] at this
    exact (List.nodup_append.mp this).1
  refine ⟨hr, ?_, st, st', ?_, ?_, k2, l, ?_⟩
  · intro q hq
    exact lt_of_lt_of_le (own.mem_lt (by simp [hq])) hn
  · exact calculate_of_fold { s2 with pipeline := s.pipeline } it rnds i i1 i2 st k1
  · have a1' : s.pipeline = seg0 := by rw [a1]; simp [LocalBuilder.default]
    rw [m1, List.length_append, m2, a3, a1']
    simp [calcInit, LocalBuilder.default]
  · cases g2; exact n1

theorem C42_measure_hist {s : LocalBuilder} {live rest : List Reg} {r : Reg} (h : Hist C42_calls s live)
    (hp : live.Perm (r :: rest)) {s1 : LocalBuilder} {r1 : Reg} {id : ℕ} (hm : LocalBuilder.measure r s = .ok (r1, id) s1) :
    Hist C42_calls s1 (r :: rest) ∧ r1 = r ∧ id = s.measurements ∧
      s1.pipeline = s.pipeline ++ [(r, ⟨r.length, .meas .measurement⟩)] := by
  cases hm
  exact ⟨Hist.ok (.measure r) h ⟨trivial, trivial⟩ hp rfl, rfl, rfl, rfl⟩

theorem C42_stochastic_hist {s : LocalBuilder} {live rest : List Reg} {r : Reg} (h : Hist C42_calls s live)
    (hp : live.Perm (r :: rest)) {s1 : LocalBuilder} {r1 : Reg} {id : ℕ}
    (hm : LocalBuilder.measureStochastic r s = .ok (r1, id) s1) :
    Hist C42_calls s1 (r :: rest) ∧ r1 = r ∧ id = s.measurements ∧
      s1.pipeline = s.pipeline ++ [(r, ⟨r.length, .meas .stochastic⟩)] := by
  cases hm
  exact ⟨Hist.ok (.measureStochastic r) h ⟨trivial, trivial⟩ hp rfl, rfl, rfl, rfl⟩

/-- Take any history of calls, a call of `measure`, and any calls after it. The handle fetches what that very
measurement produced: the outcome drawn (with the `id`-th random number) from the state `w` computed for the circuit
as it was before the call, together with the Born probability of that outcome. Used as a handle of the other kind the
number would be refused. -/
theorem C42_measure_partial (s s1 s2 : LocalBuilder) (live rest live2 : List Reg) (r r1 : Reg) (id : ℕ)
    (h : Hist C42_calls s live) (hp : live.Perm (r :: rest)) (hm : LocalBuilder.measure r s = .ok (r1, id) s1)
    (hl : Later C42_calls s1 (r1 :: rest) s2 live2) (it : List (Reg × ℕ)) (rnds : ℕ → ℝ) (v : List ℂ)
    (ms : List MeasResult) (hc : s2.calculateStateWithInit it rnds = some (v, ms)) :
    ∃ w ms0 val, { s2 with pipeline := s.pipeline }.calculateStateWithInit it rnds = some (w, ms0) ∧
      softMeasure s2.n r w none (rnds id) = some val ∧
      getMeasurement ms id = some (val, bornProb s2.n r val (ampAt w 0)) ∧ getStochasticMeasurement ms id = none := by
  obtain ⟨g1, rfl, g3, g4⟩ := C42_measure_hist h hp hm
  obtain ⟨hr, hlt, st, st', k1, k2, k3, l, k4⟩ := C42_core s live rest r1 h .measurement hp s1 s2 live2 g1 g4 hl it rnds v ms hc
  unfold calcStep at k3
  simp only [Option.bind_eq_bind] at k3
  cases hme : measure s2.n r1 st.state st.arena none none (rnds st.measurements.length) with
  | none => rw [hme] at k3; exact absurd k3 (by simp)
  | some a =>
    obtain ⟨⟨val, p⟩, out⟩ := a
    rw [hme] at k3
    cases k3
    rw [k2, ← g3] at hme
    unfold measure at hme
    simp only [Option.bind_eq_bind, Option.map_none, Option.bind_none] at hme
    cases hsm : softMeasure s2.n r1 st.state none (rnds id) with
    | none => rw [hsm] at hme; exact absurd hme (by simp)
    | some val' =>
      rw [hsm] at hme
      simp only [Option.bind_some] at hme
      rw [measureProb_eq s2.n _ r1 hr hlt] at hme
      simp only [Option.bind_some, Option.getD_none] at hme
      cases hms : measureState s2.n r1 (val', bornProb s2.n r1 val' (ampAt st.state 0)) st.state st.arena none with
      | none => rw [hms] at hme; exact absurd hme (by simp)
      | some o =>
        rw [hms] at hme
        simp only [Option.bind_some, Option.some.injEq, Prod.mk.injEq] at hme
        obtain ⟨⟨rfl, rfl⟩, -⟩ := hme
        have hget : ms[id]? = some (.single val' (bornProb s2.n r1 val' (ampAt st.state 0))) := by
          rw [k4]; exact getElem?_mid _ _ _ _ (by rw [k2, g3])
        refine ⟨st.state, st.measurements, val', k1, hsm, ?_, ?_⟩
        · unfold getMeasurement; rw [hget]
        · unfold getStochasticMeasurement; rw [hget]

/-- The same for `measure_stochastic`: the handle fetches the Born probabilities of all outcomes in the state `w`
computed for the circuit as it was before the call. -/
theorem C42_measure_stochastic_partial (s s1 s2 : LocalBuilder) (live rest live2 : List Reg) (r r1 : Reg) (id : ℕ)
    (h : Hist C42_calls s live) (hp : live.Perm (r :: rest)) (hm : LocalBuilder.measureStochastic r s = .ok (r1, id) s1)
    (hl : Later C42_calls s1 (r1 :: rest) s2 live2) (it : List (Reg × ℕ)) (rnds : ℕ → ℝ) (v : List ℂ)
    (ms : List MeasResult) (hc : s2.calculateStateWithInit it rnds = some (v, ms)) :
    ∃ w ms0, { s2 with pipeline := s.pipeline }.calculateStateWithInit it rnds = some (w, ms0) ∧
      getStochasticMeasurement ms id =
        some ((List.range (2 ^ r.length)).map fun m => bornProb s2.n r m (ampAt w 0)) ∧
      getMeasurement ms id = none := by
  obtain ⟨g1, rfl, g3, g4⟩ := C42_stochastic_hist h hp hm
  obtain ⟨hr, hlt, st, st', k1, k2, k3, l, k4⟩ := C42_core s live rest r1 h .stochastic hp s1 s2 live2 g1 g4 hl it rnds v ms hc
  unfold calcStep at k3
  simp only [Option.bind_eq_bind] at k3
  rw [measureProbs_eq s2.n r1 hr hlt] at k3
  cases k3
  have hget : ms[id]? = some (.stochastic ((List.range (2 ^ r1.length)).map fun m => bornProb s2.n r1 m (ampAt st.state 0))) := by
    rw [k4]; exact getElem?_mid _ _ _ _ (by rw [k2, g3])
  refine ⟨st.state, st.measurements, k1, ?_, ?_⟩
  · unfold getStochasticMeasurement; rw [hget]
  · unfold getMeasurement; rw [hget]

/-- a history with a gate, a stochastic measurement and then a measurement: the latter's handle is number 1 -/
example : ∃ s s1, Hist C42_calls s [[0, 1]] ∧ LocalBuilder.measure [0, 1] s = .ok ([0, 1], 1) s1 := by
  refine ⟨_, _, Hist.ok (rest := []) (.measureStochastic [0, 1]) (Hist.ok (rest := []) (.named .x [0, 1])
    (Hist.ok (.register 2) .start ⟨trivial, trivial⟩ (List.Perm.refl _) rfl) ⟨trivial, trivial⟩
    (List.Perm.refl _) rfl) ⟨trivial, trivial⟩ (List.Perm.refl _) rfl, rfl⟩

/-! ## C43 -/

/-- a circuit element that should not change the state -/
def Idle (e : List ℕ × CObj) : Prop := (∃ ρ, e.2.object = .unitary (.GlobalPhase ρ)) ∨ e.2.object = .meas .stochastic

/-- C43: leaving out such an element does not change the computed state. For a global phase the amplitudes could
differ by the phase, so only their squared magnitudes are compared. -/
def C43_claim : Prop :=
  ∀ (n : ℕ) (p q : Pipeline) (e : List ℕ × CObj), Idle e → (∀ e ∈ p ++ q, SegOK n e) → EntryOK n e →
    ∀ (rnds : ℕ → ℝ) (v w : List ℂ) (ms ms' : List MeasResult),
      LocalBuilder.calculateState ⟨p ++ q, n, [], 0⟩ rnds = some (v, ms) →
      LocalBuilder.calculateState ⟨p ++ e :: q, n, [], 0⟩ rnds = some (w, ms') →
      v.map normSq = w.map normSq

/-- Already for the empty circuit on one qubit, a global phase turns the state into the zero vector. -/
theorem C43_refuted : ¬ C43_claim := by
  intro h
  have h1 : LocalBuilder.calculateState ⟨[], 1, [], 0⟩ (fun _ => 0) = some ([1, 0], []) := rfl
  have h2 : LocalBuilder.calculateState ⟨[([0], ⟨1, .unitary (.GlobalPhase (.floating 1))⟩)], 1, [], 0⟩ (fun _ => 0) =
      some ([0, 0], []) := rfl
  have := h 1 [] [] ([0], ⟨1, .unitary (.GlobalPhase (.floating 1))⟩) (Or.inl ⟨_, rfl⟩) (by simp)
    ⟨by simp, by simp, fun u hu => by cases hu; exact Nat.one_pos⟩ _ _ _ _ _ h1 h2
  simp at this

/-- The same happens for a stochastic measurement. -/
theorem C43_stochastic_refuted :
    ∃ ps, LocalBuilder.calculateState ⟨[([0], ⟨1, .meas .stochastic⟩)], 1, [], 0⟩ (fun _ => 0) =
      some ([0, 0], [.stochastic ps]) := by
  refine ⟨(List.range 2).map fun m => bornProb 1 [0] m (ampAt [1, 0] 0), ?_⟩
  have hi : initialIndex 1 [] = some 0 := rfl
  refine calculate_of_fold ⟨[([0], ⟨1, .meas .stochastic⟩)], 1, [], 0⟩ [] (fun _ => 0) 0 hi (by decide)
    ⟨[0, 0], [1, 0], [.stochastic _]⟩ ?_
  rw [calcFold_cons]
  unfold calcStep
  simp only
  rw [measureProbs_eq 1 [0] (by simp) (by simp)]
  rfl

/-- What such an element does: the two buffers are exchanged. -/
theorem C43_step (n : ℕ) (rnds : ℕ → ℝ) (st : CalcState) (e : List ℕ × CObj) (he : Idle e) (hok : EntryOK n e) :
    ∃ ms, calcStep n rnds st e = some { state := st.arena, arena := st.state, measurements := ms } := by
  unfold calcStep
  rcases he with ⟨ρ, h⟩ | h
  · rw [h]; exact ⟨_, rfl⟩
  · rw [h]
    simp only
    rw [measureProbs_eq n e.1 hok.1 hok.2.1]
    exact ⟨_, rfl⟩

/-- Proved part of C43: two of them in a row leave the state alone, anywhere in a circuit of gates. -/
theorem C43_pair_partial (n : ℕ) (p q : Pipeline) (e1 e2 : List ℕ × CObj) (h1 : Idle e1) (h2 : Idle e2)
    (o1 : EntryOK n e1) (o2 : EntryOK n e2) (hq : ∀ e ∈ q, isMeas e = false) (it : List (Reg × ℕ)) (rnds : ℕ → ℝ)
    (v : List ℂ) (ms : List MeasResult)
    (hc : LocalBuilder.calculateStateWithInit ⟨p ++ q, n, [], 0⟩ it rnds = some (v, ms)) :
    ∃ ms', LocalBuilder.calculateStateWithInit ⟨p ++ e1 :: e2 :: q, n, [], 0⟩ it rnds = some (v, ms') := by
  obtain ⟨i, i1, i2, st, g1, g2⟩ := calculate_some _ it rnds _ hc
  rw [calcFold_append] at g1
  cases hp : calcFold n rnds p (calcInit n i) with
  | none => rw [hp] at g1; exact absurd g1 (by simp)
  | some s0 =>
    rw [hp, Option.bind_some] at g1
    obtain ⟨m1, k1⟩ := C43_step n rnds s0 e1 h1 o1
    obtain ⟨m2, k2⟩ := C43_step n rnds { state := s0.arena, arena := s0.state, measurements := m1 } e2 h2 o2
    have := calcFold_unitary_meas n rnds rnds q hq s0 { state := s0.state, arena := s0.arena, measurements := m2 } rfl rfl
    rw [show calcFold n rnds q s0 = some st from g1] at this
    cases hf : calcFold n rnds q { state := s0.state, arena := s0.arena, measurements := m2 } with
    | none => rw [hf] at this; cases this
    | some st' =>
      rw [hf] at this
      cases this with
      | some hab =>
        refine ⟨st'.measurements, ?_⟩
        cases g2
        rw [hab.1]
        refine calculate_of_fold ⟨p ++ e1 :: e2 :: q, n, [], 0⟩ it rnds i i1 i2 st' ?_
        show calcFold n rnds _ _ = _
        rw [calcFold_append, hp, Option.bind_some, calcFold_cons, k1, Option.bind_some, calcFold_cons, k2,
          Option.bind_some, hf]

example : Idle ([0], ⟨1, .meas .stochastic⟩) ∧ EntryOK 1 ([0], ⟨1, .meas .stochastic⟩) :=
  ⟨Or.inr rfl, by simp, by simp, fun u hu => by cases hu⟩

/-! ## C56 -/

/-- Row `x` of the matrix is the vector selected from the calculation with the register initialised to `x`; there is a
row for every value of the register. -/
theorem C56_rows (b : LocalBuilder) (r : Reg) (f : List ℂ × List MeasResult → List ℂ) (rnds : ℕ → ℕ → ℝ)
    (rows : List (List ℂ)) (h : makeCircuitMatrix b r f rnds = some rows) :
    rows.length = 2 ^ r.length ∧ ∀ x, x < 2 ^ r.length →
      ∃ c, b.calculateStateWithInit [(r, x)] (rnds x) = some c ∧ rows[x]? = some (f c) := by
  unfold makeCircuitMatrix at h
  rw [Nat.one_shiftLeft] at h
  obtain ⟨h1, h2⟩ := mapM_inv _ _ _ h
  refine ⟨by rw [h1, List.length_range], ?_⟩
  intro x hx
  have := h2 x (by rw [List.length_range]; exact hx)
  rw [List.getElem_range, List.getElem?_eq_getElem (by rw [h1, List.length_range]; exact hx)] at this
  cases hc : b.calculateStateWithInit [(r, x)] (rnds x) with
  | none => rw [hc] at this; exact absurd this (by simp)
  | some c =>
    rw [hc] at this
    refine ⟨c, rfl, ?_⟩
    rw [List.getElem?_eq_getElem (by rw [h1, List.length_range]; exact hx), this]
    rfl

/-- For a circuit of gates the matrix exists, and row `x` holds the amplitudes of the circuit's action on the basis
state in which the register holds `x` and all other qubits are 0. -/
theorem C56_unitary (b : LocalBuilder) (r : Reg) (hn : r.Nodup) (hr : ∀ q ∈ r, q < b.n)
    (hp : ∀ e ∈ b.pipeline, SegOK b.n e) (rnds : ℕ → ℕ → ℝ) :
    ∃ rows, makeCircuitMatrix b r Prod.fst rnds = some rows ∧ rows.length = 2 ^ r.length ∧
      ∀ x, x < 2 ^ r.length → ∃ y v, rows[x]? = some v ∧ valQ r y = x ∧ (∀ q, q ∉ r → y q = false) ∧
        Rep b.n v (runW rotAngle b.pipeline (ket y)) := by
  have hit : ∀ x : ℕ, ∀ p ∈ [(r, x)], ∀ q ∈ p.1, q < b.n := by
    intro x p hp q hq
    rw [List.mem_singleton] at hp
    subst hp
    exact hr q hq
  have hall := fun x => calculate_unitary b [(r, x)] (hit x) hp (rnds x)
  choose v h1 h2 using hall
  have hm : makeCircuitMatrix b r Prod.fst rnds = some ((List.range (2 ^ r.length)).map v) := by
    unfold makeCircuitMatrix
    rw [Nat.one_shiftLeft]
    apply mapM_some
    intro x _
    simp [h1 x]
  refine ⟨_, hm, by simp, ?_⟩
  intro x hx
  refine ⟨initAsg [(r, x)], v x, by simp [hx], ?_, ?_, h2 x⟩
  · rw [valQ_init r hn x [(r, x)] (by simp) (by simp), Nat.mod_eq_of_lt hx]
  · intro q hq
    unfold initAsg
    rw [decide_eq_false_iff_not]
    rintro ⟨p, hp, k, hk, -⟩
    rw [List.mem_singleton] at hp
    subst hp
    exact hq (List.mem_of_getElem? hk)

/-- the matrix of `h` on qubit 1 of two qubits has two rows -/
example (rnds : ℕ → ℕ → ℝ) : ∃ rows, makeCircuitMatrix ⟨[([1], ⟨1, .unitary .H⟩)], 2, [], 0⟩ [1] Prod.fst rnds = some rows ∧
    rows.length = 2 := by
  obtain ⟨rows, h1, h2, -⟩ := C56_unitary ⟨[([1], ⟨1, .unitary .H⟩)], 2, [], 0⟩ [1] (by simp) (by simp) (by
    intro e he
    rw [List.mem_singleton] at he
    subst he
    exact ⟨⟨by simp, by simp, fun u hu => by cases hu; rfl⟩, rfl, _, rfl, by simp⟩) rnds
  exact ⟨rows, h1, h2⟩

end Verif.Props
