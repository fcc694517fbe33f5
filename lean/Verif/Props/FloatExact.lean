import Verif.Proofs.FloatExact3
import Verif.Proofs.FloatExact4
import Verif.Props.FloatMain
import Verif.Props.FloatState

/-!
# Property C126: programs on basis states are calculated without rounding

Programs whose circuit has only the gates X, Y, Z, S, CNOT and SWAP send basis states to basis states. The floating point calculation of such a program makes no error at
all, for any number of qubits and gates, and its measurements do not depend on the draws, except for a draw that is exactly zero.
-/

namespace Verif.Props
open Verif MatrixOp Format.Arith Finset

variable {f : Format} {fl : ℝ → ℝ}

/-- C126: the numbers that occur are represented exactly. -/
theorem C126_stored (A : f.Arith fl) (u : ℂ) (hu : Quarter u) :
    ∃ a b : f.Fin, A.stored u = (some a, some b) ∧ a.1 = u.re ∧ b.1 = u.im :=
  ⟨_, _, Prod.ext (round_trit A hu.re) (round_trit A hu.im), rfl, rfl⟩

theorem map_unitVec (A : f.Arith fl) (n z : ℕ) (u : ℂ) : (unitVec n z u).map A.stored = (List.replicate (2 ^ n) 0).set z (A.stored u) := by
  unfold unitVec
  rw [List.map_set, List.map_replicate, stored_zero]

/-- if nothing of a state is lost with the outcome `m`, nothing is left with another -/
theorem proj_only {n : ℕ} {ψ : Wave} (h : On (Low n) ψ) (r : Reg) (m m' : ℕ) (hne : m' ≠ m) (hle : normW ψ ≤ normW (projW r m ψ)) : projW r m' ψ = 0 := by
  apply normW_eq_zero
  refine le_antisymm ?_ (normW_nonneg _)
  have : normW (projW r m ψ) + normW (projW r m' ψ) ≤ normW ψ := by
    rw [normW_low (h.proj r m), normW_low (h.proj r m'), normW_low h, ← sum_add_distrib]
    refine sum_le_sum fun i _ => ?_
    rw [projW_apply, projW_apply]
    have := Complex.normSq_nonneg (ψ (asg n i))
    by_cases h1 : valQ r (asg n i) = m
    · rw [if_pos h1, if_neg (by rw [h1]; exact hne.symm)]; simp
    · rw [if_neg h1]
      split <;> simp [this]
  linarith

theorem branch_only {n : ℕ} (p : Pipeline) (hp : ∀ e ∈ p, StepOK n e) (ms ms' : List ℕ) (hl : ms.length = measCount p) (hl' : ms'.length = measCount p) (hne : ms' ≠ ms)
    {ψ : Wave} (h : On (Low n) ψ) (hle : normW ψ ≤ normW (branchW rotAngle p ms ψ)) : branchW rotAngle p ms' ψ = 0 := by
  induction p generalizing ms ms' ψ with
  | nil =>
    have h1 := List.length_eq_zero_iff.mp hl
    have h2 := List.length_eq_zero_iff.mp hl'
    exact absurd (h2.trans h1.symm) hne
  | cons e p ih =>
    have hp' : ∀ e ∈ p, StepOK n e := fun e' he' => hp e' (by simp [he'])
    rcases hp e (by simp) with he | ⟨ho, hn, hi⟩
    · obtain ⟨-, -, u, hu, -⟩ := he.1
      have hc : measCount (e :: p) = measCount p := by simp [measCount, isMeas, hu]
      rw [branchW_unitary _ _ _ _ _ u hu] at hle ⊢
      rw [← normW_entry h e he] at hle
      exact ih hp' ms ms' (hl.trans hc) (hl'.trans hc) hne (h.entryLow e he.1.1.2.1) hle
    · have hc : measCount (e :: p) = measCount p + 1 := List.countP_cons_of_pos (by simp [isMeas, ho])
      rw [hc] at hl hl'
      obtain ⟨m, ms, rfl⟩ := List.exists_cons_of_length_eq_add_one hl
      obtain ⟨m', ms', rfl⟩ := List.exists_cons_of_length_eq_add_one hl'
      rw [branchW_meas _ _ _ _ _ _ _ ho] at hle ⊢
      have hle1 := normW_branch_le p hp' ms (h.proj e.1 m)
      by_cases hm : m' = m
      · subst hm
        exact ih hp' ms ms' (by simpa using hl) (by simpa using hl') (fun e => hne (by rw [e])) (h.proj e.1 m')
          ((normW_proj_le h e.1 m').trans hle)
      · rw [proj_only h e.1 m m' hm (hle.trans hle1)]
        have z := normW_branch_le p hp' ms' (show On (Low n) 0 from by simp [On])
        rw [normW_zero] at z
        exact normW_eq_zero (le_antisymm z (normW_nonneg _))

/-- no other list of outcomes leaves anything of the initial state -/
theorem certain_only {n : ℕ} {p : Pipeline} (hp : ∀ e ∈ p, StepOK n e) {ms ms' : List ℕ} (hl : ms.length = measCount p) (hl' : ms'.length = measCount p) {x z : ℕ} {u : ℂ}
    (hu : Quarter u) (h0 : u ≠ 0) (h : branchW rotAngle p ms (ket (asg n x)) = u • ket (asg n z)) (hne : ms' ≠ ms) :
    branchW rotAngle p ms' (ket (asg n x)) = 0 :=
  branch_only p hp ms ms' hl hl' hne (On.ket (asg_low n x)) (by rw [h, normW_unit n z u hu h0, normW_ket])

/-- C126, circuits: gates and measurements in any order, any number of qubits, any initial value. The library functions need not even be accurate. The outcomes that are
reported are those quantum mechanics is certain of, no other list of outcomes leaves anything of the initial state, and the final state is exact. -/
theorem C126_circuit (A : f.Arith fl) (L : StdLib f) (n : ℕ) (it : List (Reg × ℕ)) (h : ∀ p ∈ it, ∀ q ∈ p.1, q < n) (p : Pipeline)
    (hp : ∀ e ∈ p, StepOK n e) (hpl : ∀ e ∈ p, PlainStep e) (c : List (List ℕ × ObjTypeP f)) (hm : List.Forall₂ Meant c p) :
    ∃ (els : List (ElemP A.Num)) (x z : ℕ) (u : ℂ) (ms : List ℕ), c.mapM (elemP A L) = .ok (els.map elemOf) ∧ initialIndex n it = some x ∧ z < 2 ^ n ∧
      Quarter u ∧ u ≠ 0 ∧ ms.length = measCount p ∧ branchW rotAngle p ms (ket (initAsg it)) = u • ket (asg n z) ∧
      (∀ ms', ms'.length = measCount p → ms' ≠ ms → branchW rotAngle p ms' (ket (initAsg it)) = 0) ∧ ExactRuns A n els x z u ms := by
  obtain ⟨els, e1, e2⟩ := plain_elements A L n c p hm hp hpl
  obtain ⟨x, x1, x2, x3⟩ := initialIndex_eq n it h
  obtain ⟨z, u, ms, k1, k2, k3, k4, k5, k6⟩ := plain_run A n p els e2 hp x x2 1 (.inr (.inl rfl)) one_ne_zero
  rw [one_smul, x3] at k5
  refine ⟨els, x, z, u, ms, e1, x1, k1, k2, k3, k4, k5,
    fun ms' hl hne => by rw [← x3] at k5 ⊢; exact certain_only hp k4 hl k2 k3 k5 hne, fun rnds hr => ?_⟩
  obtain ⟨j1, j2⟩ := k6 rnds hr ⟨(List.replicate (2 ^ n) 0).set x 1, List.replicate (2 ^ n) 0, []⟩ (by rw [map_unitVec, stored_one]) (by simp)
  refine ⟨j1, fun t ht => ?_⟩
  obtain ⟨i1, i2⟩ := j2 t ht
  exact ⟨i1.trans (map_unitVec A n z u), by rw [i2]; rfl⟩

/-- C126, main programs: what the structured programs and the reported outcomes make of the initial basis state is exactly the basis state `z` times a power of `i`, and this
is what is calculated. -/
theorem C126_programs (A : f.Arith fl) (L : StdLib f) {sizes : List ℕ} (hpos : ∀ k ∈ sizes, 0 < k) {acts : List Act} (hT : ∀ a ∈ acts, a.Takes (blocks 0 sizes))
    {out : List Reg × List ℕ} {s : LocalBuilder} (h : mainProg sizes acts LocalBuilder.default = .ok out s) (hpl : ∀ e ∈ s.pipeline, PlainStep e)
    (it : List (Reg × ℕ)) (hit : ∀ p ∈ it, p.1 ∈ blocks 0 sizes) (c : List (List ℕ × ObjTypeP f)) (hm : List.Forall₂ Meant c s.pipeline) :
    ∃ (els : List (ElemP A.Num)) (x z : ℕ) (u : ℂ) (ms : List ℕ), c.mapM (elemP A L) = .ok (els.map elemOf) ∧ initialIndex s.n it = some x ∧ z < 2 ^ s.n ∧
      Quarter u ∧ u ≠ 0 ∧ ms.length = measures acts ∧ actsW (blocks 0 sizes) acts ms (ket (initAsg it)) = u • ket (asg s.n z) ∧
      (∀ ms', ms'.length = measures acts → ms' ≠ ms → actsW (blocks 0 sizes) acts ms' (ket (initAsg it)) = 0) ∧ ExactRuns A s.n els x z u ms := by
  obtain ⟨g1, g2, g3, g4⟩ := main_facts hpos hT h it hit
  obtain ⟨els, x, z, u, ms, k1, k2, k3, k4, k5, k6, k7, k8, k9⟩ := C126_circuit A L s.n it g1 s.pipeline g2 hpl c hm
  rw [g3] at k6 k8
  exact ⟨els, x, z, u, ms, k1, k2, k3, k4, k5, k6, by rw [← (g4 ms k6).1, k7], fun ms' hl hne => by rw [← (g4 ms' hl).1, k8 ms' hl hne], k9⟩

theorem extractBits_zero (l : List ℕ) : extractBits 0 l = 0 := by
  unfold extractBits
  generalize l.zipIdx = ps
  induction ps with
  | nil => rfl
  | cons q ps ih => simpa using ih

/-- C126: a draw that is exactly zero is different. On every basis state, a measurement of any qubits with this draw reports the outcome 0. -/
theorem C126_zero (A : f.Arith fl) (n z : ℕ) (u : ℂ) (hu : Quarter u) (idx : List ℕ) (arena : List A.Num) (m : ℕ) (p : f.Part) (out : List A.Num)
    (h : MeasureP A.prec n idx ((List.replicate (2 ^ n) (0 : A.Num)).set z (A.stored u)) arena (A.round 0) m p out) : m = 0 := by
  rw [← map_unitVec] at h
  obtain ⟨h1, -, -⟩ := h
  unfold softMeasureP at h1
  obtain ⟨c, cs, hc⟩ := List.exists_cons_of_length_pos (l := unitVec n z u) (by rw [unitVec_length]; positivity)
  have hq : Quarter c := unitVec_quarter n z u hu c (by rw [hc]; simp)
  have hr : A.prec.mul (A.round 0) A.prec.one = A.round 0 := by
    show A.mul (A.round 0) (A.round 1) = _
    rw [mul_part A _ _ (fits_zero f) (fits_one A) (by simp) (by simp), zero_mul]
  have key : ∀ l : List A.Num, softLoopP A.prec (A.stored c :: l) 0 (A.round 0) = some 0 := by
    intro l
    show (if A.prec.le (A.sub (A.round 0) (normSqrP A.prec (A.stored c))) A.prec.zero then some 0 else _) = _
    have hle : ∀ (a : ℝ) (h : f.Fits a ∧ |a| ≤ f.top), A.prec.le (some ⟨a, h⟩) A.prec.zero = decide (a ≤ 0) := by
      intro a h
      show A.prec.le (some ⟨a, h⟩) (A.round 0) = _
      rw [round_zero]
      rfl
    rw [normSqr_stored A hq, hq.normSq]
    have t : Trit (if c = 0 then 0 else 1) := by split <;> simp [Trit]
    have t' : Trit (0 - if c = 0 then 0 else 1) := by split <;> simp [Trit]
    rw [round_trit A t, round_zero]
    have e : A.sub (some ⟨0, fits_zero f, by rw [abs_zero]; linarith [top_ge A]⟩) (some ⟨if c = 0 then 0 else 1, fits_trit A t, A.le_top t.abs⟩) =
        A.round (0 - if c = 0 then 0 else 1) := rfl
    rw [e, round_trit A t', hle, if_pos (decide_eq_true (by split <;> simp))]
  have h2 : softLoopP A.prec ((unitVec n z u).map A.stored) 0 (A.prec.mul (A.round 0) A.prec.one) = some 0 := by
    rw [hr]
    exact (congrArg (fun l => softLoopP A.prec (l.map A.stored) 0 (A.round 0)) hc).trans (key _)
  have h3 : ∀ o : Option ℕ, o = some 0 → ((idx.mapM (bitPos n)).bind fun l => some (extractBits (match o with | some i => i + 0 | none => 0) l)) = some m → m = 0 := by
    rintro o rfl h
    obtain ⟨l, -, k⟩ := Option.bind_eq_some_iff.mp h
    exact (Option.some.inj k).symm.trans (extractBits_zero l)
  exact h3 _ h2 h1

/-- C126: an oracle made of such gates, called with the number `v`: every run reports the value of the function. -/
theorem C126_oracle (A : f.Arith fl) (L : StdLib f) {n : ℕ} (hn : 0 < n) {g : ℕ → Bool} {o : Prog} (ho : Computes n g o) {v : ℕ} (hv : v < 2 ^ n)
    {out : List Reg × List ℕ} {s : LocalBuilder} (h : mainProg [n, 1] [.run o, .measure 1] LocalBuilder.default = .ok out s) (hpl : ∀ e ∈ s.pipeline, PlainStep e)
    (c : List (List ℕ × ObjTypeP f)) (hm : List.Forall₂ Meant c s.pipeline) :
    ∃ (els : List (ElemP A.Num)) (x z : ℕ) (u : ℂ), c.mapM (elemP A L) = .ok (els.map elemOf) ∧ initialIndex s.n [(List.range n, v)] = some x ∧
      ExactRuns A s.n els x z u [(g v).toNat] := by
  have hT : ∀ a ∈ [Act.run o, .measure 1], a.Takes (blocks 0 [n, 1]) := by
    rw [blocks_query]
    intro a ha
    simp only [List.mem_cons, List.not_mem_nil, or_false] at ha
    rcases ha with rfl | rfl
    · exact ho.takes
    · exact Nat.one_lt_two
  obtain ⟨els, x, z, u, ms, k1, k2, -, k4, k5, k6, k7, -, k8⟩ := C126_programs A L (by simp [hn]) hT h hpl [(List.range n, v)] (by rw [blocks_query]; simp) c hm
  obtain ⟨m, rfl⟩ := List.length_eq_one_iff.mp (show ms.length = 1 from k6)
  refine ⟨els, x, z, u, k1, k2, ?_⟩
  suffices m = (g v).toNat by rwa [this] at k8
  have e : projW [n] m (ket (setQ n (xor (initAsg [(List.range n, v)] n) (g (valQ (List.range n) (initAsg [(List.range n, v)])))) (initAsg [(List.range n, v)]))) =
      u • ket (asg s.n z) := by
    rw [← ho.wave, ← k7, blocks_query]
    simp only [actsW, lift_eq]
    rw [lift_ket]
    rfl
  have hval := valQ_init (List.range n) List.nodup_range v [(List.range n, v)] (by simp) (by simp)
  rw [List.length_range, Nat.mod_eq_of_lt hv] at hval
  have h0 : initAsg [(List.range n, v)] n = false := by
    classical
    unfold initAsg
    refine decide_eq_false ?_
    rintro ⟨p, hp, k, hk, -⟩
    rw [List.mem_singleton] at hp
    subst hp
    have := List.mem_of_getElem? hk
    simp at this
  rw [hval, h0, Bool.false_xor] at e
  by_contra hne
  have hone : On {y | valQ [n] y = (g v).toNat} (ket (setQ n (g v) (initAsg [(List.range n, v)]))) :=
    On.ket (show valQ _ _ = _ by cases g v <;> simp [valQ, setQ])
  rw [projW_off hone (Ne.symm hne)] at e
  have := normW_unit s.n z u k4 k5
  rw [← e, normW_zero] at this
  exact zero_ne_one this

/-- C126, by the text of the program: if it calls only `x`, `y`, `z`, `s`, `s_dagger`, `cnot` and `swap`, in any `program!` lines, there is a floating point circuit for its
pipeline, and it is calculated without rounding. -/
theorem C126_text (A : f.Arith fl) (hf : 4 ≤ f.p) (L : StdLib f) {sizes : List ℕ} (hpos : ∀ k ∈ sizes, 0 < k) {acts : List Act}
    (hT : ∀ a ∈ acts, a.Takes (blocks 0 sizes)) (hpl : ∀ a ∈ acts, a.Plain) (it : List (Reg × ℕ)) (hit : ∀ p ∈ it, p.1 ∈ blocks 0 sizes) :
    ∃ (s : LocalBuilder) (c : List (List ℕ × ObjTypeP f)) (els : List (ElemP A.Num)) (x z : ℕ) (u : ℂ) (ms : List ℕ),
      mainProg sizes acts LocalBuilder.default = .ok (blocks 0 sizes, List.range (measures acts)) s ∧ List.Forall₂ Meant c s.pipeline ∧
      c.mapM (elemP A L) = .ok (els.map elemOf) ∧ initialIndex s.n it = some x ∧ z < 2 ^ s.n ∧ Quarter u ∧ u ≠ 0 ∧ ms.length = measures acts ∧
      actsW (blocks 0 sizes) acts ms (ket (initAsg it)) = u • ket (asg s.n z) ∧
      (∀ ms', ms'.length = measures acts → ms' ≠ ms → actsW (blocks 0 sizes) acts ms' (ket (initAsg it)) = 0) ∧ ExactRuns A s.n els x z u ms := by
  obtain ⟨s, hs⟩ := C106_runs sizes hpos acts hT
  have hst := mainProg_plain hpl hs
  obtain ⟨c, k1, -⟩ := C123_circuit A hf s.n s.pipeline (main_facts hpos hT hs [] (by simp)).2.1 (fun e he => by
    have := hst e he
    unfold AngleFits
    obtain ⟨idx, w, o⟩ := e
    cases o with
    | meas m => trivial
    | unitary g =>
      cases g with
      | Rz r => cases (show UObj.plain (.Rz r) = true from this)
      | _ => trivial)
  obtain ⟨els, x, z, u, ms, h⟩ := C126_programs A L hpos hT hs hst it hit c k1
  exact ⟨s, c, els, x, z, u, ms, hs, k1, h⟩

theorem parityLines_plain (a : ℕ) (is : List ℕ) : (parityLines a is).Plain := by
  induction is with
  | nil => unfold parityLines Lines.Plain; trivial
  | cons i is ih =>
    unfold parityLines
    split
    · unfold Lines.Plain
      exact ⟨by unfold Prog.Plain; rfl, ih⟩
    · exact ih

/-- C126: the oracle for the common ones with `a` (C109), with any number of qubits, called with any number `v`: every run reports the parity. -/
theorem C126_parity (A : f.Arith fl) (hf : 4 ≤ f.p) (L : StdLib f) {n : ℕ} (hn : 0 < n) (a : ℕ) {v : ℕ} (hv : v < 2 ^ n) :
    ∃ (s : LocalBuilder) (c : List (List ℕ × ObjTypeP f)) (els : List (ElemP A.Num)) (x z : ℕ) (u : ℂ),
      mainProg [n, 1] [.run (parityOracle n a), .measure 1] LocalBuilder.default = .ok (blocks 0 [n, 1], [0]) s ∧ List.Forall₂ Meant c s.pipeline ∧
      c.mapM (elemP A L) = .ok (els.map elemOf) ∧ initialIndex s.n [(List.range n, v)] = some x ∧ ExactRuns A s.n els x z u [dot n v a % 2] := by
  have ho := (C109_oracles hn).2 a
  have hT : ∀ b ∈ [Act.run (parityOracle n a), .measure 1], b.Takes (blocks 0 [n, 1]) := by
    rw [blocks_query]
    intro b hb
    simp only [List.mem_cons, List.not_mem_nil, or_false] at hb
    rcases hb with rfl | rfl
    · exact ho.takes
    · exact Nat.one_lt_two
  have hp : ∀ b ∈ [Act.run (parityOracle n a), .measure 1], b.Plain := by
    intro b hb
    simp only [List.mem_cons, List.not_mem_nil, or_false] at hb
    rcases hb with rfl | rfl
    · show (parityOracle n a).Plain
      unfold parityOracle Prog.Plain
      exact parityLines_plain a _
    · trivial
  obtain ⟨s, c, -, -, -, -, -, h1, h2, -⟩ := C126_text A hf L (by simp [hn]) hT hp [] (by simp)
  obtain ⟨els, x, z, u, k1, k2, k3⟩ := C126_oracle A L hn ho hv h1 (mainProg_plain hp h1) c h2
  refine ⟨s, c, els, x, z, u, h1, h2, k1, k2, ?_⟩
  have e : (decide (dot n v a % 2 = 1)).toNat = dot n v a % 2 := by
    rcases Nat.mod_two_eq_zero_or_one (dot n v a) with h | h <;> simp [h]
  simp only [e] at k3
  exact k3

/-! ## examples -/

/-- few gates, all of them plain -/
def plainRun (r : EStateM.Result Fail LocalBuilder (List Reg × List ℕ)) : Bool :=
  match r with
  | .ok _ s => s.pipeline.all fun e => decide (PlainStep e)
  | .error _ _ => false

theorem plainRun_ok {sizes : List ℕ} (hpos : ∀ k ∈ sizes, 0 < k) {acts : List Act} (hT : ∀ a ∈ acts, a.Takes (blocks 0 sizes))
    (h : plainRun (mainProg sizes acts LocalBuilder.default) = true) (A : binary64.Arith fl) :
    ∃ s c, mainProg sizes acts LocalBuilder.default = .ok (blocks 0 sizes, List.range (measures acts)) s ∧ (∀ e ∈ s.pipeline, PlainStep e) ∧
      List.Forall₂ (Meant (f := binary64)) c s.pipeline := by
  obtain ⟨s, hs⟩ := C106_runs sizes hpos acts hT
  rw [hs] at h
  simp only [plainRun, List.all_eq_true, decide_eq_true_eq] at h
  obtain ⟨c, k1, -⟩ := C123_circuit A (by show 4 ≤ 53; norm_num) s.n s.pipeline (main_facts hpos hT hs [] (by simp)).2.1 (by
    intro e he
    have := h e he
    unfold AngleFits
    obtain ⟨idx, w, o⟩ := e
    cases o with
    | meas m => trivial
    | unitary g =>
      cases g with
      | Rz r => cases (show UObj.plain (.Rz r) = true from this)
      | _ => trivial)
  exact ⟨s, c, hs, h, k1⟩

/-- the oracle for the parity of the common ones of a number of four bits and 11, called with 6: 6 and 11 have one common one -/
example (A : binary64.Arith fl) : ∃ (n : ℕ) (els : List (ElemP A.Num)) (x z : ℕ) (u : ℂ), initialIndex n [(List.range 4, 6)] = some x ∧ ExactRuns A n els x z u [1] := by
  have ho := (C109_oracles (n := 4) (by norm_num)).2 11
  obtain ⟨s, c, h1, h2, h3⟩ := plainRun_ok (sizes := [4, 1]) (acts := [.run (parityOracle 4 11), .measure 1]) (by simp) (by
    rw [blocks_query]
    intro a ha
    simp only [List.mem_cons, List.not_mem_nil, or_false] at ha
    rcases ha with rfl | rfl
    · exact ho.takes
    · exact Nat.one_lt_two) (by krfl) A
  obtain ⟨els, x, z, u, -, k2, k3⟩ := C126_oracle A (stdRounded A) (by norm_num) ho (v := 6) (by norm_num) h1 h2 c h3
  exact ⟨s.n, els, x, z, u, k2, k3⟩

/-- `-i` is stored exactly -/
example (A : binary32.Arith fl) : ∃ a b : binary32.Fin, A.stored (-Complex.I) = (some a, some b) ∧ a.1 = (-Complex.I).re ∧ b.1 = (-Complex.I).im :=
  C126_stored A _ (.inr (.inr (.inr (.inr rfl))))

/-- a qubit in the state 1, measured with the draw zero: there is a result, and it is 0 -/
example (A : binary64.Arith fl) : (∃ m p out, MeasureP A.prec 1 [0] ((List.replicate (2 ^ 1) (0 : A.Num)).set 1 (A.stored 1)) (List.replicate (2 ^ 1) (0 : A.Num)) (A.round 0) m p out) ∧
    ∀ m p out, MeasureP A.prec 1 [0] ((List.replicate (2 ^ 1) (0 : A.Num)).set 1 (A.stored 1)) (List.replicate (2 ^ 1) (0 : A.Num)) (A.round 0) m p out → m = 0 :=
  ⟨(C88_total A.prec 1 [0] (by simp) (by simp) _ _ (by rfl) (by rfl) (A.round 0)).1, fun m p out h => C126_zero A 1 1 1 (.inr (.inl rfl)) [0] _ m p out h⟩

/-- X and S on the second of two qubits, a measurement of both, and Y -/
example (A : binary32.Arith fl) (L : StdLib binary32) :=
  C126_circuit A L 2 [([0], 1)] (by simp) [([1], ⟨1, .unitary .X⟩), ([1], ⟨1, .unitary .S⟩), ([0, 1], ⟨2, .meas .measurement⟩), ([0], ⟨1, .unitary .Y⟩)] (by
    intro e he
    simp only [List.mem_cons, List.not_mem_nil, or_false] at he
    rcases he with rfl | rfl | rfl | rfl
    · exact .inl ⟨⟨⟨by simp, by simp, fun u hu => by cases hu; rfl⟩, rfl, _, rfl, by simp⟩, by simp⟩
    · exact .inl ⟨⟨⟨by simp, by simp, fun u hu => by cases hu; rfl⟩, rfl, _, rfl, by simp⟩, by simp⟩
    · exact .inr ⟨rfl, by simp, by simp⟩
    · exact .inl ⟨⟨⟨by simp, by simp, fun u hu => by cases hu; rfl⟩, rfl, _, rfl, by simp⟩, by simp⟩) (by decide)
    [([1], .unitary .X), ([1], .unitary .S), ([0, 1], .meas .measurement), ([0], .unitary .Y)]
    (.cons ⟨rfl, .inl rfl⟩ (.cons ⟨rfl, .inl rfl⟩ (.cons ⟨rfl, .inl rfl⟩ (.cons ⟨rfl, .inl rfl⟩ .nil))))

/-- 40 qubits: the common ones of 2^39 + 5 and 2^40 - 1 are three -/
example (A : binary32.Arith fl) (L : StdLib binary32) : ∃ (n : ℕ) (els : List (ElemP A.Num)) (x z : ℕ) (u : ℂ), ExactRuns A n els x z u [1] := by
  obtain ⟨s, c, els, x, z, u, -, -, -, -, h⟩ := C126_parity A (by show 4 ≤ 24; norm_num) L (n := 40) (by norm_num) (2 ^ 40 - 1) (v := 2 ^ 39 + 5) (by norm_num)
  exact ⟨s.n, els, x, z, u, h⟩

end Verif.Props
