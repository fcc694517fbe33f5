import Verif.Spec.FloatState
import Verif.Props.FloatMain
import Verif.Props.StructInv
import Verif.Props.Stale

/-!
# Property C124: from programs to state vectors and probabilities, in floating point arithmetic
-/

namespace Verif.Props
open Verif MatrixOp Format.Arith Finset

variable {f : Format} {fl : ℝ → ℝ}

theorem runs_takes {ps : List Prog} {rs : List Reg} (hT : ∀ p ∈ ps, p.Takes false rs) : ∀ a ∈ ps.map Act.run, a.Takes rs := by
  intro a ha
  obtain ⟨p, hp, rfl⟩ := List.mem_map.mp ha
  exact hT p hp

theorem runs_measures (ps : List Prog) : measures (ps.map .run) = 0 := by
  induction ps with
  | nil => rfl
  | cons p ps ih => exact ih

/-- the pipeline of programs without measurements -/
theorem runs_seg {sizes : List ℕ} (hpos : ∀ k ∈ sizes, 0 < k) {ps : List Prog} (hT : ∀ p ∈ ps, p.Takes false (blocks 0 sizes)) {out : List Reg × List ℕ}
    {s : LocalBuilder} (h : mainProg sizes (ps.map .run) LocalBuilder.default = .ok out s) : ∀ e ∈ s.pipeline, SegU s.n e := by
  obtain ⟨-, g2, g3, -⟩ := main_facts hpos (runs_takes hT) h [] (by simp)
  intro e he
  rcases g2 e he with h | ⟨h, -⟩
  · exact h
  · have : 0 < measCount s.pipeline := List.countP_pos_iff.mpr ⟨e, he, by simp [isMeas, h]⟩
    rw [g3, runs_measures] at this
    omega

/-- C124: the state vector. For every main program that runs structured programs, every initial value, and every floating point circuit `c` that its pipeline is meant by:
the entries of all gates can be computed, and every run of the calculation ends with the state that the programs make of the initial state, up to
`(cost of the circuit)·2^-p`. -/
theorem C124_state (A : f.Arith fl) (hf : 10 ≤ f.p) (he : f.emin + 2 * f.p + 4 ≤ 0) (L : StdLib f) (hL : L.Accurate f.eps) {sizes : List ℕ}
    (hpos : ∀ k ∈ sizes, 0 < k) (ps : List Prog) (hT : ∀ p ∈ ps, p.Takes false (blocks 0 sizes))
    {out : List Reg × List ℕ} {s : LocalBuilder} (h : mainProg sizes (ps.map .run) LocalBuilder.default = .ok out s)
    (it : List (Reg × ℕ)) (hit : ∀ p ∈ it, p.1 ∈ blocks 0 sizes) (hN : 2 ^ s.n * f.eps ≤ 1 / 64) (c : List (List ℕ × ObjTypeP f))
    (hm : List.Forall₂ Meant c s.pipeline) (hw : ∀ e ∈ c, e.2.Within 1) (hE : (circuitCost s.pipeline : ℝ) * f.eps ≤ 1) :
    ∃ (els : List (ElemC A.Num)) (x : ℕ), c.mapM (elemP A L) = .ok els ∧ initialIndex s.n it = some x ∧
      StateNear A s.n els x (progsW (blocks 0 sizes) ps (ket (initAsg it))) (circuitCost s.pipeline * f.eps) := by
  have hu := runs_seg hpos hT h
  obtain ⟨g1, -⟩ := main_facts hpos (runs_takes hT) h it hit
  have hp : ∀ e ∈ s.pipeline, AnyElem s.n e ∧ e.2.object ≠ .meas .measurement := fun e he => by
    refine ⟨.inl (.inl (hu e he)), fun h => ?_⟩
    obtain ⟨⟨-, -, u, hu, -⟩, -⟩ := hu e he
    rw [hu] at h
    cases h
  have key := fun rnds => C122_stochastic A hf he L hL s hN it g1 hp c hm hw rnds hE
  obtain ⟨els, x, -, -, e1, e2, -⟩ := key fun _ => (round_some A 0 (by rw [abs_zero]; linarith [top_ge A])).choose
  refine ⟨els, x, e1, e2, fun rnds => ?_⟩
  obtain ⟨els', x', v, ms, k1, k2, k3, k4, k5⟩ := key rnds
  obtain rfl : els = els' := by rw [e1] at k1; injection k1
  obtain rfl : x = x' := by rw [e2] at k2; injection k2
  refine ⟨k4, fun t ht => ?_⟩
  obtain ⟨r1, r2, r3, r4⟩ := k5 t ht
  obtain ⟨v', y1, y2⟩ := C106_unmeasured hpos ps hT h it hit fun k => (rnds k).1
  rw [k3] at y1
  obtain ⟨rfl, rfl⟩ : v = v' ∧ ms = [] := by simpa using y1
  refine ⟨List.forall₂_nil_right_iff.mp r1, r2, r3, ?_⟩
  rw [nrm_congr s.n _ (fun r => vals A.val t.state r - vals id v r) fun r hr => ?_]
  · exact r4
  · simp only [vals, y2.2 r hr, Option.map_some, id, Option.getD_some]
    rfl
theorem blocks_nodup (sizes : List ℕ) : (blocks 0 sizes).flatten.Nodup := by
  rw [blocks_eq]
  exact ranges_nodup _

theorem progsW_norm {rs : List Reg} (hn : rs.flatten.Nodup) {ps : List Prog} (hT : ∀ p ∈ ps, p.Takes false rs) (ψ : Wave) : normW (progsW rs ps ψ) = normW ψ := by
  induction ps generalizing ψ with
  | nil => rfl
  | cons p ps ih =>
    unfold progsW
    rw [List.foldl_cons]
    exact (ih (fun p hp => hT p (by simp [hp])) _).trans (C107_unitary p rs (hT p (by simp)) hn ψ)

/-- the state the programs make is that of the pipeline, on the qubits of the builder -/
theorem progsW_low {sizes : List ℕ} (hpos : ∀ k ∈ sizes, 0 < k) {ps : List Prog} (hT : ∀ p ∈ ps, p.Takes false (blocks 0 sizes)) {out : List Reg × List ℕ}
    {s : LocalBuilder} (h : mainProg sizes (ps.map .run) LocalBuilder.default = .ok out s) (it : List (Reg × ℕ)) (hit : ∀ p ∈ it, p.1 ∈ blocks 0 sizes) :
    runW rotAngle s.pipeline (ket (initAsg it)) = progsW (blocks 0 sizes) ps (ket (initAsg it)) ∧ On (Low s.n) (progsW (blocks 0 sizes) ps (ket (initAsg it))) := by
  have hu := runs_seg hpos hT h
  obtain ⟨g1, -, -, g4⟩ := main_facts hpos (runs_takes hT) h it hit
  obtain ⟨k, -⟩ := g4 [] (by rw [runs_measures]; rfl)
  have e1 : ∀ (p : Pipeline) (ψ : Wave), (∀ e ∈ p, SegU s.n e) → branchW rotAngle p [] ψ = runW rotAngle p ψ := by
    intro p
    induction p with
    | nil => intro ψ _; rfl
    | cons e p ih =>
      intro ψ hp
      obtain ⟨⟨-, -, u, hu, -⟩, -⟩ := hp e (by simp)
      simp only [branchW, hu]
      exact ih _ fun e he => hp e (by simp [he])
  have e2 : ∀ (ps : List Prog) (ψ : Wave), actsW (blocks 0 sizes) (ps.map .run) [] ψ = progsW (blocks 0 sizes) ps ψ := by
    intro ps
    induction ps with
    | nil => intro ψ; rfl
    | cons p ps ih => intro ψ; exact ih _
  rw [e1 _ _ hu, e2] at k
  refine ⟨k, ?_⟩
  rw [← k]
  have h0 : On (Low s.n) (ket (initAsg it)) := (run_calculate s it g1 fun _ => 0).choose_spec.2.2.2.2
  exact runW_low s.pipeline hu h0

/-- C124: the length of the computed state vector is one, up to the same bound. -/
theorem C124_length (A : f.Arith fl) {sizes : List ℕ} (hpos : ∀ k ∈ sizes, 0 < k) (ps : List Prog) (hT : ∀ p ∈ ps, p.Takes false (blocks 0 sizes))
    {out : List Reg × List ℕ} {s : LocalBuilder} (h : mainProg sizes (ps.map .run) LocalBuilder.default = .ok out s) (it : List (Reg × ℕ))
    (hit : ∀ p ∈ it, p.1 ∈ blocks 0 sizes) (v : List A.Num) (B : ℝ) (hv : nrm s.n (fun r => vals A.val v r - progsW (blocks 0 sizes) ps (ket (initAsg it)) (asg s.n r)) ≤ B) :
    |nrm s.n (vals A.val v) - 1| ≤ B := by
  obtain ⟨-, hl⟩ := progsW_low hpos hT h it hit
  have hn := progsW_norm (blocks_nodup sizes) hT (ket (initAsg it))
  generalize progsW (blocks 0 sizes) ps (ket (initAsg it)) = ψ at *
  have h1 : nrm s.n (fun r => ψ (asg s.n r)) = 1 := by
    have e : nrm s.n (fun r => ψ (asg s.n r)) ^ 2 = 1 := by
      rw [nrm_sq, ← normW_ket (initAsg it), ← hn, normW_low hl]
      exact sum_congr rfl fun x _ => (Complex.normSq_eq_norm_sq _).symm
    have := nrm_nonneg s.n (fun r => ψ (asg s.n r))
    nlinarith
  have a1 := nrm_le_of_sub s.n (vals A.val v) (fun r => ψ (asg s.n r))
  have a2 := nrm_le_of_sub s.n (fun r => ψ (asg s.n r)) (vals A.val v)
  rw [nrm_sub_comm] at a2
  rw [_root_.abs_le]
  constructor <;> linarith

/-- C124: a program followed by its inverse gives the initial state back, up to the bound. -/
theorem C124_back (A : f.Arith fl) (hf : 10 ≤ f.p) (he : f.emin + 2 * f.p + 4 ≤ 0) (L : StdLib f) (hL : L.Accurate f.eps) {sizes : List ℕ}
    (hpos : ∀ k ∈ sizes, 0 < k) (p : Prog) (attr : Bool) (hT : (Prog.inv attr p).Takes false (blocks 0 sizes))
    {out : List Reg × List ℕ} {s : LocalBuilder} (h : mainProg sizes [.run p, .run (.inv attr p)] LocalBuilder.default = .ok out s)
    (it : List (Reg × ℕ)) (hit : ∀ p ∈ it, p.1 ∈ blocks 0 sizes) (hN : 2 ^ s.n * f.eps ≤ 1 / 64) (c : List (List ℕ × ObjTypeP f))
    (hm : List.Forall₂ Meant c s.pipeline) (hw : ∀ e ∈ c, e.2.Within 1) (hE : (circuitCost s.pipeline : ℝ) * f.eps ≤ 1) :
    ∃ (els : List (ElemC A.Num)) (x : ℕ), c.mapM (elemP A L) = .ok els ∧ initialIndex s.n it = some x ∧
      StateNear A s.n els x (ket (initAsg it)) (circuitCost s.pipeline * f.eps) := by
  have hn := blocks_nodup sizes
  have hp : p.Takes false (blocks 0 sizes) := by
    simp only [Prog.Takes] at hT
    exact takes_ranges hT.2.2.2.1
  have e : progsW (blocks 0 sizes) [p, .inv attr p] (ket (initAsg it)) = ket (initAsg it) := by
    have := (p.undo (blocks 0 sizes) hp hn (initAsg it)).1
    unfold progsW
    simp only [List.foldl_cons, List.foldl_nil, Prog.wave]
    simpa [ket, lift] using this
  rw [← e]
  exact C124_state A hf he L hL hpos [p, .inv attr p] (by
    intro q hq
    simp only [List.mem_cons, List.not_mem_nil, or_false] at hq
    rcases hq with rfl | rfl
    · exact hp
    · exact hT) h it hit hN c hm hw hE

theorem stochastic_split {sizes : List ℕ} (hpos : ∀ k ∈ sizes, 0 < k) (ps : List Prog) (hT : ∀ p ∈ ps, p.Takes false (blocks 0 sizes)) (i : ℕ)
    (hi : i < (blocks 0 sizes).length) {out : Reg × ℕ} {s : LocalBuilder} (h : stochasticMain sizes ps i LocalBuilder.default = .ok out s) :
    ∃ s0, mainProg sizes (ps.map .run) LocalBuilder.default = .ok (blocks 0 sizes, []) s0 ∧ s.n = s0.n ∧
      s.pipeline = s0.pipeline ++ [((blocks 0 sizes)[i], ⟨(blocks 0 sizes)[i].length, .meas .stochastic⟩)] := by
  obtain ⟨s0, h0⟩ := C106_runs sizes hpos _ (runs_takes hT)
  rw [runs_measures, List.range_zero] at h0
  refine ⟨s0, h0, ?_⟩
  unfold stochasticMain at h
  rw [bind_ok h0] at h
  simp only [List.getElem?_eq_getElem hi] at h
  cases h
  exact ⟨rfl, rfl⟩

/-- C124: the probabilities. If the main program ends with `measure_stochastic` of register `i`, every run reports the probabilities that quantum mechanics gives for the
programs, up to `E(2+E) + 24·2^(n-p)` with `E = (cost of the circuit)·2^-p`. -/
theorem C124_probabilities (A : f.Arith fl) (hf : 10 ≤ f.p) (he : f.emin + 2 * f.p + 4 ≤ 0) (L : StdLib f) (hL : L.Accurate f.eps) {sizes : List ℕ}
    (hpos : ∀ k ∈ sizes, 0 < k) (ps : List Prog) (hT : ∀ p ∈ ps, p.Takes false (blocks 0 sizes)) (i : ℕ) (hi : i < (blocks 0 sizes).length)
    {out : Reg × ℕ} {s : LocalBuilder} (h : stochasticMain sizes ps i LocalBuilder.default = .ok out s)
    (it : List (Reg × ℕ)) (hit : ∀ p ∈ it, p.1 ∈ blocks 0 sizes) (hN : 2 ^ s.n * f.eps ≤ 1 / 64) (c : List (List ℕ × ObjTypeP f))
    (hm : List.Forall₂ Meant c s.pipeline) (hw : ∀ e ∈ c, e.2.Within 1) (hE : (circuitCost s.pipeline : ℝ) * f.eps ≤ 1) :
    ∃ (els : List (ElemC A.Num)) (x : ℕ), c.mapM (elemP A L) = .ok els ∧ initialIndex s.n it = some x ∧
      ProbsNear A s.n els x (probsW (blocks 0 sizes)[i] (progsW (blocks 0 sizes) ps (ket (initAsg it))))
        (circuitCost s.pipeline * f.eps * (2 + circuitCost s.pipeline * f.eps) + 24 * (2 ^ s.n * f.eps)) := by
  obtain ⟨s0, h0, en, ep⟩ := stochastic_split hpos ps hT i hi h
  have hu := runs_seg hpos hT h0
  obtain ⟨g1, -⟩ := main_facts hpos (runs_takes hT) h0 it hit
  rw [← en] at g1 hu
  obtain ⟨l1, -⟩ := progsW_low hpos hT h0 it hit
  have hr : (blocks 0 sizes)[i].Nodup := (List.nodup_flatten.mp (blocks_nodup sizes)).1 _ (List.getElem_mem hi)
  have hrn : ∀ q ∈ (blocks 0 sizes)[i], q < s.n := by
    obtain ⟨g, -⟩ := main_facts hpos (runs_takes hT) h0 [((blocks 0 sizes)[i], 0)] (by simp)
    rw [en]
    exact g ((blocks 0 sizes)[i], 0) (by simp)
  have hp : ∀ e ∈ s.pipeline, AnyElem s.n e ∧ e.2.object ≠ .meas .measurement := fun e he => by
    rw [ep, List.mem_append, List.mem_singleton] at he
    rcases he with he | rfl
    · refine ⟨.inl (.inl (hu e he)), fun h => ?_⟩
      obtain ⟨⟨-, -, u, hu, -⟩, -⟩ := hu e he
      rw [hu] at h
      cases h
    · exact ⟨.inr ⟨.inr rfl, hr, hrn, fun u hu => by cases hu⟩, by simp⟩
  have key := fun rnds => C122_stochastic A hf he L hL s hN it g1 hp c hm hw rnds hE
  obtain ⟨els, x, -, -, e1, e2, -⟩ := key fun _ => (round_some A 0 (by rw [abs_zero]; linarith [top_ge A])).choose
  refine ⟨els, x, e1, e2, fun rnds => ?_⟩
  obtain ⟨els', x', v, ms, k1, k2, k3, k4, k5⟩ := key rnds
  obtain rfl : els = els' := by rw [e1] at k1; injection k1
  obtain rfl : x = x' := by rw [e2] at k2; injection k2
  refine ⟨k4, fun t ht => ?_⟩
  obtain ⟨r1, -⟩ := k5 t ht
  obtain ⟨v', ms', y1, -, y2, y3⟩ := C81_exact s it g1 (by
    intro e he
    rw [ep, List.mem_append, List.mem_singleton] at he
    rcases he with he | rfl
    · exact .inl (hu e he).1
    · exact .inr ⟨.inr rfl, hr, hrn, fun u hu => by cases hu⟩) fun k => (rnds k).1
  obtain ⟨v2, ms2, z1, z2⟩ := C81_probabilities_partial s it g1 s0.pipeline [] _ _ ep hr hrn (fun e he => (hu e he).1) (by simp) fun k => (rnds k).1
  rw [k3] at y1 z1
  obtain ⟨rfl, rfl⟩ : v = v' ∧ ms = ms' := by simpa using y1
  obtain ⟨rfl, rfl⟩ : v = v2 ∧ ms = ms2 := by simpa using z1
  have hc : measCount s.pipeline = 1 := by
    have : measCount s0.pipeline = 0 := by
      obtain ⟨-, -, g3, -⟩ := main_facts hpos (runs_takes hT) h0 it hit
      rw [g3, runs_measures]
    rw [ep]
    unfold measCount at this ⊢
    rw [List.countP_append, this]
    rfl
  rw [hc] at y2
  obtain ⟨m, rfl⟩ := List.length_eq_one_iff.mp y2
  rw [l1] at z2
  obtain ⟨a, l, q1, q2, q3⟩ := List.forall₂_cons_right_iff.mp r1
  obtain rfl := List.forall₂_nil_right_iff.mp q2
  cases q1 with
  | single m y Q => cases z2
  | stochastic qs Qs hqs =>
    have : Qs = probsW (blocks 0 sizes)[i] (progsW (blocks 0 sizes) ps (ket (initAsg it))) := by
      simpa [getStochasticMeasurement] using z2
    subst this
    exact ⟨qs, q3, hqs⟩

/-- the bounds in `f64` for at most 10 qubits and 1000 gates -/
theorem C124_bound (n cost : ℕ) (hn : n ≤ 10) (hg : cost ≤ 64000) :
    2 ^ n * binary64.eps ≤ 1 / 64 ∧ (cost : ℝ) * binary64.eps ≤ 1 ∧ (cost : ℝ) * binary64.eps ≤ 1 / 2 ^ 37 ∧
      (cost : ℝ) * binary64.eps * (2 + (cost : ℝ) * binary64.eps) + 24 * (2 ^ n * binary64.eps) ≤ 1 / 2 ^ 35 := by
  have he : binary64.eps = (2 : ℝ)⁻¹ ^ 53 := rfl
  have hG : (cost : ℝ) ≤ 64000 := by exact_mod_cast hg
  have hG0 : (0 : ℝ) ≤ cost := by positivity
  have h2n : (2 : ℝ) ^ n ≤ 2 ^ 10 := pow_le_pow_right₀ (by norm_num) hn
  obtain ⟨b1, b2, -⟩ := C123_bound n cost hn hg
  refine ⟨b1, b2, ?_, ?_⟩
  · rw [he]
    norm_num
    linarith
  · have hE : (cost : ℝ) * binary64.eps ≤ 64000 / 2 ^ 53 := by
      rw [he]
      norm_num
      linarith
    have hE0 : 0 ≤ (cost : ℝ) * binary64.eps := by rw [he]; positivity
    have hE2 : (cost : ℝ) * binary64.eps * (2 + (cost : ℝ) * binary64.eps) ≤ 64000 / 2 ^ 53 * (2 + 1 / 64) := by
      refine mul_le_mul hE ?_ (by linarith) (by norm_num)
      norm_num at hE ⊢
      linarith
    have hq : 2 ^ n * binary64.eps ≤ 2 ^ 10 / 2 ^ 53 := by
      rw [he]
      norm_num at h2n ⊢
      linarith
    norm_num at hE2 hq ⊢
    linarith

/-! ## examples -/

/-- C124 (the conditions can be met): a main program with `measure_stochastic` at the end runs, and if the circuit of its programs has a floating point circuit, so has
its own. -/
theorem C124_circuit {sizes : List ℕ} (hpos : ∀ k ∈ sizes, 0 < k) (ps : List Prog) (hT : ∀ p ∈ ps, p.Takes false (blocks 0 sizes)) (i : ℕ)
    (hi : i < (blocks 0 sizes).length) : ∃ s0 s, mainProg sizes (ps.map .run) LocalBuilder.default = .ok (blocks 0 sizes, []) s0 ∧
      stochasticMain sizes ps i LocalBuilder.default = .ok ((blocks 0 sizes)[i], 0) s ∧ s.n = s0.n ∧ circuitCost s.pipeline = circuitCost s0.pipeline ∧
      ∀ c : List (List ℕ × ObjTypeP f), List.Forall₂ Meant c s0.pipeline → (∀ e ∈ c, e.2.Within 1) →
        ∃ c' : List (List ℕ × ObjTypeP f), List.Forall₂ Meant c' s.pipeline ∧ ∀ e ∈ c', e.2.Within 1 := by
  have hT' : ∀ a ∈ ps.map .run ++ [Act.measure i], a.Takes (blocks 0 sizes) := by
    intro a ha
    rw [List.mem_append, List.mem_singleton] at ha
    rcases ha with ha | rfl
    · exact runs_takes hT a ha
    · exact hi
  obtain ⟨s1, h1⟩ := C106_runs sizes hpos _ hT'
  obtain ⟨s0, h0⟩ := C106_runs sizes hpos _ (runs_takes hT)
  have hm1 : ∀ ps : List Prog, measures (ps.map .run ++ [.measure i]) = 1 := fun ps => by induction ps with | nil => rfl | cons p ps ih => exact ih
  rw [runs_measures, List.range_zero] at h0
  have hk : s0.measurements = 0 := by
    rw [mainProg_append, bind_ok h0] at h1
    have e : Act.exec (.measure i) (blocks 0 sizes, []) s0 =
        .ok ((blocks 0 sizes).set i (blocks 0 sizes)[i], [] ++ [s0.measurements])
          { s0 with
            pipeline := s0.pipeline ++ [((blocks 0 sizes)[i], ⟨(blocks 0 sizes)[i].length, .meas .measurement⟩)]
            measurements := s0.measurements + 1 } := by
      unfold Act.exec
      simp only [List.getElem?_eq_getElem hi]
      rfl
    rw [List.foldlM_cons, bind_ok e, hm1] at h1
    injection h1 with h1
    injection h1 with _ h1
    injection h1
  have hs : stochasticMain sizes ps i LocalBuilder.default = .ok ((blocks 0 sizes)[i], s0.measurements)
      { s0 with
        pipeline := s0.pipeline ++ [((blocks 0 sizes)[i], ⟨(blocks 0 sizes)[i].length, .meas .stochastic⟩)]
        measurements := s0.measurements + 1 } := by
    unfold stochasticMain
    rw [bind_ok h0]
    simp only [List.getElem?_eq_getElem hi]
    rfl
  rw [hk] at hs
  refine ⟨s0, _, h0, hs, rfl, ?_, fun c hc hw => ⟨c ++ [((blocks 0 sizes)[i], .meas .stochastic)], ?_, fun e he => ?_⟩⟩
  · show circuitCost (_ ++ _) = _
    rw [circuitCost_append]
    rfl
  · exact List.rel_append hc (.cons (show Meant (f := f) ((blocks 0 sizes)[i], .meas .stochastic) ((blocks 0 sizes)[i], ⟨_, .meas .stochastic⟩) from ⟨rfl, .inl rfl⟩) .nil)
  · rw [List.mem_append, List.mem_singleton] at he
    rcases he with he | rfl
    · exact hw e he
    · trivial

/-- the Bell state, in `f64` -/
example (A : binary64.Arith fl) : ∃ (n : ℕ) (els : List (ElemC A.Num)),
    StateNear A n els 0 (((1 / Real.sqrt 2 : ℝ) : ℂ) • ket (fun _ => false) + ((1 / Real.sqrt 2 : ℝ) : ℂ) • ket (ones [0, 1])) (1 / 2 ^ 37) := by
  have hT : ∀ p ∈ [bellProg], p.Takes false (blocks 0 [1, 1]) := fun p hp => by
    rw [List.mem_singleton] at hp; subst hp; exact bell_takes (.run bellProg) (by simp)
  obtain ⟨s, c, h1, h2, h3, h4, h5⟩ := smallRun_ok (sizes := [1, 1]) (by simp) (runs_takes hT) (by krfl) A
  obtain ⟨b1, b2, b3, -⟩ := C124_bound s.n (circuitCost s.pipeline) h2 h3
  obtain ⟨els, x, -, k2, k⟩ := C124_state A (C88_formats 2).2.2.1.1 (C88_formats 2).2.2.1.2 (stdRounded A) (C122_accurate A) (by simp) [bellProg] hT h1 [] (by simp) b1 c h4 h5 b2
  obtain rfl : 0 = x := Option.some.inj k2
  refine ⟨s.n, els, fun rnds => ⟨(k rnds).1, fun t ht => ?_⟩⟩
  obtain ⟨r1, r2, r3, r4⟩ := (k rnds).2 t ht
  refine ⟨r1, r2, r3, le_trans ?_ (r4.trans b3)⟩
  have e : progsW (blocks 0 [1, 1]) [bellProg] (ket (initAsg [])) =
      ((1 / Real.sqrt 2 : ℝ) : ℂ) • ket (fun _ => false) + ((1 / Real.sqrt 2 : ℝ) : ℂ) • ket (ones [0, 1]) := by
    rw [initAsg_nil, ← bell_wave]
    simp [progsW, ket, blocks]
  rw [e]

/-- ... and the probabilities of its first qubit -/
example (A : binary64.Arith fl) : ∃ (n : ℕ) (els : List (ElemC A.Num)), ProbsNear A n els 0 [1 / 2, 1 / 2] (1 / 2 ^ 35) := by
  have hT : ∀ p ∈ [bellProg], p.Takes false (blocks 0 [1, 1]) := fun p hp => by
    rw [List.mem_singleton] at hp; subst hp; exact bell_takes (.run bellProg) (by simp)
  obtain ⟨s0, c, h1, h2, h3, h4, h5⟩ := smallRun_ok (sizes := [1, 1]) (by simp) (runs_takes hT) (by krfl) A
  obtain ⟨s0', s, h1', hs, en, ec, hc⟩ := C124_circuit (f := binary64) (sizes := [1, 1]) (by simp) [bellProg] hT 0 (by simp [blocks])
  rw [h1] at h1'
  obtain rfl : s0 = s0' := by injection h1'
  obtain ⟨c', c1, c2⟩ := hc c h4 h5
  obtain ⟨b1, b2, -, b3⟩ := C124_bound s.n (circuitCost s.pipeline) (by rw [en]; exact h2) (by rw [ec]; exact h3)
  obtain ⟨els, x, -, k2, k⟩ := C124_probabilities A (C88_formats 2).2.2.1.1 (C88_formats 2).2.2.1.2 (stdRounded A) (C122_accurate A) (by simp) [bellProg] hT 0
    (by simp [blocks]) hs [] (by simp) b1 c' c1 c2 b2
  obtain rfl : 0 = x := Option.some.inj k2
  have e : probsW (blocks 0 [1, 1])[0] (progsW (blocks 0 [1, 1]) [bellProg] (ket (initAsg []))) = [1 / 2, 1 / 2] := by
    have e0 : progsW (blocks 0 [1, 1]) [bellProg] (ket (initAsg [])) =
        ((1 / Real.sqrt 2 : ℝ) : ℂ) • ket (fun _ => false) + ((1 / Real.sqrt 2 : ℝ) : ℂ) • ket (ones [0, 1]) := by
      rw [initAsg_nil, ← bell_wave]
      simp [progsW, ket, blocks]
    have v0 : On {y | valQ [0] y = 0} (((1 / Real.sqrt 2 : ℝ) : ℂ) • ket (fun _ => false)) := On.smul (On.ket (show valQ _ _ = 0 from rfl)) _
    have v1 : On {y | valQ [0] y = 1} (((1 / Real.sqrt 2 : ℝ) : ℂ) • ket (ones [0, 1])) := On.smul (On.ket (show valQ _ _ = 1 from rfl)) _
    have hh : Complex.normSq ((1 / Real.sqrt 2 : ℝ) : ℂ) = 1 / 2 := by
      rw [Complex.normSq_ofReal, div_mul_div_comm, Real.mul_self_sqrt (by norm_num), one_mul]
    rw [e0]
    show [normW (projW [0] 0 _), normW (projW [0] 1 _)] = _
    have a1 := projW_on v0
    have a2 := projW_off (m := 0) v1 (by simp)
    have a3 := projW_off (m := 1) v0 (by simp)
    have a4 := projW_on v1
    have c1 : projW [0] 0 (((1 / Real.sqrt 2 : ℝ) : ℂ) • ket (fun _ => false) + ((1 / Real.sqrt 2 : ℝ) : ℂ) • ket (ones [0, 1])) =
        ((1 / Real.sqrt 2 : ℝ) : ℂ) • ket (fun _ => false) := by
      unfold projW at a1 a2 ⊢
      rw [Finsupp.filter_add, a1, a2, add_zero]
    have c2 : projW [0] 1 (((1 / Real.sqrt 2 : ℝ) : ℂ) • ket (fun _ => false) + ((1 / Real.sqrt 2 : ℝ) : ℂ) • ket (ones [0, 1])) =
        ((1 / Real.sqrt 2 : ℝ) : ℂ) • ket (ones [0, 1]) := by
      unfold projW at a3 a4 ⊢
      rw [Finsupp.filter_add, a3, a4, zero_add]
    rw [c1, c2, normW_smul, normW_smul, normW_ket, normW_ket, hh, mul_one]
  refine ⟨s.n, els, fun rnds => ⟨(k rnds).1, fun t ht => ?_⟩⟩
  obtain ⟨ps, p1, p2⟩ := (k rnds).2 t ht
  rw [e] at p2
  exact ⟨ps, p1, p2.imp fun _ _ ⟨y, y1, y2, y3⟩ => ⟨y, y1, y2, y3.trans b3⟩⟩

/-- a program and its inverse, in `f64` -/
example (A : binary64.Arith fl) : ∃ (n : ℕ) (els : List (ElemC A.Num)) (x : ℕ), initialIndex n [([1, 2], 3)] = some x ∧
    StateNear A n els x (ket (initAsg [([1, 2], 3)])) (1 / 2 ^ 37) := by
  have hI : (Prog.inv true guarded).Takes false (blocks 0 [1, 2, 2]) := by
    simp only [Prog.Takes]
    exact ⟨trivial, by decide, by decide, guarded_takes, guarded_touches⟩
  have hT : ∀ a ∈ [Act.run guarded, .run (.inv true guarded)], a.Takes (blocks 0 [1, 2, 2]) := by
    intro a ha
    simp only [List.mem_cons, List.not_mem_nil, or_false] at ha
    rcases ha with rfl | rfl
    · exact guarded_takes
    · exact hI
  obtain ⟨s, c, h1, h2, h3, h4, h5⟩ := smallRun_ok (sizes := [1, 2, 2]) (by simp) hT (by krfl) A
  obtain ⟨b1, b2, b3, -⟩ := C124_bound s.n (circuitCost s.pipeline) h2 h3
  obtain ⟨els, x, -, k2, k⟩ := C124_back A (C88_formats 2).2.2.1.1 (C88_formats 2).2.2.1.2 (stdRounded A) (C122_accurate A) (by simp) guarded true hI h1 [([1, 2], 3)]
    (by intro p hp; rw [List.mem_singleton] at hp; subst hp; decide) b1 c h4 h5 b2
  refine ⟨s.n, els, x, k2, fun rnds => ⟨(k rnds).1, fun t ht => ?_⟩⟩
  obtain ⟨r1, r2, r3, r4⟩ := (k rnds).2 t ht
  exact ⟨r1, r2, r3, r4.trans b3⟩

end Verif.Props
