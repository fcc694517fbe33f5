import Verif.Proofs.IeeeCircuit
import Verif.Props.IeeeMeasure

/-!
# Property C88, what holds

A measurement in floating point arithmetic gives the exact outcome unless the draw lies next to one of the sums at which the outcome changes.
-/

namespace Verif.Props
open Verif MatrixOp Format.Arith Finset

theorem terms_total {P : Type} (R : Prec P) (n m : ℕ) (idx : List ℕ) (hn : idx.Nodup) (hidx : ∀ i ∈ idx, i < n) (input : List (P × P)) (off : Option ℕ) :
    ∃ ts, measureTermsP R n m idx input off = some ts := by
  unfold measureTermsP
  have hR : ((List.range n).filter (fun i => !idx.contains i)).Nodup := List.nodup_range.filter _
  have hR' : ∀ i ∈ (List.range n).filter (fun i => !idx.contains i), i < n := fun i hi => List.mem_range.mp (List.mem_filter.mp hi).1
  simp only [scatterBits_eq n m idx hn hidx, scatterBits_eq n _ _ hR hR', Option.bind_eq_bind, Option.bind_some]
  rw [mapM_some _ _ (fun bits => if foldSet (scatterPairs n bits ((List.range n).filter (fun i => !idx.contains i))) 0 + foldSet (scatterPairs n m idx) 0 < off.getD 0 then
      (none : Option P) else if isZeroP R (if h : foldSet (scatterPairs n bits ((List.range n).filter (fun i => !idx.contains i))) 0 +
        foldSet (scatterPairs n m idx) 0 - off.getD 0 ≥ input.length then (R.zero, R.zero) else input[foldSet (scatterPairs n bits
        ((List.range n).filter (fun i => !idx.contains i))) 0 + foldSet (scatterPairs n m idx) 0 - off.getD 0]'(by omega)) then none else
      some (normSqrP R (if h : foldSet (scatterPairs n bits ((List.range n).filter (fun i => !idx.contains i))) 0 +
        foldSet (scatterPairs n m idx) 0 - off.getD 0 ≥ input.length then (R.zero, R.zero) else input[foldSet (scatterPairs n bits
        ((List.range n).filter (fun i => !idx.contains i))) 0 + foldSet (scatterPairs n m idx) 0 - off.getD 0]'(by omega)))) (by
    intro a _
    split
    · rfl
    · exact (apply_ite some _ _ _).symm)]
  exact ⟨_, rfl⟩

/-- C88 (no panics), for any arithmetic: a measurement of distinct qubits in buffers of full size always has a result, and every result
is an outcome of the measured qubits and fills the buffer. -/
theorem C88_total {P : Type} (R : Prec P) (n : ℕ) (idx : List ℕ) (hn : idx.Nodup) (hidx : ∀ i ∈ idx, i < n) (input output : List (P × P))
    (hi : input.length = 2 ^ n) (ho : output.length = 2 ^ n) (rnd : P) :
    (∃ m p out, MeasureP R n idx input output rnd m p out) ∧
    ∀ m p out, MeasureP R n idx input output rnd m p out → m < 2 ^ idx.length ∧ out.length = 2 ^ n := by
  have hs := softMeasureP_eq R n idx hidx input rnd
  have hlt := outcomeOf_lt n idx ((softLoopP R input 0 (R.mul rnd R.one)).getD 0)
  generalize outcomeOf n idx ((softLoopP R input 0 (R.mul rnd R.one)).getD 0) = m0 at hs hlt
  have hst : ∀ p, ∃ out, measureStateP R n idx (m0, p) input output none = some out ∧ out.length = 2 ^ n := by
    intro p
    cases hz : R.beq p R.zero with
    | true => exact ⟨output, by unfold measureStateP; simp [hz], ho⟩
    | false =>
      obtain ⟨out, h1, h2, -⟩ := measureStateP_any R n m0 idx hn hidx p hz input output hi ho
      exact ⟨out, h1, h2⟩
  constructor
  · obtain ⟨ts, h1⟩ := terms_total R n m0 idx hn hidx input none
    obtain ⟨p, h2⟩ := sums_exists R ts
    obtain ⟨out, h3, -⟩ := hst p
    exact ⟨m0, p, out, hs, ⟨ts, h1, h2⟩, h3⟩
  · rintro m p out ⟨h1, -, h3⟩
    obtain rfl : m0 = m := by rw [hs] at h1; exact Option.some.inj h1
    obtain ⟨out', h4, h5⟩ := hst p
    obtain rfl : out' = out := by rw [h4] at h3; exact Option.some.inj h3
    exact ⟨hlt, h5⟩

/-- C88 (conformance): with exact real numbers for the machine numbers, the measurement is the one of the exact model, for every state,
every draw and every order of the additions. -/
theorem C88_exact (n : ℕ) (idx : List ℕ) (input output : List ℂ) (h : input.length = 2 ^ n) (r : ℝ) (m : ℕ) (p : ℝ) (out : List (ℝ × ℝ)) :
    MeasureP exactPrec n idx (input.map reIm) (output.map reIm) r m p out ↔
      ∃ o, measure n idx input output none none r = some ((m, p), o) ∧ out = o.map reIm := measureP_exact n idx input output h r m p out

variable {f : Format} {fl : ℝ → ℝ}

/-- C88, one measurement. The computed state is finite and within `ε` of the exact state `φ`; the draw falls on the basis state `x`, further
than `ε(2+ε) + 20·2^(n-p)` from all sums at which the outcome changes. Then there is a result, and every result, whatever the order of the
additions, is the exact outcome `m`, with a positive finite probability, and the new state is finite and near the exact one. (As stated, C88 has no
condition on the draw; see `C88_refuted`.) -/
theorem C88_measure_partial (A : f.Arith fl) (hf : 10 ≤ f.p) (he : f.emin + 2 * f.p + 4 ≤ 0) (n : ℕ) (hN : 2 ^ n * f.eps ≤ 1 / 64) (idx : List ℕ)
    (hn : idx.Nodup) (hidx : ∀ i ∈ idx, i < n) (v arena : List A.Num) (hv : v.length = 2 ^ n) (ha : arena.length = 2 ^ n) (hfin : ∀ c ∈ v, A.fin c)
    (φ : ℕ → ℂ) (hφ : nrm n φ = 1) (ε : ℝ) (hε : ε ≤ 1) (hvφ : nrm n (fun r => vals A.val v r - φ r) ≤ ε) (r : f.Fin) (r0 : 0 < r.1) (r1 : r.1 < 1)
    (hr : ∀ k, 1 ≤ k → k ≤ 2 ^ n → ε * (2 + ε) + 20 * (2 ^ n * f.eps) < |r.1 - cumul φ k|) (x : ℕ) (hx : x < 2 ^ n) (hx0 : cumul φ x < r.1)
    (hx1 : r.1 ≤ cumul φ (x + 1)) (m : ℕ) (hm : m < 2 ^ idx.length) (hmx : Spells n idx m x) :
    (∃ p out, MeasureP A.prec n idx v arena (some r) m p out) ∧
    ∀ m' p (out : List A.Num), MeasureP A.prec n idx v arena (some r) m' p out → m' = m ∧
      (∃ y : f.Fin, p = some y ∧ 0 < y.1 ∧ |y.1 - bornProb n idx m φ| ≤ ε * (2 + ε) + 24 * (2 ^ n * f.eps)) ∧ out.length = 2 ^ n ∧
      (∀ c ∈ out, A.fin c) ∧
      nrm n (fun r => vals A.val out r - collapsed n idx m φ r) ≤ 2 * ε / Real.sqrt (bornProb n idx m φ) + 13 * (2 ^ n * f.eps) := by
  obtain rfl := (spells_iff n idx m x hm).mp hmx
  obtain ⟨-, h1, h2⟩ := measure_err A hf he n hN idx hn hidx v arena hv ha hfin φ hφ ε hε hvφ r r0 r1 hr x hx hx0 hx1
  refine ⟨h1, fun m' p out h => ?_⟩
  obtain ⟨rfl, h3⟩ := h2 m' p out h
  exact ⟨rfl, h3⟩

open Classical in
/-- C88, a circuit of gates and measurements, for every initial value. If along the exact run no draw comes near a sum at which the outcome
changes (`Clear`), the exact computation and the one in floating point arithmetic agree: every run of the latter gives the same outcomes, with
probabilities that are positive and correct up to `κ`, and ends in a finite state within `δ` of the exact one. -/
theorem C88_circuit_partial (A : f.Arith fl) (hf : 10 ≤ f.p) (he : f.emin + 2 * f.p + 4 ≤ 0) (b : LocalBuilder) (hN : 2 ^ b.n * f.eps ≤ 1 / 64)
    (it : List (Reg × ℕ)) (h : ∀ p ∈ it, ∀ q ∈ p.1, q < b.n) (hp : ∀ e ∈ b.pipeline, GateOrMeasure b.n e) (els : List (ElemP A.Num))
    (hels : List.Forall₂ (ElemAs A) els b.pipeline) (rnds : ℕ → f.Fin) (hr : ∀ k, 0 < (rnds k).1 ∧ (rnds k).1 < 1) (κ δ : ℝ)
    (hc : ∀ i, initialIndex b.n it = some i → Clear f b.n (fun k => (rnds k).1) κ b.pipeline
      ⟨(List.replicate (2 ^ b.n) 0).set i 1, List.replicate (2 ^ b.n) 0, []⟩ 0 δ) :
    ∃ i v ms, initialIndex b.n it = some i ∧ b.calculateStateWithInit it (fun k => (rnds k).1) = some (v, ms) ∧
      (∃ t, RunsP A.prec (fun c : A.Num => c) (fun c => c) b.n (fun k => some (rnds k)) els
        ⟨(List.replicate (2 ^ b.n) 0).set i 1, List.replicate (2 ^ b.n) 0, []⟩ t) ∧
      ∀ t, RunsP A.prec (fun c : A.Num => c) (fun c => c) b.n (fun k => some (rnds k)) els
        ⟨(List.replicate (2 ^ b.n) 0).set i 1, List.replicate (2 ^ b.n) 0, []⟩ t →
        List.Forall₂ (SameOutcome f κ) t.measurements ms ∧ t.state.length = 2 ^ b.n ∧ (∀ c ∈ t.state, A.fin c) ∧
          nrm b.n (fun r => vals A.val t.state r - vals id v r) ≤ δ := by
  obtain ⟨i, i1, i2, -⟩ := initialIndex_eq b.n it h
  have R := A.limits (by omega)
  have hl : ∀ {K : Type} [Zero K] [One K], ((List.replicate (2 ^ b.n) (0 : K)).set i 1).length = 2 ^ b.n := by simp
  have e0 : nrm b.n (vals id ((List.replicate (2 ^ b.n) (0 : ℂ)).set i 1)) = 1 := by
    unfold nrm
    rw [sum_congr rfl fun r hr => by rw [vals_initial id rfl rfl b.n i r (mem_range.mp hr)]]
    have : ∀ r, ‖(if r = i then (1 : ℂ) else 0)‖ ^ 2 = if r = i then 1 else 0 := by
      intro r; split <;> simp
    rw [sum_congr rfl fun r _ => this r, sum_ite_eq', if_pos (mem_range.mpr i2), Real.sqrt_one]
  have hfin : ∀ a ∈ (List.replicate (2 ^ b.n) (0 : A.Num)).set i 1, A.fin a := by
    intro a ha
    rcases List.mem_or_eq_of_mem_set ha with ha | rfl
    · rw [List.mem_replicate] at ha
      rw [ha.2]; exact R.fin_zero
    · exact R.fin_one
  obtain ⟨s', k1, k2, k3⟩ := clear_run A hf he b.n hN rnds hr κ b.pipeline hp els hels _ 0 δ (hc i i1) hl (by simp) e0
    ⟨(List.replicate (2 ^ b.n) 0).set i 1, List.replicate (2 ^ b.n) 0, []⟩ hl (by simp) hfin (by
      rw [nrm_congr b.n _ (fun _ => 0) (fun r hr => by
        show vals A.val ((List.replicate (2 ^ b.n) (0 : A.Num)).set i 1) r - vals id ((List.replicate (2 ^ b.n) (0 : ℂ)).set i 1) r = 0
        rw [vals_initial id rfl rfl b.n i r hr, vals_initial A.val R.val_zero R.val_one b.n i r hr, sub_self])]
      simp [nrm]) rfl
  refine ⟨i, s'.state, s'.measurements, i1, ?_, k2, ?_⟩
  · unfold LocalBuilder.calculateStateWithInit
    simp only [Nat.one_shiftLeft, i1, Option.bind_eq_bind, Option.bind_some, List.length_replicate]
    rw [if_pos i2, k1]
    rfl
  · intro t ht
    obtain ⟨h1, h2, h3, ms, ms', h4, h5, h6⟩ := k3 t ht
    refine ⟨?_, h1, h2, h3⟩
    rw [h4, h5]
    exact h6

/-- without user matrices the cost is 64 for each element -/
theorem circuitCost_le (p : Pipeline) (h : ∀ e ∈ p, ∀ data, e.2.object ≠ .unitary (.MAT data)) : circuitCost p ≤ 64 * p.length := by
  induction p with
  | nil => exact le_refl _
  | cons e p ih =>
    have h1 := ih fun e he => h e (by simp [he])
    have h2 : elemCost e ≤ 64 := by
      have h3 := h e (by simp)
      obtain ⟨idx, w, o⟩ := e
      cases o with
      | meas m => exact Nat.zero_le _
      | unitary g => cases g <;> first | exact absurd rfl (h3 _) | exact Nat.zero_le _ | exact le_refl _
    have e1 : circuitCost (e :: p) = elemCost e + circuitCost p := by simp [circuitCost]
    rw [e1, List.length_cons]
    omega

/-- the conditions on the format and the number of qubits: `f64` up to 47 qubits, `f32` up to 18 -/
theorem C88_formats (n : ℕ) : (n ≤ 47 → 2 ^ n * binary64.eps ≤ 1 / 64) ∧ (n ≤ 18 → 2 ^ n * binary32.eps ≤ 1 / 64) ∧
    (10 ≤ binary64.p ∧ binary64.emin + 2 * binary64.p + 4 ≤ 0) ∧ 10 ≤ binary32.p ∧ binary32.emin + 2 * binary32.p + 4 ≤ 0 := by
  refine ⟨fun h => ?_, fun h => ?_, by decide, by decide⟩
  · have h1 : (2 : ℝ) ^ n ≤ 2 ^ 47 := pow_le_pow_right₀ (by norm_num) h
    show (2 : ℝ) ^ n * (2 : ℝ)⁻¹ ^ 53 ≤ 1 / 64
    refine (mul_le_mul_of_nonneg_right h1 (by positivity)).trans ?_
    norm_num
  · have h1 : (2 : ℝ) ^ n ≤ 2 ^ 18 := pow_le_pow_right₀ (by norm_num) h
    show (2 : ℝ) ^ n * (2 : ℝ)⁻¹ ^ 24 ≤ 1 / 64
    refine (mul_le_mul_of_nonneg_right h1 (by positivity)).trans ?_
    norm_num

open Classical in
/-- H on the only qubit and a measurement with the draw 1/4 -/
theorem h_measure : ∃ c s' m, calcStep 1 (fun _ => 1 / 4) ⟨[1, 0], [0, 0], []⟩ ([0], ⟨1, .unitary .H⟩) = some ⟨[c, c], [1, 0], []⟩ ∧
    nrm 1 (vals id [c, c]) = 1 ∧ calcStep 1 (fun _ => 1 / 4) ⟨[c, c], [1, 0], []⟩ ([0], ⟨1, .meas .measurement⟩) = some s' ∧
    s'.measurements = [] ++ [.single m (1 / 2)] ∧ s'.state.length = 2 ^ 1 ∧ s'.arena.length = 2 ^ 1 ∧
    ∀ k, 1 ≤ k → k ≤ 2 ^ 1 → (1 / 8 : ℝ) < |1 / 4 - cumul (vals id [c, c]) k| := by
  have hS : 0 < Real.sqrt 2 := Real.sqrt_pos.mpr (by norm_num)
  have h2 : Real.sqrt 2 ^ 2 = 2 := Real.sq_sqrt (by norm_num)
  have hne : ((1 / Real.sqrt 2 : ℝ) : ℂ) ≠ 0 := by exact_mod_cast (by positivity : (1 / Real.sqrt 2 : ℝ) ≠ 0)
  have hn : ‖((1 / Real.sqrt 2 : ℝ) : ℂ)‖ ^ 2 = 1 / 2 := by
    rw [Complex.norm_real, Real.norm_eq_abs, sq_abs, div_pow, h2]; norm_num
  set c : ℂ := ((1 / Real.sqrt 2 : ℝ) : ℂ) with hc
  have hstep : calcStep 1 (fun _ => 1 / 4) ⟨[1, 0], [0, 0], []⟩ ([0], ⟨1, .unitary .H⟩) = some ⟨[c, c], [1, 0], []⟩ := by
    have e : unitaryOp [0] .H = .ok (.matrix [0] [c, c, c, -c]) := rfl
    have e2 : applyOpOverwrite 1 (.matrix [0] [c, c, c, -c]) [1, 0] [0, 0] 0 0 = some [c, c] := by
      rw [apply_one]
      simp [nzItems_cons, nzItems_nil, hne, total]
    unfold calcStep
    simp only [e, e2, Option.bind_eq_bind, Option.bind_some]
  have hv : vals id [c, c] = fun r => if r < 2 then c else 0 := by
    funext r
    unfold vals
    match r with
    | 0 => simp
    | 1 => simp
    | r + 2 => simp
  have hcum : cumul (vals id [c, c]) 1 = 1 / 2 ∧ cumul (vals id [c, c]) 2 = 1 := by
    unfold cumul
    rw [hv]
    simp only [sum_range_succ, range_zero, sum_empty]
    norm_num [hn]
  have hnrm : nrm 1 (vals id [c, c]) = 1 := by
    unfold nrm
    rw [show ∑ r ∈ range (2 ^ 1), ‖vals id [c, c] r‖ ^ 2 = 1 from hcum.2, Real.sqrt_one]
  obtain ⟨x, m, Q, s', x1, x2, x3, rfl, q1, q2, c1, c2, c3, c4, c5, c6⟩ := calcStep_collapse 1 (fun _ => 1 / 4) ⟨[c, c], [1, 0], []⟩ rfl rfl hnrm [0] 1 (by simp)
    (by simp) (by norm_num) (by norm_num)
  obtain rfl : x = 0 := by
    by_contra hx
    obtain rfl : x = 1 := by omega
    rw [hcum.1] at x2
    norm_num at x2
  have hQ : Q = 1 / 2 := by
    rw [q1]
    unfold bornProb
    have : (range (2 ^ 1)).filter (Spells 1 [0] (outcomeOf 1 [0] 0)) = {0} := by
      ext y
      simp only [mem_filter, mem_range, mem_singleton]
      constructor
      · rintro ⟨y1, y2⟩
        have := y2 0 (by simp)
        have e : outcomeOf 1 [0] 0 = 0 := by decide
        rw [e] at this
        simp at this
        omega
      · rintro rfl
        exact ⟨by norm_num, spells_outcomeOf 1 [0] 0⟩
    rw [this, sum_singleton, Complex.normSq_eq_norm_sq, hv]
    simpa using hn
  subst hQ
  refine ⟨c, s', _, hstep, hnrm, c1, c2, c3, c4, ?_⟩
  intro k k1 k2
  have : k = 1 ∨ k = 2 := by omega
  rcases this with rfl | rfl
  · simp only [hcum.1]; norm_num [abs_of_neg]
  · simp only [hcum.2]; norm_num [abs_of_neg]

open Classical in
/-- instance: H on the only qubit and a measurement, with the draw 1/4, in `f64` -/
example : Clear binary64 1 (fun _ => 1 / 4) (1 / 8) [([0], ⟨1, .unitary .H⟩), ([0], ⟨1, .meas .measurement⟩)] ⟨[1, 0], [0, 0], []⟩ 0
    (2 * (0 + (64 : ℕ) * binary64.eps) / Real.sqrt (1 / 2) + 13 * (2 ^ 1 * binary64.eps)) := by
  obtain ⟨c, s', m, hstep, -, c1, c2, -, -, hk⟩ := h_measure
  refine .gate [0] 1 .H _ _ _ _ _ hstep (by norm_num) (.measurement [0] 1 [] _ s' _ (1 / 2) _ _ c1 c2 ?_ ?_ ?_ (.nil _ _))
  · show 0 + ((64 : ℕ) : ℝ) * (2 : ℝ)⁻¹ ^ 53 ≤ 1
    norm_num
  · show (0 + ((64 : ℕ) : ℝ) * (2 : ℝ)⁻¹ ^ 53) * (2 + (0 + ((64 : ℕ) : ℝ) * (2 : ℝ)⁻¹ ^ 53)) + 24 * (2 ^ 1 * (2 : ℝ)⁻¹ ^ 53) ≤ 1 / 8
    norm_num
  · exact hk

/-- instance: the same circuit with the entries of H rounded -/
example (A : f.Arith fl) : List.Forall₂ (ElemAs A) [.op (.matrix [0] [store A ((1 / Real.sqrt 2 : ℝ) : ℂ), store A ((1 / Real.sqrt 2 : ℝ) : ℂ),
    store A ((1 / Real.sqrt 2 : ℝ) : ℂ), store A (-((1 / Real.sqrt 2 : ℝ) : ℂ))]), .measurement [0]]
    [([0], ⟨1, .unitary .H⟩), ([0], ⟨1, .meas .measurement⟩)] := by
  have hn : ‖((1 / Real.sqrt 2 : ℝ) : ℂ)‖ ≤ 3 := by
    rw [Complex.norm_real, Real.norm_of_nonneg (by positivity), div_le_iff₀ (by positivity)]
    have : 1 ≤ Real.sqrt 2 := Real.one_le_sqrt.mpr (by norm_num)
    linarith
  refine .cons (.gate _ _ _ _ _ rfl (.matrix _ _ _ ?_)) (.cons (.measurement _ _) .nil)
  simp only [List.forall₂_cons, List.forall₂_nil_left_iff, and_true]
  exact ⟨store_storedAs A _ hn, store_storedAs A _ hn, store_storedAs A _ hn, store_storedAs A _ (by rwa [norm_neg])⟩

/-- instance of the conditions of `C88_measure_partial` on state and draw: the amplitudes 3/5 and 4/5, the draw 1/2, an error up to 1/100 -/
example : let φ : ℕ → ℂ := fun r => if r = 0 then 3 / 5 else if r = 1 then 4 / 5 else 0
    nrm 1 φ = 1 ∧ cumul φ 1 < 1 / 2 ∧ (1 / 2 : ℝ) ≤ cumul φ 2 ∧ Spells 1 [0] 1 1 ∧
      ∀ k, 1 ≤ k → k ≤ 2 ^ 1 → (1 / 100 : ℝ) * (2 + 1 / 100) + 20 * (2 ^ 1 * binary64.eps) < |1 / 2 - cumul φ k| := by
  intro φ
  have h1 : cumul φ 1 = 9 / 25 := by
    simp only [cumul, φ, sum_range_succ, range_zero, sum_empty]; norm_num
  have h2 : cumul φ 2 = 1 := by
    simp only [cumul, φ, sum_range_succ, range_zero, sum_empty]; norm_num
  refine ⟨?_, by rw [h1]; norm_num, by rw [h2]; norm_num, ?_, ?_⟩
  · unfold nrm
    rw [show ∑ r ∈ range (2 ^ 1), ‖φ r‖ ^ 2 = 1 from h2, Real.sqrt_one]
  · intro j hj
    obtain rfl : j = 0 := by simp at hj; omega
    rfl
  · intro k k1 k2
    have e : binary64.eps = (2 : ℝ)⁻¹ ^ 53 := rfl
    have : k = 1 ∨ k = 2 := by omega
    rw [e]
    rcases this with rfl | rfl
    · rw [h1]; norm_num [abs_of_pos]
    · rw [h2]; norm_num [abs_of_neg]

end Verif.Props
