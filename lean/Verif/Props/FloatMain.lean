import Verif.Spec.FloatMain
import Verif.Props.FloatGates
import Verif.Props.Grover

/-!
# Property C123: from programs to measured frequencies, in floating point arithmetic

A main program (C106) allocates registers, runs structured programs and measures a register. Everything the simulator then does is carried out in floating point
arithmetic: the entries of the gates (C122), their application (C87), the measurement (C88). Over evenly spaced draws, the share of the runs that report an outcome is
the probability quantum mechanics gives for the programs, up to a bound.
-/

namespace Verif.Props
open Verif MatrixOp Format.Arith Finset

variable {f : Format} {fl : ℝ → ℝ}

theorem mainProg_append (sizes : List ℕ) (as bs : List Act) :
    mainProg sizes (as ++ bs) = mainProg sizes as >>= fun st => bs.foldlM (fun s a => a.exec s) st := by
  unfold mainProg
  rw [bind_assoc]
  congr 1
  funext rs
  rw [List.foldlM_append]

/-- the programs before the measurement, and the entry of the pipeline the measurement adds -/
theorem main_split {sizes : List ℕ} (hpos : ∀ k ∈ sizes, 0 < k) (ps : List Prog) (hT : ∀ p ∈ ps, p.Takes false (blocks 0 sizes)) (i : ℕ)
    (hi : i < (blocks 0 sizes).length) {out : List Reg × List ℕ} {s : LocalBuilder}
    (h : mainProg sizes (ps.map .run ++ [.measure i]) LocalBuilder.default = .ok out s) :
    ∃ s0, mainProg sizes (ps.map .run) LocalBuilder.default = .ok (blocks 0 sizes, []) s0 ∧ s.n = s0.n ∧
      s.pipeline = s0.pipeline ++ [((blocks 0 sizes)[i], ⟨(blocks 0 sizes)[i].length, .meas .measurement⟩)] := by
  have hT' : ∀ a ∈ ps.map Act.run, a.Takes (blocks 0 sizes) := by
    intro a ha
    obtain ⟨p, hp, rfl⟩ := List.mem_map.mp ha
    exact hT p hp
  have hm : ∀ ps : List Prog, measures (ps.map .run) = 0 := fun ps => by induction ps with | nil => rfl | cons p ps ih => exact ih
  obtain ⟨s0, h0⟩ := C106_runs sizes hpos _ hT'
  rw [hm, List.range_zero] at h0
  refine ⟨s0, h0, ?_⟩
  rw [mainProg_append, bind_ok h0] at h
  have e : Act.exec (.measure i) (blocks 0 sizes, []) s0 =
      .ok ((blocks 0 sizes).set i (blocks 0 sizes)[i], [] ++ [s0.measurements])
        { s0 with
          pipeline := s0.pipeline ++ [((blocks 0 sizes)[i], ⟨(blocks 0 sizes)[i].length, .meas .measurement⟩)]
          measurements := s0.measurements + 1 } := by
    unfold Act.exec
    simp only [List.getElem?_eq_getElem hi]
    rfl
  rw [List.foldlM_cons, bind_ok e] at h
  cases h
  exact ⟨rfl, rfl⟩

theorem circuitCost_append (p q : Pipeline) : circuitCost (p ++ q) = circuitCost p + circuitCost q := by
  unfold circuitCost
  rw [List.map_append, List.sum_append]

theorem runW_low {n : ℕ} (p : Pipeline) (h : ∀ e ∈ p, SegU n e) {ψ : Wave} (hψ : On (Low n) ψ) : On (Low n) (runW rotAngle p ψ) := by
  induction p generalizing ψ with
  | nil => exact hψ
  | cons e p ih => exact ih (fun e he => h e (by simp [he])) (hψ.entryLow e (h e (by simp)).1.1.2.1)

open Classical in
/-- C123: for every main program that runs structured programs and measures register `i`, every initial value, and every floating point circuit `c` that its pipeline is
meant by (its angles rounded, and the entries of its user matrices; rational angles at most one): the entries of all gates can be computed, every draw has a run
without a panic, and over `N` draws near `0, 1/N, 2/N, …` the share of the runs that report `m` is the squared length of what the programs and the outcome `m` leave
of the initial state, up to `(2^n + 1)·(2·(E(2+E) + 20·2^(n-p) + τ) + 1/N) + 2^n/N` (`freqBound`) with `E = (cost of the circuit)·2^-p`. -/
theorem C123_frequency (A : f.Arith fl) (hf : 10 ≤ f.p) (he : f.emin + 2 * f.p + 4 ≤ 0) (L : StdLib f) (hL : L.Accurate f.eps) {sizes : List ℕ}
    (hpos : ∀ k ∈ sizes, 0 < k) (ps : List Prog) (hT : ∀ p ∈ ps, p.Takes false (blocks 0 sizes)) (i : ℕ) (hi : i < (blocks 0 sizes).length)
    {out : List Reg × List ℕ} {s : LocalBuilder} (h : mainProg sizes (ps.map .run ++ [.measure i]) LocalBuilder.default = .ok out s)
    (it : List (Reg × ℕ)) (hit : ∀ p ∈ it, p.1 ∈ blocks 0 sizes) (hN : 2 ^ s.n * f.eps ≤ 1 / 64) (c : List (List ℕ × ObjTypeP f))
    (hm : List.Forall₂ Meant c s.pipeline) (hw : ∀ e ∈ c, e.2.Within 1) (hE : (circuitCost s.pipeline : ℝ) * f.eps ≤ 1) :
    ∃ (els : List (ElemP A.Num)) (x : ℕ), c.mapM (elemP A L) = .ok (els.map elemOf) ∧ initialIndex s.n it = some x ∧
      Frequencies A s.n els x (blocks 0 sizes)[i].length
        (fun m => normW (actsW (blocks 0 sizes) (ps.map .run ++ [.measure i]) [m] (ket (initAsg it)))) (freqBound f s.n (circuitCost s.pipeline)) := by
  obtain ⟨s0, h0, en, ep⟩ := main_split hpos ps hT i hi h
  have hT' : ∀ a ∈ ps.map Act.run, a.Takes (blocks 0 sizes) := by
    intro a ha
    obtain ⟨p, hp, rfl⟩ := List.mem_map.mp ha
    exact hT p hp
  have hmz : ∀ ps : List Prog, measures (ps.map .run) = 0 := fun ps => by induction ps with | nil => rfl | cons p ps ih => exact ih
  obtain ⟨g1, g2, g3, -⟩ := main_facts hpos hT' h0 it hit
  have hu : ∀ e ∈ s0.pipeline, SegU s0.n e := fun e he => by
    rcases g2 e he with h | ⟨h, -⟩
    · exact h
    · have : 0 < measCount s0.pipeline := List.countP_pos_iff.mpr ⟨e, he, by simp [isMeas, h]⟩
      rw [g3, hmz] at this
      omega
  have hcost : circuitCost s.pipeline = circuitCost s0.pipeline := by
    rw [ep, circuitCost_append]
    rfl
  obtain ⟨-, k2, -, k4⟩ := main_facts hpos (acts := ps.map .run ++ [.measure i]) (by
    intro a ha
    rw [List.mem_append, List.mem_singleton] at ha
    rcases ha with ha | rfl
    · exact hT' a ha
    · exact hi) h it hit
  have hr : (blocks 0 sizes)[i].Nodup ∧ ∀ q ∈ (blocks 0 sizes)[i], q < s0.n := by
    have := k2 ((blocks 0 sizes)[i], ⟨(blocks 0 sizes)[i].length, .meas .measurement⟩) (by rw [ep]; simp)
    rcases this with ⟨⟨⟨a1, a2, -⟩, -⟩, -⟩ | ⟨-, a1, a2⟩
    · exact ⟨a1, by rw [← en]; exact a2⟩
    · exact ⟨a1, by rw [← en]; exact a2⟩
  have hbr : ∀ m, normW (actsW (blocks 0 sizes) (ps.map .run ++ [.measure i]) [m] (ket (initAsg it))) =
      normW (projW (blocks 0 sizes)[i] m (runW rotAngle s0.pipeline (ket (initAsg it)))) := by
    intro m
    have hms : ∀ ps : List Prog, measures (ps.map .run ++ [.measure i]) = 1 := fun ps => by induction ps with | nil => rfl | cons p ps ih => exact ih
    rw [← (k4 [m] (by rw [hms]; rfl)).1, ep]
    congr 1
    generalize ket (initAsg it) = ψ
    have hu' : ∀ e ∈ s0.pipeline, ∃ u, e.2.object = .unitary u := fun e he => by
      obtain ⟨⟨-, -, u, hu, -⟩, -⟩ := hu e he
      exact ⟨u, hu⟩
    generalize s0.pipeline = p at hu'
    induction p generalizing ψ with
    | nil => rfl
    | cons e p ih =>
      obtain ⟨u, hu⟩ := hu' e (by simp)
      simp only [List.cons_append, branchW, hu]
      exact ih _ fun e he => hu' e (by simp [he])
  rw [en] at hN
  rw [hcost] at hE ⊢
  rw [en]
  rw [ep] at hm
  have hm0 := List.forall₂_take_append _ _ _ hm
  have hm1 := List.forall₂_drop_append _ _ _ hm
  have hc := List.take_append_drop s0.pipeline.length c
  generalize List.take s0.pipeline.length c = c0 at *
  generalize List.drop s0.pipeline.length c = c1 at *
  obtain ⟨ce, rfl, hce⟩ : ∃ ce, c1 = [ce] ∧ Meant ce ((blocks 0 sizes)[i], ⟨(blocks 0 sizes)[i].length, .meas .measurement⟩) := by
    cases hm1 with
    | cons h t => cases t; exact ⟨_, rfl, h⟩
  obtain ⟨idx, o⟩ := ce
  obtain ⟨b1, b2⟩ := hce
  have b4 : (blocks 0 sizes)[i] = idx := b1
  have b3 : o = .meas .measurement := by
    rcases b2 with b2 | ⟨_, _, -, b2, -⟩ | ⟨_, _, -, b2, -⟩
    · have b2 : ObjType.meas .measurement = o.exact := b2
      cases o with
      | meas m => injection b2 with b2; rw [b2]
      | unitary g => cases b2
    · cases b2
    · cases b2
  subst b3
  rw [b4] at hr hbr ⊢
  subst hc
  obtain ⟨els, x, v, z1, z2, z3, z4, z5⟩ := C122_frequency A hf he L hL s0 hN it g1 hu c0 hm0 (fun e he => hw e (by simp [he])) idx hr.1 hr.2 hE
  refine ⟨els ++ [.measurement idx], x, z1, z2, z4, fun N hN0 τ d hd run hrun m hm' => ?_⟩
  have key := z5 N hN0 τ d hd run hrun m hm'
  obtain ⟨v', y1, y2⟩ := calculate_unitary s0 it g1 (fun e he => (hu e he).1) (fun _ => 0)
  have hv : v = v' := by
    have := (z3 fun _ => 0).symm.trans y1
    simpa using this
  subst hv
  have hlow : On (Low s0.n) (runW rotAngle s0.pipeline (ket (initAsg it))) := by
    have h0 : On (Low s0.n) (ket (initAsg it)) := (run_calculate s0 it g1 fun _ => 0).choose_spec.2.2.2.2
    exact runW_low s0.pipeline hu h0
  have e : vals id v = ampAt v 0 := by
    funext k
    simp [vals, ampAt]
  beta_reduce
  rw [hbr, ← rep_born y2 hlow idx hr.2 m hm', ← e]
  exact key

theorem unitary_entry {k : ℕ} {data : List ℂ} (hl : data.length = 4 ^ k) (hu : IsUnitary k fun i j => (data[i * 2 ^ k + j]?).getD 0) {z : ℂ} (hz : z ∈ data) : ‖z‖ ≤ 1 := by
  obtain ⟨m, hm, rfl⟩ := List.mem_iff_getElem.mp hz
  have hk : 0 < 2 ^ k := by positivity
  have h4 : (4 : ℕ) ^ k = 2 ^ k * 2 ^ k := by rw [← Nat.mul_pow]
  have hi : m / 2 ^ k < 2 ^ k := by rw [Nat.div_lt_iff_lt_mul hk]; omega
  have hj : m % 2 ^ k < 2 ^ k := Nat.mod_lt _ hk
  have h := hu (m % 2 ^ k) (m % 2 ^ k) hj hj
  simp only [if_true] at h
  have h2 := congrArg Complex.re h
  rw [Complex.re_sum, Complex.one_re] at h2
  have e : ∀ w : ℂ, (star w * w).re = ‖w‖ ^ 2 := fun w => by
    rw [show star w * w = ((Complex.normSq w : ℝ) : ℂ) from (Complex.normSq_eq_conj_mul_self).symm, Complex.ofReal_re, Complex.normSq_eq_norm_sq]
  simp only [e] at h2
  have h3 := single_le_sum (f := fun i => ‖(data[i * 2 ^ k + m % 2 ^ k]?).getD 0‖ ^ 2) (fun i _ => sq_nonneg _) (mem_range.mpr hi)
  rw [h2] at h3
  simp only [Nat.div_add_mod' m (2 ^ k), List.getElem?_eq_getElem hm, Option.getD_some] at h3
  nlinarith [norm_nonneg data[m]]

/-- C123 (the conditions can be met): if the angles of the rotations fit the format, there is such a floating point circuit for the pipeline of every main program. -/
theorem C123_circuit (A : f.Arith fl) (h4 : 4 ≤ f.p) (n : ℕ) (p : Pipeline) (hp : ∀ e ∈ p, StepOK n e) (ha : ∀ e ∈ p, AngleFits f e) :
    ∃ c : List (List ℕ × ObjTypeP f), List.Forall₂ Meant c p ∧ ∀ e ∈ c, e.2.Within 1 := by
  induction p with
  | nil => exact ⟨[], .nil, by simp⟩
  | cons e p ih =>
    obtain ⟨c, h1, h2⟩ := ih (fun e he => hp e (by simp [he])) (fun e he => ha e (by simp [he]))
    suffices ∃ ce : List ℕ × ObjTypeP f, Meant ce e ∧ ce.2.Within 1 by
      obtain ⟨ce, k1, k2⟩ := this
      refine ⟨ce :: c, .cons k1 h1, fun e he => ?_⟩
      rcases List.mem_cons.mp he with rfl | he
      · exact k2
      · exact h2 e he
    have hs := hp e (by simp)
    have hae := ha e (by simp)
    obtain ⟨idx, w, o⟩ := e
    cases o with
    | meas m => exact ⟨(idx, .meas m), ⟨rfl, .inl rfl⟩, trivial⟩
    | unitary g =>
      obtain ⟨⟨⟨-, -, hsh⟩, -, u, hu, hu'⟩, hmat⟩ : SegU n (idx, ⟨w, .unitary g⟩) := by
        rcases hs with h | ⟨h, -⟩
        · exact h
        · cases h
      obtain rfl : g = u := by injection hu
      cases g with
      | X => exact ⟨(idx, .unitary .X), ⟨rfl, .inl rfl⟩, trivial⟩
      | Y => exact ⟨(idx, .unitary .Y), ⟨rfl, .inl rfl⟩, trivial⟩
      | Z => exact ⟨(idx, .unitary .Z), ⟨rfl, .inl rfl⟩, trivial⟩
      | H => exact ⟨(idx, .unitary .H), ⟨rfl, .inl rfl⟩, trivial⟩
      | S => exact ⟨(idx, .unitary .S), ⟨rfl, .inl rfl⟩, trivial⟩
      | T => exact ⟨(idx, .unitary .T), ⟨rfl, .inl rfl⟩, trivial⟩
      | CNOT => exact ⟨(idx, .unitary .CNOT), ⟨rfl, .inl rfl⟩, trivial⟩
      | SWAP => exact ⟨(idx, .unitary .SWAP), ⟨rfl, .inl rfl⟩, trivial⟩
      | GlobalPhase r => exact absurd rfl (hu' r)
      | Rz r =>
        cases r with
        | piRational q => exact ⟨(idx, .unitary (.Rz (.piRational q))), ⟨rfl, .inl rfl⟩, hae⟩
        | floating θ =>
          have hae : |θ| ≤ 2 ∨ ∃ x : f.Fin, x.1 = θ := hae
          rcases hae with h | ⟨x, rfl⟩
          · obtain ⟨x, -, x2⟩ := round_some A θ (by
              have t1 : (2 : ℝ) ^ 4 ≤ 2 ^ f.p := pow_le_pow_right₀ (by norm_num) h4
              have t2 : (2 : ℝ) ^ (1 : ℤ) ≤ 2 ^ f.emax := zpow_le_zpow_right₀ (by norm_num) A.hi
              have t3 : f.top = (2 ^ f.p - 1) * (2 : ℝ) ^ f.emax := rfl
              rw [zpow_one] at t2
              rw [t3]
              nlinarith)
            refine ⟨(idx, .unitary (.Rz (.floating (some x)))), ⟨rfl, .inr (.inr ⟨x, θ, rfl, rfl, ?_⟩)⟩, (rfl : (some x).isSome = true)⟩
            rw [x2]
            have k1 := A.near.err (by have := A.hp; omega) θ
            have k2 : (0 : ℝ) < (2 : ℝ) ^ f.emin := by positivity
            have k3 : (2 : ℝ)⁻¹ ^ f.p = f.eps := rfl
            rw [k3] at k1
            have k4 := mul_le_mul_of_nonneg_left h (eps_pos f).le
            linarith
          · exact ⟨(idx, .unitary (.Rz (.floating (some x)))), ⟨rfl, .inl rfl⟩, (rfl : (some x).isSome = true)⟩
      | MAT data =>
        have hl : data.length = 4 ^ idx.length ∧ 0 < idx.length := hsh _ rfl
        have hd : ∀ z ∈ data, EntryMeant (f := f) (A.round z.re, A.round z.im) z := by
          intro z hz
          obtain ⟨⟨s1, s2⟩, s3, s4⟩ := store_storedAs A z ((unitary_entry hl.1 (hmat data rfl) hz).trans (by norm_num))
          refine ⟨s1, s2, s3, fun h0 => ?_⟩
          have s5 : A.val (store A z) = 0 := by
            rw [s4 h0]; exact (A.limits h4).val_zero
          exact ⟨congrArg Complex.re s5, congrArg Complex.im s5⟩
        refine ⟨(idx, .unitary (.MAT (data.map fun z => ((A.round z.re, A.round z.im) : f.Part × f.Part)))), ⟨rfl, .inr (.inl ⟨_, _, rfl, rfl, ?_⟩)⟩, ?_⟩
        · rw [List.forall₂_map_left_iff]
          exact List.forall₂_same.mpr hd
        · intro a ha
          obtain ⟨z, hz, rfl⟩ := List.mem_map.mp ha
          exact ⟨(hd z hz).1, (hd z hz).2.1⟩

/-! ## the programs of C109 and C110 -/

theorem initAsg_nil : initAsg [] = fun _ => false := by funext q; simp [initAsg]

/-- C123, the query program of C109, with any oracle: the shares are the probabilities of C109 up to the bound. -/
theorem C123_query (A : f.Arith fl) (hf : 10 ≤ f.p) (he : f.emin + 2 * f.p + 4 ≤ 0) (L : StdLib f) (hL : L.Accurate f.eps) {n : ℕ} (hn : 0 < n) {g : ℕ → Bool} {o : Prog}
    (ho : Computes n g o) {out : List Reg × List ℕ} {s : LocalBuilder} (h : mainProg [n, 1] (queryActs o) LocalBuilder.default = .ok out s)
    (hN : 2 ^ s.n * f.eps ≤ 1 / 64) (c : List (List ℕ × ObjTypeP f)) (hm : List.Forall₂ Meant c s.pipeline) (hw : ∀ e ∈ c, e.2.Within 1)
    (hE : (circuitCost s.pipeline : ℝ) * f.eps ≤ 1) :
    ∃ els : List (ElemP A.Num), c.mapM (elemP A L) = .ok (els.map elemOf) ∧
      Frequencies A s.n els 0 n (fun v => ((∑ u ∈ range (2 ^ n), (-1 : ℝ) ^ ((g u).toNat + dot n u v)) / 2 ^ n) ^ 2) (freqBound f s.n (circuitCost s.pipeline)) := by
  have hb := blocks_query n
  obtain ⟨els, x, h1, h2, h3, h4⟩ := C123_frequency A hf he L hL (sizes := [n, 1]) (by simp [hn]) [queryProg o]
    (by rw [hb]; intro p hp; rw [List.mem_singleton] at hp; subst hp; exact query_takes hn ho) 0 (by simp [hb]) h [] (by simp) hN c hm hw hE
  obtain rfl : 0 = x := Option.some.inj h2
  refine ⟨els, h1, h3, fun N hN0 τ d hd run hrun m hm' => ?_⟩
  have key := h4 N hN0 τ d hd run hrun m (by simpa [hb] using hm')
  rw [initAsg_nil] at key
  simp only [hb] at key
  have e := queryActs_norm ho m hm'
  rw [show normW (actsW [List.range n, [n]] ([queryProg o].map Act.run ++ [Act.measure 0]) [m] (ket fun _ => false)) = queryProb n g m from e] at key
  exact key

/-- C123, Grover's search of C110, with any oracle and any number of rounds -/
theorem C123_search (A : f.Arith fl) (hf : 10 ≤ f.p) (he : f.emin + 2 * f.p + 4 ≤ 0) (L : StdLib f) (hL : L.Accurate f.eps) {n : ℕ} (hn : 0 < n) {g : ℕ → Bool} {o : Prog}
    (ho : Computes n g o) (k : ℕ) {out : List Reg × List ℕ} {s : LocalBuilder} (h : mainProg [n, 1] (groverActs o k) LocalBuilder.default = .ok out s)
    (hN : 2 ^ s.n * f.eps ≤ 1 / 64) (c : List (List ℕ × ObjTypeP f)) (hm : List.Forall₂ Meant c s.pipeline) (hw : ∀ e ∈ c, e.2.Within 1)
    (hE : (circuitCost s.pipeline : ℝ) * f.eps ≤ 1) :
    ∃ els : List (ElemP A.Num), c.mapM (elemP A L) = .ok (els.map elemOf) ∧
      Frequencies A s.n els 0 n (groverProb n g k) (freqBound f s.n (circuitCost s.pipeline)) := by
  have hb := blocks_query n
  obtain ⟨els, x, h1, h2, h3, h4⟩ := C123_frequency A hf he L hL (sizes := [n, 1]) (by simp [hn]) [groverProg o k]
    (by rw [hb]; intro p hp; rw [List.mem_singleton] at hp; subst hp; exact grover_takes hn ho k) 0 (by simp [hb]) h [] (by simp) hN c hm hw hE
  obtain rfl : 0 = x := Option.some.inj h2
  refine ⟨els, h1, h3, fun N hN0 τ d hd run hrun m hm' => ?_⟩
  have key := h4 N hN0 τ d hd run hrun m (by simpa [hb] using hm')
  rw [initAsg_nil] at key
  simp only [hb] at key
  have e := groverActs_norm ho k m hm'
  rw [show normW (actsW [List.range n, [n]] ([groverProg o k].map Act.run ++ [Act.measure 0]) [m] (ket fun _ => false)) = groverProb n g k m from e] at key
  exact key

/-- the bound in `f64` with the `2 ^ 53` draws of `rand::random::<f64>()`, at most 10 qubits and at most 1000 gates: `2^-24` -/
theorem C123_bound (n cost : ℕ) (hn10 : n ≤ 10) (hg : cost ≤ 64000) :
    2 ^ n * binary64.eps ≤ 1 / 64 ∧ (cost : ℝ) * binary64.eps ≤ 1 ∧ freqBound binary64 n cost (2 ^ 53) 0 ≤ 1 / 2 ^ 24 := by
  have he : binary64.eps = (2 : ℝ)⁻¹ ^ 53 := rfl
  have hG : (cost : ℝ) ≤ 64000 := by exact_mod_cast hg
  have hG0 : (0 : ℝ) ≤ cost := by positivity
  have h2n : (2 : ℝ) ^ n ≤ 2 ^ 10 := pow_le_pow_right₀ (by norm_num) hn10
  have h2p : (0 : ℝ) < 2 ^ n := by positivity
  have hE : (cost : ℝ) * binary64.eps ≤ 64000 / 2 ^ 53 := by
    rw [he]
    norm_num
    linarith
  have hE0 : 0 ≤ (cost : ℝ) * binary64.eps := by rw [he]; positivity
  have hE2 : (cost : ℝ) * binary64.eps * (2 + (cost : ℝ) * binary64.eps) ≤ 64000 / 2 ^ 53 * 3 := by
    refine mul_le_mul hE ?_ (by linarith) (by norm_num)
    norm_num at hE ⊢
    linarith
  have hq : 2 ^ n * binary64.eps ≤ 2 ^ 10 / 2 ^ 53 := by
    rw [he]
    norm_num at h2n ⊢
    linarith
  refine ⟨hq.trans (by norm_num), hE.trans (by norm_num), ?_⟩
  unfold freqBound
  rw [Nat.cast_pow, Nat.cast_ofNat]
  generalize (cost : ℝ) * binary64.eps * (2 + (cost : ℝ) * binary64.eps) = X at hE2 ⊢
  generalize 2 ^ n * binary64.eps = Y at hq ⊢
  generalize (2 : ℝ) ^ n = Z at h2n h2p ⊢
  have hB : 2 * (X + 20 * Y + 0) + 1 / 2 ^ 53 ≤ 2 * (64000 / 2 ^ 53 * 3 + 20 * (2 ^ 10 / 2 ^ 53)) + 1 / 2 ^ 53 := by linarith
  have := mul_le_mul_of_nonneg_left hB (show 0 ≤ Z + 1 by linarith)
  have h4 : (Z + 1) * (2 * (64000 / 2 ^ 53 * 3 + 20 * (2 ^ 10 / 2 ^ 53)) + 1 / 2 ^ 53) ≤
      (2 ^ 10 + 1) * (2 * (64000 / 2 ^ 53 * 3 + 20 * (2 ^ 10 / 2 ^ 53)) + 1 / 2 ^ 53) := mul_le_mul_of_nonneg_right (by linarith) (by norm_num)
  have h5 : Z / 2 ^ 53 ≤ 2 ^ 10 / 2 ^ 53 := div_le_div_of_nonneg_right h2n (by norm_num)
  have h6 : ((2 : ℝ) ^ 10 + 1) * (2 * (64000 / 2 ^ 53 * 3 + 20 * (2 ^ 10 / 2 ^ 53)) + 1 / 2 ^ 53) + 2 ^ 10 / 2 ^ 53 ≤ 1 / 2 ^ 24 := by norm_num
  linarith

open Classical in
/-- C123, Bernstein and Vazirani in `f64`: with the draws of `rand`, at most 10 qubits and 1000 gates, at least `1 - 2^-24` of the runs report the hidden number. -/
theorem C123_bernstein_vazirani (A : binary64.Arith fl) (L : StdLib binary64) (hL : L.Accurate binary64.eps) {n : ℕ} (hn : 0 < n) {a : ℕ} (ha : a < 2 ^ n) {o : Prog}
    (ho : Computes n (fun u => decide (dot n u a % 2 = 1)) o) {out : List Reg × List ℕ} {s : LocalBuilder}
    (h : mainProg [n, 1] (queryActs o) LocalBuilder.default = .ok out s) (hn10 : s.n ≤ 10) (hg : circuitCost s.pipeline ≤ 64000)
    (c : List (List ℕ × ObjTypeP binary64)) (hm : List.Forall₂ Meant c s.pipeline) (hw : ∀ e ∈ c, e.2.Within 1)
    (d : ℕ → binary64.Fin) (hd : ∀ j, j < 2 ^ 53 → (d j).1 = (j : ℝ) / 2 ^ 53) :
    ∃ els : List (ElemP A.Num), c.mapM (elemP A L) = .ok (els.map elemOf) ∧
      ∀ (run : ℕ → StateP A.Num binary64.Part)
        (_ : ∀ j, j < 2 ^ 53 → RunsP A.prec (fun c : A.Num => c) (fun c => c) s.n (fun _ => some (d j)) els
          ⟨(List.replicate (2 ^ s.n) 0).set 0 1, List.replicate (2 ^ s.n) 0, []⟩ (run j)),
        1 - 1 / 2 ^ 24 ≤ (((range (2 ^ 53)).filter fun j => ∃ p, (run j).measurements = [(a, p)]).card : ℝ) / 2 ^ 53 := by
  obtain ⟨b1, b2, b3⟩ := C123_bound s.n (circuitCost s.pipeline) hn10 hg
  obtain ⟨els, k1, -, k3⟩ := C123_query A (C88_formats 2).2.2.1.1 (C88_formats 2).2.2.1.2 L hL hn ho h b1 c hm hw b2
  refine ⟨els, k1, fun run hrun => ?_⟩
  have key := (k3 (2 ^ 53) (by norm_num) 0 d (fun j hj => by rw [hd j hj, Nat.cast_pow, Nat.cast_ofNat, sub_self, abs_zero]) run hrun a ha).trans b3
  have hp : queryProb n (fun u => decide (dot n u a % 2 = 1)) a = 1 := by
    unfold queryProb
    rw [sum_signs fun u _ => ?_, div_self (by positivity), one_pow]
    rcases Nat.mod_two_eq_zero_or_one (dot n u a) with h | h <;> simp [h, Nat.add_mod]
  have e : ((∑ u ∈ range (2 ^ n), (-1 : ℝ) ^ ((decide (dot n u a % 2 = 1)).toNat + dot n u a)) / 2 ^ n) ^ 2 = 1 := hp
  simp only [e] at key
  rw [Nat.cast_pow, Nat.cast_ofNat] at key
  have := (_root_.abs_le.mp key).1
  linarith

open Classical in
/-- C123, Deutsch and Jozsa in `f64`: under the same conditions at least `1 - 2^-24` of the runs report 0 if the function is constant, and at most `2^-24` of them if it is 1
for exactly half of the inputs. -/
theorem C123_deutsch_jozsa (A : binary64.Arith fl) (L : StdLib binary64) (hL : L.Accurate binary64.eps) {n : ℕ} (hn : 0 < n) {g : ℕ → Bool} {o : Prog}
    (ho : Computes n g o) {out : List Reg × List ℕ} {s : LocalBuilder}
    (h : mainProg [n, 1] (queryActs o) LocalBuilder.default = .ok out s) (hn10 : s.n ≤ 10) (hg : circuitCost s.pipeline ≤ 64000)
    (c : List (List ℕ × ObjTypeP binary64)) (hm : List.Forall₂ Meant c s.pipeline) (hw : ∀ e ∈ c, e.2.Within 1)
    (d : ℕ → binary64.Fin) (hd : ∀ j, j < 2 ^ 53 → (d j).1 = (j : ℝ) / 2 ^ 53) :
    ∃ els : List (ElemP A.Num), c.mapM (elemP A L) = .ok (els.map elemOf) ∧
      ∀ (run : ℕ → StateP A.Num binary64.Part)
        (_ : ∀ j, j < 2 ^ 53 → RunsP A.prec (fun c : A.Num => c) (fun c => c) s.n (fun _ => some (d j)) els
          ⟨(List.replicate (2 ^ s.n) 0).set 0 1, List.replicate (2 ^ s.n) 0, []⟩ (run j)),
        ((∃ b, ∀ u < 2 ^ n, g u = b) →
          1 - 1 / 2 ^ 24 ≤ (((range (2 ^ 53)).filter fun j => ∃ p, (run j).measurements = [(0, p)]).card : ℝ) / 2 ^ 53) ∧
        (2 * ((range (2 ^ n)).filter fun u => g u = true).card = 2 ^ n →
          (((range (2 ^ 53)).filter fun j => ∃ p, (run j).measurements = [(0, p)]).card : ℝ) / 2 ^ 53 ≤ 1 / 2 ^ 24) := by
  have h0 : (0 : ℕ) < 2 ^ n := by positivity
  have hz : ∀ u, dot n u 0 = 0 := fun u => by simp [dot]
  obtain ⟨b1, b2, b3⟩ := C123_bound s.n (circuitCost s.pipeline) hn10 hg
  obtain ⟨els, k1, -, k3⟩ := C123_query A (C88_formats 2).2.2.1.1 (C88_formats 2).2.2.1.2 L hL hn ho h b1 c hm hw b2
  refine ⟨els, k1, fun run hrun => ?_⟩
  have key := (k3 (2 ^ 53) (by norm_num) 0 d (fun j hj => by rw [hd j hj, Nat.cast_pow, Nat.cast_ofNat, sub_self, abs_zero]) run hrun 0 h0).trans b3
  rw [Nat.cast_pow, Nat.cast_ofNat] at key
  have key := _root_.abs_le.mp key
  simp only [hz, add_zero] at key
  constructor
  · rintro ⟨b, hb⟩
    have e : ((∑ u ∈ range (2 ^ n), (-1 : ℝ) ^ (g u).toNat) / 2 ^ n) ^ 2 = 1 := by
      rw [sum_congr rfl fun u hu => by rw [hb u (mem_range.mp hu)], sum_const, card_range, nsmul_eq_mul, Nat.cast_pow,
        Nat.cast_ofNat, mul_div_cancel_left₀ _ (by positivity)]
      cases b <;> simp
    rw [e] at key
    linarith [key.1]
  · intro hb
    have e : ((∑ u ∈ range (2 ^ n), (-1 : ℝ) ^ (g u).toNat) / 2 ^ n) ^ 2 = 0 := by
      have e : ∀ u, (-1 : ℝ) ^ (g u).toNat = 1 - 2 * (if g u = true then 1 else 0) := fun u => by cases g u <;> norm_num
      rw [sum_congr rfl fun u _ => e u, sum_sub_distrib, ← mul_sum, sum_boole]
      simp only [sum_const, card_range, nsmul_eq_mul, mul_one]
      have hb' : (2 : ℝ) * ((range (2 ^ n)).filter fun u => g u = true).card = ((2 ^ n : ℕ) : ℝ) := by exact_mod_cast hb
      rw [hb', sub_self, zero_div]
      norm_num
    rw [e] at key
    linarith [key.2]

open Classical in
/-- C123, Grover's search: over `N` draws near `0, 1/N, 2/N, …` the share of the runs that report a marked input is at least `sin²((2k+1)θ)`, up to the bound for each
of the marked inputs. -/
theorem C123_found (A : f.Arith fl) (hf : 10 ≤ f.p) (he : f.emin + 2 * f.p + 4 ≤ 0) (L : StdLib f) (hL : L.Accurate f.eps) {n : ℕ} (hn : 0 < n) {g : ℕ → Bool} {o : Prog}
    (ho : Computes n g o) (k : ℕ) {out : List Reg × List ℕ} {s : LocalBuilder} (h : mainProg [n, 1] (groverActs o k) LocalBuilder.default = .ok out s)
    (hN : 2 ^ s.n * f.eps ≤ 1 / 64) (c : List (List ℕ × ObjTypeP f)) (hm : List.Forall₂ Meant c s.pipeline) (hw : ∀ e ∈ c, e.2.Within 1)
    (hE : (circuitCost s.pipeline : ℝ) * f.eps ≤ 1) :
    ∃ els : List (ElemP A.Num), c.mapM (elemP A L) = .ok (els.map elemOf) ∧
      ∀ (N : ℕ) (_ : 0 < N) (τ : ℝ) (d : ℕ → f.Fin) (_ : ∀ j, j < N → |(d j).1 - (j : ℝ) / N| ≤ τ) (run : ℕ → StateP A.Num f.Part)
        (_ : ∀ j, j < N → RunsP A.prec (fun c : A.Num => c) (fun c => c) s.n (fun _ => some (d j)) els
          ⟨(List.replicate (2 ^ s.n) 0).set 0 1, List.replicate (2 ^ s.n) 0, []⟩ (run j)),
        Real.sin ((2 * k + 1) * Real.arcsin (Real.sqrt (marked n g / 2 ^ n))) ^ 2 - marked n g * freqBound f s.n (circuitCost s.pipeline) N τ ≤
          (((range N).filter fun j => ∃ m p, m < 2 ^ n ∧ g m = true ∧ (run j).measurements = [(m, p)]).card : ℝ) / N := by
  obtain ⟨els, k1, -, k3⟩ := C123_search A hf he L hL hn ho k h hN c hm hw hE
  refine ⟨els, k1, fun N hN0 τ d hd run hrun => ?_⟩
  have hN' : (0 : ℝ) < N := by exact_mod_cast hN0
  have e : ((range N).filter fun j => ∃ m p, m < 2 ^ n ∧ g m = true ∧ (run j).measurements = [(m, p)]) =
      ((range (2 ^ n)).filter fun m => g m = true).biUnion fun m => (range N).filter fun j => ∃ p, (run j).measurements = [(m, p)] := by
    ext j
    simp only [mem_filter, mem_biUnion, mem_range]
    constructor
    · rintro ⟨hj, m, p, h1, h2, h3⟩
      exact ⟨m, ⟨h1, h2⟩, hj, p, h3⟩
    · rintro ⟨m, ⟨h1, h2⟩, hj, p, h3⟩
      exact ⟨hj, m, p, h1, h2, h3⟩
  rw [e, card_biUnion, Nat.cast_sum, sum_div, ← (C110_total n g k).1]
  · have hs : ∑ m ∈ (range (2 ^ n)).filter (fun m => g m = true), (groverProb n g k m - freqBound f s.n (circuitCost s.pipeline) N τ) ≤
        ∑ m ∈ (range (2 ^ n)).filter (fun m => g m = true), (((range N).filter fun j => ∃ p, (run j).measurements = [(m, p)]).card : ℝ) / N := by
      refine sum_le_sum fun m hm' => ?_
      have := (_root_.abs_le.mp (k3 N hN0 τ d hd run hrun m (mem_range.mp (mem_filter.mp hm').1))).1
      linarith
    rw [sum_sub_distrib, sum_const, nsmul_eq_mul] at hs
    exact hs
  · intro m _ m' _ hne
    rw [Function.onFun, disjoint_left]
    intro j h1 h2
    obtain ⟨p, h1⟩ := (mem_filter.mp h1).2
    obtain ⟨p', h2⟩ := (mem_filter.mp h2).2
    rw [h1] at h2
    exact hne (by simpa using (congrArg (fun l : List (ℕ × f.Part) => l.map Prod.fst) h2))

/-! ## examples -/

/-- few qubits and gates, and no angles other than ratios that are at most one -/
def smallRun (r : EStateM.Result Fail LocalBuilder (List Reg × List ℕ)) : Bool :=
  match r with
  | .ok _ s => decide (s.n ≤ 10) && (decide (circuitCost s.pipeline ≤ 64000) && s.pipeline.all fun e =>
      match e.2.object with
      | .unitary (.Rz (.floating _)) => false
      | .unitary (.Rz (.piRational q)) => decide (q.num.natAbs ≤ q.den)
      | _ => true)
  | .error _ _ => false

theorem smallRun_ok {sizes : List ℕ} (hpos : ∀ k ∈ sizes, 0 < k) {acts : List Act} (hT : ∀ a ∈ acts, a.Takes (blocks 0 sizes))
    (h : smallRun (mainProg sizes acts LocalBuilder.default) = true) (A : binary64.Arith fl) :
    ∃ s c, mainProg sizes acts LocalBuilder.default = .ok (blocks 0 sizes, List.range (measures acts)) s ∧ s.n ≤ 10 ∧ circuitCost s.pipeline ≤ 64000 ∧
      List.Forall₂ (Meant (f := binary64)) c s.pipeline ∧ ∀ e ∈ c, e.2.Within 1 := by
  obtain ⟨s, hs⟩ := C106_runs sizes hpos acts hT
  rw [hs] at h
  simp only [smallRun, Bool.and_eq_true, decide_eq_true_eq, List.all_eq_true] at h
  obtain ⟨h1, h2, h3⟩ := h
  obtain ⟨c, k1, k2⟩ := C123_circuit A (by show 4 ≤ 53; norm_num) s.n s.pipeline (main_facts hpos hT hs [] (by simp)).2.1 (by
    intro e he
    have := h3 e he
    unfold AngleFits
    obtain ⟨idx, w, o⟩ := e
    cases o with
    | meas m => trivial
    | unitary g =>
      cases g with
      | Rz r =>
        cases r with
        | floating θ => cases this
        | piRational q =>
          have hq : q.num.natAbs ≤ q.den := by simpa using this
          show |(q : ℝ)| ≤ 1
          have : |q| ≤ 1 := by
            rw [← Rat.num_div_den q, abs_div, div_le_one (by simp [q.den_pos]), Nat.abs_cast, ← Int.cast_abs, Int.abs_eq_natAbs]
            exact_mod_cast hq
          exact_mod_cast this
      | _ => trivial)
  exact ⟨s, c, hs, h1, h2, k1, k2⟩

/-- the circuit of the query program with two qubits and the oracle for `a = 3` -/
theorem query_run : mainProg [2, 1] (queryActs (parityOracle 2 3)) LocalBuilder.default = .ok ([[0, 1], [2]], [0])
    ⟨[([2], ⟨1, .unitary .X⟩), ([2], ⟨1, .unitary .H⟩), ([0], ⟨1, .unitary .H⟩), ([1], ⟨1, .unitary .H⟩), ([0, 2], ⟨2, .unitary .CNOT⟩), ([1, 2], ⟨2, .unitary .CNOT⟩),
      ([0], ⟨1, .unitary .H⟩), ([1], ⟨1, .unitary .H⟩), ([0, 1], ⟨2, .meas .measurement⟩)], 3, [], 1⟩ := by
  krfl

open Classical in
/-- Bernstein and Vazirani with four qubits and `a = 11`: circuits, draws and runs as in the theorem exist -/
example (A : binary64.Arith fl) : ∃ (n : ℕ) (els : List (ElemP A.Num)) (d : ℕ → binary64.Fin),
    ∀ (run : ℕ → StateP A.Num binary64.Part), (∀ j, j < 2 ^ 53 → RunsP A.prec (fun c : A.Num => c) (fun c => c) n (fun _ => some (d j)) els
      ⟨(List.replicate (2 ^ n) 0).set 0 1, List.replicate (2 ^ n) 0, []⟩ (run j)) →
      1 - 1 / 2 ^ 24 ≤ (((range (2 ^ 53)).filter fun j => ∃ p, (run j).measurements = [(11, p)]).card : ℝ) / 2 ^ 53 := by
  have ho := (C109_oracles (n := 4) (by norm_num)).2 11
  obtain ⟨s, c, h1, h2, h3, h4, h5⟩ := smallRun_ok (sizes := [4, 1]) (by simp) (queryActs_takes (by norm_num) ho) (by krfl) A
  obtain ⟨d, hd⟩ := draws_fit
  obtain ⟨els, -, k⟩ := C123_bernstein_vazirani A (stdRounded A) (C122_accurate A) (by norm_num) (a := 11) (by norm_num) ho h1 h2 h3 c h4 h5 d hd
  exact ⟨s.n, els, d, k⟩

/-- the circuit of Grover's search with two qubits, the function that is 1 at 3 only, and one round, is small -/
theorem grover_small : smallRun (mainProg [2, 1] (groverActs (tableOracle 2 fun u => u == 3) 1) LocalBuilder.default) = true := by
  krfl

open Classical in
/-- ... and in `f64` at least `1 - 2^-24` of the runs find it -/
example (A : binary64.Arith fl) : ∃ (n : ℕ) (els : List (ElemP A.Num)) (d : ℕ → binary64.Fin),
    ∀ (run : ℕ → StateP A.Num binary64.Part), (∀ j, j < 2 ^ 53 → RunsP A.prec (fun c : A.Num => c) (fun c => c) n (fun _ => some (d j)) els
      ⟨(List.replicate (2 ^ n) 0).set 0 1, List.replicate (2 ^ n) 0, []⟩ (run j)) →
      1 - 1 / 2 ^ 24 ≤ (((range (2 ^ 53)).filter fun j => ∃ p, (run j).measurements = [(3, p)]).card : ℝ) / 2 ^ 53 := by
  have ho := (C109_oracles (n := 2) (by norm_num)).1 fun u => u == 3
  obtain ⟨s, c, h1, h2, h3, h4, h5⟩ := smallRun_ok (sizes := [2, 1]) (by simp) (groverActs_takes (by norm_num) ho 1) grover_small A
  obtain ⟨d, hd⟩ := draws_fit
  obtain ⟨b1, b2, b3⟩ := C123_bound s.n (circuitCost s.pipeline) h2 h3
  obtain ⟨els, -, -, k⟩ := C123_search A (C88_formats 2).2.2.1.1 (C88_formats 2).2.2.1.2 (stdRounded A) (C122_accurate A) (by norm_num) ho 1 h1 b1 c h4 h5 b2
  refine ⟨s.n, els, d, fun run hrun => ?_⟩
  have key := (k (2 ^ 53) (by norm_num) 0 d (fun j hj => by rw [hd j hj, Nat.cast_pow, Nat.cast_ofNat, sub_self, abs_zero]) run hrun 3 (by norm_num)).trans b3
  have hM : marked 2 (fun u => u == 3) = 1 := by decide
  have hp : groverProb 2 (fun u => u == 3) 1 3 = 1 := by
    unfold groverProb
    rw [if_pos (show ((3 : ℕ) == 3) = true from rfl), hM]
    have e : Real.sqrt (((1 : ℕ) : ℝ) / 2 ^ 2) = 1 / 2 := by
      rw [show (((1 : ℕ) : ℝ) / 2 ^ 2) = (1 / 2) ^ 2 by norm_num, Real.sqrt_sq (by norm_num)]
    have e2 : Real.arcsin (1 / 2) = Real.pi / 6 := by
      rw [← Real.sin_pi_div_six, Real.arcsin_sin (by linarith [Real.pi_pos]) (by linarith [Real.pi_pos])]
    rw [e, e2, show (2 * ((1 : ℕ) : ℝ) + 1) * (Real.pi / 6) = Real.pi / 2 by push_cast; ring, Real.sin_pi_div_two]
    norm_num
  rw [hp, Nat.cast_pow, Nat.cast_ofNat] at key
  have := (_root_.abs_le.mp key).1
  linarith

open Classical in
/-- Deutsch and Jozsa with three qubits and a balanced function -/
example (A : binary64.Arith fl) : ∃ (n : ℕ) (els : List (ElemP A.Num)) (d : ℕ → binary64.Fin),
    ∀ (run : ℕ → StateP A.Num binary64.Part), (∀ j, j < 2 ^ 53 → RunsP A.prec (fun c : A.Num => c) (fun c => c) n (fun _ => some (d j)) els
      ⟨(List.replicate (2 ^ n) 0).set 0 1, List.replicate (2 ^ n) 0, []⟩ (run j)) →
      (((range (2 ^ 53)).filter fun j => ∃ p, (run j).measurements = [(0, p)]).card : ℝ) / 2 ^ 53 ≤ 1 / 2 ^ 24 := by
  have ho := (C109_oracles (n := 3) (by norm_num)).2 6
  obtain ⟨s, c, h1, h2, h3, h4, h5⟩ := smallRun_ok (sizes := [3, 1]) (by simp) (queryActs_takes (by norm_num) ho) (by krfl) A
  obtain ⟨d, hd⟩ := draws_fit
  obtain ⟨els, -, k⟩ := C123_deutsch_jozsa A (stdRounded A) (C122_accurate A) (by norm_num) ho h1 h2 h3 c h4 h5 d hd
  exact ⟨s.n, els, d, fun run hrun => (k run hrun).2 (by decide +kernel)⟩

end Verif.Props
