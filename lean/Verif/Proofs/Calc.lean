import Verif.Model.Calc
import Verif.Spec.Clean
import Verif.Spec.Value
import Verif.Proofs.Wave
import Verif.Proofs.Apply2
import Mathlib.Tactic.IntervalCases

/-! # The state-vector calculation follows the gates -/

namespace Verif
open Complex Classical Finset

/-! ## state indices and basis states -/

theorem readQ_asg (n : ℕ) (idx : List ℕ) (h : ∀ i ∈ idx, i < n) (i : ℕ) : readQ idx (asg n i) = f2s n idx i := by
  apply Nat.eq_of_testBit_eq
  intro j
  rw [testBit_readQ, testBit_f2s]
  split
  · unfold asg
    rename_i hj
    have := h _ (List.getElem_mem (show idx.length - 1 - j < idx.length by omega))
    simp [this]
  · rfl

theorem asg_s2f (n : ℕ) (idx : List ℕ) (hn : idx.Nodup) (h : ∀ i ∈ idx, i < n) (c i : ℕ) :
    asg n (s2f n idx c i) = writeQ idx c (asg n i) := by
  funext q
  by_cases hq : q ∈ idx
  · obtain ⟨j, hj, rfl⟩ := List.getElem_of_mem hq
    rw [writeQ_mem idx hn]
    unfold asg
    rw [testBit_s2f_mem n idx c i hn h j hj]
    simp [h _ hq]
  · rw [writeQ_not_mem _ _ _ _ hq]
    unfold asg
    by_cases hqn : q < n
    · rw [testBit_s2f_not_mem]
      intro q' hq' e
      have := h q' hq'
      exact hq (by rwa [show q = q' by omega])
    · simp [hqn]

theorem asg_inj (n i j : ℕ) (hi : i < 2 ^ n) (hj : j < 2 ^ n) (h : asg n i = asg n j) : i = j := by
  apply Nat.eq_of_testBit_eq
  intro b
  by_cases hb : b < n
  · have := congrFun h (n - 1 - b)
    unfold asg at this
    rw [show n - 1 - (n - 1 - b) = b by omega] at this
    simpa [show n - 1 - b < n by omega] using this
  · rw [Nat.testBit_lt_two_pow (lt_of_lt_of_le hi (Nat.pow_le_pow_right (by omega) (by omega))),
      Nat.testBit_lt_two_pow (lt_of_lt_of_le hj (Nat.pow_le_pow_right (by omega) (by omega)))]

theorem rep_ket (n i : ℕ) (hi : i < 2 ^ n) : Rep n ((List.replicate (2 ^ n) (0 : ℂ)).set i 1) (ket (asg n i)) := by
  refine ⟨by simp, ?_⟩
  intro j hj
  rw [ket_apply, List.getElem?_set]
  by_cases h : i = j
  · subst h; simp [hi]
  · rw [if_neg h, if_neg (fun e => h (asg_inj n i j hi hj e))]
    simp [hj]

/-! ## every unitary object is turned into an op with its matrix -/

/-- `op` stands for the matrix `m` on `idx` -/
structure IsOp (idx : List ℕ) (m : ℕ → ℕ → ℂ) (op : MatrixOp ℂ) : Prop where
  wf : op.WF
  ind : op.indices = idx
  mat : ∀ r c, r < 2 ^ idx.length → c < 2 ^ idx.length → opMat op r c = m r c

theorem matrix1_ok (q : ℕ) (a b c d : ℂ) :
    makeMatrixOp [q] [a, b, c, d] = .ok (.matrix [q] [a, b, c, d]) ∧
      IsOp [q] (mat2 a b c d) (.matrix [q] [a, b, c, d]) := by
  refine ⟨by simp [makeMatrixOp], ⟨by simp [MatrixOp.WF], rfl, ?_⟩⟩
  intro r c' hr hc
  simp at hr hc
  interval_cases r <;> interval_cases c' <;> simp [opMat, mat2]

theorem unitaryOp_ok (idx : List ℕ) (u : UObj) (hs : u.Shape idx.length) (hg : ∀ ρ, u ≠ .GlobalPhase ρ) :
    ∃ op, unitaryOp idx u = .ok op ∧ IsOp idx (uMat rotAngle idx.length u) op := by
  have one : ∀ (a b c d : ℂ), idx.length = 1 → ∃ op, makeMatrixOp idx [a, b, c, d] = .ok op ∧ IsOp idx (mat2 a b c d) op := by
    intro a b c d h1
    obtain ⟨q, rfl⟩ := List.length_eq_one_iff.mp h1
    exact ⟨_, matrix1_ok q a b c d⟩
  cases u with
  | X => exact one _ _ _ _ hs
  | Y => exact one _ _ _ _ hs
  | Z => exact one _ _ _ _ hs
  | H =>
    have := one ((1 / Real.sqrt 2 : ℝ) : ℂ) ((1 / Real.sqrt 2 : ℝ) : ℂ) ((1 / Real.sqrt 2 : ℝ) : ℂ)
      (-((1 / Real.sqrt 2 : ℝ) : ℂ)) hs
    simpa [unitaryOp, uMat] using this
  | S => exact one _ _ _ _ hs
  | T =>
    have := one 1 0 0 (exp ((Real.pi / 4 : ℝ) * I)) hs
    simpa [unitaryOp, uMat] using this
  | Rz r =>
    have := one (exp ((-(rotAngle r * (1 / 2)) : ℝ) * I)) 0 0 (exp (((rotAngle r * (1 / 2)) : ℝ) * I)) hs
    have e : uMat rotAngle idx.length (.Rz r) =
        mat2 (exp ((-(rotAngle r * (1 / 2)) : ℝ) * I)) 0 0 (exp (((rotAngle r * (1 / 2)) : ℝ) * I)) := by
      simp only [uMat, rzMat]
      congr 2 <;> push_cast <;> ring
    rw [e]
    exact this
  | GlobalPhase ρ => exact absurd rfl (hg ρ)
  | MAT data =>
    obtain ⟨h1, h2⟩ := hs
    have hne : idx.isEmpty = false := by
      cases idx <;> simp at h2 ⊢
    refine ⟨.matrix idx data, ?_, ⟨?_, rfl, fun _ _ _ _ => rfl⟩⟩
    · simp only [unitaryOp, makeMatrixOp, hne]
      rw [if_neg (by simp), if_neg]
      rw [not_not, h1, Nat.one_shiftLeft, Nat.pow_mul]
    · show data.length = _
      rw [h1, ← Nat.mul_pow]
  | CNOT =>
    match idx, hs with
    | [c, t], _ =>
      refine ⟨.control 1 [c, t] (.matrix [t] [0, 1, 1, 0]), ?_, ⟨?_, rfl, ?_⟩⟩
      · simp [unitaryOp, makeMatrixOp, makeControlOp, MatrixOp.indices]
        rfl
      · simp [MatrixOp.WF, MatrixOp.indices]
      · intro r c' hr hc
        simp at hr hc
        have hr' : r < 4 := hr
        have hc' : c' < 4 := hc
        clear hr hc
        interval_cases r <;> interval_cases c' <;> simp [opMat, ctrlMat, uMat, Nat.testBit]
  | SWAP =>
    obtain ⟨h1, h2⟩ := hs
    obtain ⟨h, hh⟩ : ∃ h, idx.length = h * 2 := ⟨idx.length / 2, by omega⟩
    have hd : idx.length / 2 = h := by omega
    have l1 : (idx.take h).length = h := by simp; omega
    have l2 : (idx.drop h).length = h := by simp; omega
    refine ⟨.swap h idx, ?_, ⟨hh, rfl, ?_⟩⟩
    · simp only [unitaryOp]
      rw [if_neg (by omega), hd, makeSwapOp, l1, l2]
      have e1 : (idx.take h).isEmpty = false := by
        rw [← Bool.not_eq_true, List.isEmpty_iff_length_eq_zero, l1]; omega
      have e2 : (idx.drop h).isEmpty = false := by
        rw [← Bool.not_eq_true, List.isEmpty_iff_length_eq_zero, l2]; omega
      rw [e1, e2]
      simp
    · intro r c hr hc
      rw [hh] at hr hc
      simp only [opMat, uMat, hd]
      have e := swapHalves_iff h c r hc hr
      unfold swapHalves at e
      congr 1
      rw [eq_comm, eq_iff_iff, eq_comm, e]
      constructor
      · intro g i hi; exact ⟨(g i hi).2.symm, (g i hi).1.symm⟩
      · intro g i hi; exact ⟨(g i hi).2.symm, (g i hi).1.symm⟩

/-! ## one step, many steps -/

theorem applyOp_rep (n : ℕ) (idx : List ℕ) (m : ℕ → ℕ → ℂ) (op : MatrixOp ℂ) (ho : IsOp idx m op) (hn : idx.Nodup)
    (hi : ∀ q ∈ idx, q < n) (v arena : List ℂ) (ψ : Wave) (hv : Rep n v ψ) (ha : arena.length = 2 ^ n) :
    ∃ w, applyOpOverwrite n op v arena 0 0 = some w ∧ Rep n w (gateW idx m ψ) := by
  refine ⟨_, applyOpOverwrite_eq n op ho.wf (by rw [ho.ind]; exact hi) v arena 0 0, by simp [ha], ?_⟩
  intro i hi2
  simp only [List.getElem?_map, List.getElem?_zipIdx, ha, Nat.zero_add]
  rw [List.getElem?_eq_getElem (by omega)]
  simp only [Option.map_some, Option.some.injEq]
  unfold rowVal
  rw [ho.ind, gateW_apply idx hn, readQ_asg n idx hi]
  apply sum_congr rfl
  intro c hc
  have hc' := mem_range.mp hc
  rw [ho.mat _ _ (f2s_lt _ _ _) hc', ← asg_s2f n idx hn hi]
  congr 1
  have hlt := s2f_lt n idx c i hi2 hi
  rw [ampAt_zero_offset _ _ (by rw [hv.1]; exact hlt)]
  have := hv.2 _ hlt
  rw [List.getElem?_eq_getElem (by rw [hv.1]; exact hlt)] at this
  exact Option.some.inj this

theorem calcStep_unitary (n : ℕ) (rnds : ℕ → ℝ) (st : CalcState) (ψ : Wave) (hv : Rep n st.state ψ)
    (ha : st.arena.length = 2 ^ n) (e : List ℕ × CObj) (he : SegOK n e) :
    ∃ st', calcStep n rnds st e = some st' ∧ Rep n st'.state (entryW rotAngle e ψ) ∧ st'.arena.length = 2 ^ n ∧
      st'.measurements = st.measurements := by
  obtain ⟨⟨h1, h2, h3⟩, -, u, hu, hg⟩ := he
  obtain ⟨op, g1, g2⟩ := unitaryOp_ok e.1 u (h3 u hu) hg
  obtain ⟨w, w1, w2⟩ := applyOp_rep n e.1 _ op g2 h1 h2 st.state st.arena ψ hv ha
  refine ⟨{ state := w, arena := st.state, measurements := st.measurements }, ?_, ?_, hv.1, rfl⟩
  · unfold calcStep
    rw [hu]
    cases u with
    | GlobalPhase ρ => exact absurd rfl (hg ρ)
    | _ => simp [g1, w1]
  · unfold entryW
    rw [hu]; exact w2

theorem calcFold_unitary (n : ℕ) (rnds : ℕ → ℝ) (p : Pipeline) (hp : ∀ e ∈ p, SegOK n e) (st : CalcState) (ψ : Wave)
    (hv : Rep n st.state ψ) (ha : st.arena.length = 2 ^ n) :
    ∃ st', calcFold n rnds p st = some st' ∧ Rep n st'.state (runW rotAngle p ψ) ∧ st'.arena.length = 2 ^ n ∧
      st'.measurements = st.measurements := by
  induction p generalizing st ψ with
  | nil => exact ⟨st, rfl, hv, ha, rfl⟩
  | cons e p ih =>
    obtain ⟨s1, a1, a2, a3, a4⟩ := calcStep_unitary n rnds st ψ hv ha e (hp e (by simp))
    obtain ⟨s2, b1, b2, b3, b4⟩ := ih (fun e' he' => hp e' (by simp [he'])) s1 _ a2 a3
    refine ⟨s2, ?_, b2, b3, b4.trans a4⟩
    unfold calcFold at b1 ⊢
    rw [List.foldlM_cons, a1]
    exact b1

/-! ## the initial state -/

theorem initBits_eq (n : ℕ) (r : Reg) (x : ℕ) (h : ∀ q ∈ r, q < n) :
    initBits n r x = some (r.reverse.zipIdx.map fun p => (n - 1 - p.1, (x >>> (r.length - 1 - p.2)) &&& 1)) := by
  unfold initBits
  apply mapM_some
  intro p hp
  have : p.1 < n := h _ (by
    have := List.fst_mem_of_mem_zipIdx hp
    simpa using this)
  simp [bitPos, this]

theorem orFold_testBit (l : List (ℕ × ℕ)) (hl : ∀ p ∈ l, p.2 = 0 ∨ p.2 = 1) (acc b : ℕ) :
    (l.foldl (fun acc p => acc ||| (p.2 <<< p.1)) acc).testBit b = (acc.testBit b || decide ((b, 1) ∈ l)) := by
  induction l generalizing acc with
  | nil => simp
  | cons p l ih =>
    rw [List.foldl_cons, ih (fun p' h' => hl p' (by simp [h']))]
    rw [Nat.testBit_or, Nat.testBit_shiftLeft]
    obtain ⟨p1, p2⟩ := p
    have := hl (p1, p2) (by simp)
    simp only at this
    rcases this with rfl | rfl
    · simp
    · by_cases hb : b = p1
      · subst hb; simp
      · have : (decide (b ≥ p1) && Nat.testBit 1 (b - p1)) = false := by
          by_cases hge : b ≥ p1
          · have : b - p1 ≠ 0 := by omega
            rw [Nat.testBit_eq_decide_div_mod_eq]
            rw [Nat.div_eq_of_lt (Nat.one_lt_two_pow this)]
            simp
          · simp [hge]
        rw [this]
        simp [hb]

theorem initialIndex_eq (n : ℕ) (it : List (Reg × ℕ)) (h : ∀ p ∈ it, ∀ q ∈ p.1, q < n) :
    ∃ i, initialIndex n it = some i ∧ i < 2 ^ n ∧ asg n i = initAsg it := by
  have e1 : (it.mapM fun p => initBits n p.1 p.2) = some (it.map fun p =>
      p.1.reverse.zipIdx.map fun p' => (n - 1 - p'.1, (p.2 >>> (p.1.length - 1 - p'.2)) &&& 1)) := by
    apply mapM_some
    intro p hp
    exact initBits_eq n p.1 p.2 (h p hp)
  refine ⟨_, by unfold initialIndex; rw [e1]; rfl, ?_, ?_⟩
  all_goals
    set l := (it.map fun p =>
      p.1.reverse.zipIdx.map fun p' => (n - 1 - p'.1, (p.2 >>> (p.1.length - 1 - p'.2)) &&& 1)).flatten with hl
    have hbit : ∀ p ∈ l, p.2 = 0 ∨ p.2 = 1 := by
      intro p hp
      simp only [hl, List.mem_flatten, List.mem_map] at hp
      obtain ⟨_, ⟨a, _, rfl⟩, hp⟩ := hp
      simp only [List.mem_map] at hp
      obtain ⟨c, _, rfl⟩ := hp
      simp only [Nat.and_one_is_mod]
      omega
    have hmem : ∀ b, (b, 1) ∈ l ↔ ∃ p ∈ it, ∃ k q, p.1[k]? = some q ∧ b = n - 1 - q ∧ p.2.testBit k = true := by
      intro b
      simp only [hl, List.mem_flatten, List.mem_map]
      constructor
      · rintro ⟨_, ⟨a, ha, rfl⟩, hp⟩
        simp only [List.mem_map] at hp
        obtain ⟨⟨q, j⟩, hc, he⟩ := hp
        rw [List.mk_mem_zipIdx_iff_getElem?] at hc
        simp only [Prod.mk.injEq] at he
        have hj : j < a.1.length := by
          have := (List.getElem?_eq_some_iff.mp hc).1
          simpa using this
        rw [List.getElem?_reverse hj] at hc
        refine ⟨a, ha, a.1.length - 1 - j, q, hc, he.1.symm, ?_⟩
        have := he.2
        rw [Nat.and_one_is_mod] at this
        rw [Nat.testBit_eq_decide_div_mod_eq, ← Nat.shiftRight_eq_div_pow]
        simp [this]
      · rintro ⟨a, ha, k, q, hq, rfl, hb⟩
        have hk := (List.getElem?_eq_some_iff.mp hq).1
        refine ⟨_, ⟨a, ha, rfl⟩, ?_⟩
        simp only [List.mem_map]
        refine ⟨(q, a.1.length - 1 - k), ?_, ?_⟩
        · rw [List.mk_mem_zipIdx_iff_getElem?, List.getElem?_reverse (by omega)]
          rw [show a.1.length - 1 - (a.1.length - 1 - k) = k by omega]
          exact hq
        · simp only [Prod.mk.injEq, true_and]
          rw [show a.1.length - 1 - (a.1.length - 1 - k) = k by omega, Nat.and_one_is_mod]
          rw [Nat.testBit_eq_decide_div_mod_eq, ← Nat.shiftRight_eq_div_pow] at hb
          exact of_decide_eq_true hb
  · apply Nat.lt_pow_two_of_testBit
    intro b hb
    rw [orFold_testBit l hbit]
    simp only [Nat.zero_testBit, Bool.false_or, decide_eq_false_iff_not, hmem]
    rintro ⟨p, hp, k, q, hq, rfl, -⟩
    have := h p hp q (List.mem_of_getElem? hq)
    omega
  · funext q
    unfold asg initAsg
    rw [orFold_testBit l hbit]
    simp only [Nat.zero_testBit, Bool.false_or, hmem]
    rw [Bool.eq_iff_iff]
    simp only [Bool.and_eq_true, decide_eq_true_eq]
    constructor
    · rintro ⟨hqn, p, hp, k, q', hq', e, hb⟩
      have := h p hp q' (List.mem_of_getElem? hq')
      exact ⟨p, hp, k, by rw [show q = q' by omega]; exact hq', hb⟩
    · rintro ⟨p, hp, k, hq, hb⟩
      exact ⟨h p hp q (List.mem_of_getElem? hq), p, hp, k, q, hq, rfl, hb⟩

/-- the whole calculation, for circuits of unitary gates -/
theorem calculate_unitary (b : LocalBuilder) (it : List (Reg × ℕ)) (h : ∀ p ∈ it, ∀ q ∈ p.1, q < b.n)
    (hp : ∀ e ∈ b.pipeline, SegOK b.n e) (rnds : ℕ → ℝ) :
    ∃ v, b.calculateStateWithInit it rnds = some (v, []) ∧ Rep b.n v (runW rotAngle b.pipeline (ket (initAsg it))) := by
  obtain ⟨i, h1, h2, h3⟩ := initialIndex_eq b.n it h
  obtain ⟨st, g1, g2, _, g4⟩ := calcFold_unitary b.n rnds b.pipeline hp
    { state := (List.replicate (2 ^ b.n) 0).set i 1, arena := List.replicate (2 ^ b.n) 0, measurements := [] } _
    (rep_ket b.n i h2) (by simp)
  rw [h3] at g2
  refine ⟨st.state, ?_, g2⟩
  unfold LocalBuilder.calculateStateWithInit
  simp only [Nat.one_shiftLeft, h1, Option.bind_eq_bind, Option.bind_some, List.length_replicate]
  rw [if_pos h2, g1]
  simp [g4]

end Verif
