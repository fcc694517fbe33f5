import Verif.Proofs.FloatMoves
import Verif.Proofs.FloatRun
import Verif.Proofs.Binary
import Verif.Proofs.Calc2

/-!
# Properties C85, C86: arithmetic with rounding

C85: gates that only move amplitudes are exact in any arithmetic with `0 + x = x` and `1 * x = x`.
C86: the rounding error of the simulator.
-/

namespace Verif.Props
open Verif MatrixOp Finset

/-! ## C85 -/

section
variable {F : Type} [Zero F] [One F] [Add F] [Mul F] [DecidableEq F]

/-- C85. Nothing is rounded: every entry of the result is an entry of the input, the one the gate moves there. No law of arithmetic is
used except `0 + x = x`, `1 * x = x` and `1 ≠ 0`. -/
theorem C85_moves (h10 : (1 : F) ≠ 0) (hadd : ∀ x : F, 0 + x = x) (hmul : ∀ x : F, 1 * x = x) (n : ℕ) (op : MatrixOp F) (hwf : op.WF)
    (hnd : op.indices.Nodup) (hidx : ∀ i ∈ op.indices, i < n) (π : ℕ → ℕ) (h : op.Carries π) (input output : List F)
    (hi : input.length = 2 ^ n) (ho : output.length = 2 ^ n) :
    ∃ out, applyOpOverwrite n op input output 0 0 = some out ∧ out.length = 2 ^ n ∧
      ∀ r, r < 2 ^ n → ∃ c, c < 2 ^ n ∧ AgreeOff n op.indices r c ∧
        readQubits n op.indices c = π (readQubits n op.indices r) ∧ out[r]? = input[c]? := by
  refine ⟨_, applyOpOverwrite_any n op hwf hidx input output hi ho, by simp, fun r hr => ?_⟩
  have hlt := s2f_lt n op.indices (π (f2s n op.indices r)) r hr hidx
  refine ⟨s2f n op.indices (π (f2s n op.indices r)) r, hlt, s2f_agree n _ hidx _ _, ?_, ?_⟩
  · rw [readQubits_eq, readQubits_eq, f2s_s2f n _ _ _ hnd hidx]
    exact (rowItems_carries h10 op hwf π h _ (f2s_lt _ _ _)).2
  · rw [List.getElem?_map, List.getElem?_range hr, Option.map_some, rowTotal_carries h10 hadd hmul n op hwf π h,
      List.getElem?_eq_getElem (by rw [hi]; exact hlt), Option.getD_some]

/-- C85. ... and so for any sequence of such gates run by the simulator. -/
theorem C85_circuit (h10 : (1 : F) ≠ 0) (hadd : ∀ x : F, 0 + x = x) (hmul : ∀ x : F, 1 * x = x) (n : ℕ)
    (gs : List (MatrixOp F × (ℕ → ℕ))) (hg : ∀ g ∈ gs, g.1.WF ∧ g.1.indices.Nodup ∧ (∀ i ∈ g.1.indices, i < n) ∧ g.1.Carries g.2)
    (state arena : List F) (hs : state.length = 2 ^ n) (ha : arena.length = 2 ^ n) :
    ∃ out rest, runOps n (gs.map Prod.fst) (state, arena) = some (out, rest) ∧ out.length = 2 ^ n ∧
      ∀ r, r < 2 ^ n → ∃ c, c < 2 ^ n ∧ Source n (gs.map fun g => (g.1.indices, g.2)) r c ∧ out[r]? = state[c]? := by
  induction gs generalizing state arena with
  | nil => exact ⟨state, arena, rfl, hs, fun r hr => ⟨r, hr, rfl, rfl⟩⟩
  | cons g gs ih =>
    obtain ⟨h1, h2, h3, h4⟩ := hg g (by simp)
    obtain ⟨mid, m1, m2, m3⟩ := C85_moves h10 hadd hmul n g.1 h1 h2 h3 g.2 h4 state arena hs ha
    obtain ⟨out, rest, r1, r2, r3⟩ := ih (fun g' hg' => hg g' (by simp [hg'])) mid state m2 hs
    refine ⟨out, rest, ?_, r2, ?_⟩
    · rw [runOps, List.map_cons, List.foldlM_cons, m1]
      exact r1
    · intro r hr
      obtain ⟨c, c1, c2, c3⟩ := r3 r hr
      obtain ⟨d, d1, d2, d3, d4⟩ := m3 c c1
      exact ⟨d, d1, ⟨c, c1, c2, d2, d3⟩, c3.trans d4⟩

/-- a Toffoli gate: two controls in front of X -/
def toffoliOp (F : Type) [Zero F] [One F] : MatrixOp F := .control 2 [0, 2, 1] (.matrix [1] [0, 1, 1, 0])

theorem toffoliOp_carries : (toffoliOp F).WF ∧ (toffoliOp F).Carries fun r => if 6 ≤ r then 13 - r else r := by
  refine ⟨by simp [toffoliOp, MatrixOp.WF, indices], fun r => 1 - r, ?_, ?_⟩
  · intro r hr
    have hr' : r < 2 := hr
    refine ⟨by show 1 - r < 2; omega, ?_⟩
    intro c hc
    have hc' : c < 2 := hc
    interval_cases r <;> interval_cases c <;> simp
  · intro r hr
    have hr' : r < 8 := hr
    clear hr
    have two : ∀ P : ℕ → Prop, (∀ i, i < 2 → P i) ↔ P 0 ∧ P 1 := by
      intro P
      constructor
      · intro h; exact ⟨h 0 (by norm_num), h 1 (by norm_num)⟩
      · rintro ⟨h0, h1⟩ i hi
        interval_cases i <;> assumption
    simp only [two]
    interval_cases r <;> simp [Nat.testBit]

/-- instance: binary floating point numbers with 53 digits and a Toffoli gate -/
example {fl : ℝ → ℝ} (B : BinOps 53 fl) : (1 : B.Num) ≠ 0 ∧ (∀ x : B.Num, 0 + x = x) ∧ (∀ x : B.Num, 1 * x = x) ∧
    (toffoliOp B.Num).WF ∧ (toffoliOp B.Num).indices.Nodup ∧ (∀ i ∈ (toffoliOp B.Num).indices, i < 3) ∧
    (toffoliOp B.Num).Carries fun r => if 6 ≤ r then 13 - r else r :=
  ⟨fun h => one_ne_zero (congrArg Subtype.val h : (1 : ℂ) = 0), B.rounds.zero_add, B.one_mul, toffoliOp_carries.1,
    by simp [toffoliOp, indices], by simp [toffoliOp, indices], toffoliOp_carries.2⟩

/-- there is such an arithmetic -/
example : ∃ fl, Nonempty (BinOps 53 fl) := by
  obtain ⟨fl, h⟩ := exists_nearest 53 (by norm_num)
  exact ⟨fl, ⟨h, by norm_num⟩⟩

end

/-! ## C86 -/

section
variable {F : Type} [Zero F] [One F] [Add F] [Mul F] [DecidableEq F] {val : F → ℂ} {u : ℝ}

theorem width_pos {K : Type} (V : MatrixOp K) : 1 ≤ V.width := by
  induction V with
  | matrix idx d => exact Nat.one_le_two_pow
  | sparse idx rows =>
    simp only [MatrixOp.width]
    generalize rows.map List.length = l
    induction l with
    | nil => simp
    | cons a l ih => exact ih.trans (le_max_right _ _)
  | swap a idx => exact le_rfl
  | control nc idx op ih => exact ih

/-- C86, one op. The computed state differs from the exact product by at most `opErr u w` times the length of the state. -/
theorem C86_apply_op (R : Rounds val u) (n w : ℕ) (op : MatrixOp F) (U : MatrixOp ℂ) (h : Stores val u op U) (hU : UnitaryOn n w U)
    (input output : List F) (hi : input.length = 2 ^ n) (ho : output.length = 2 ^ n) :
    ∃ out, applyOpOverwrite n op input output 0 0 = some out ∧ out.length = 2 ^ n ∧
      nrm n (fun r => vals val out r - mulVec n (embed n U.indices (opMat U)) (vals val input) r) ≤
        opErr u w * nrm n (vals val input) := by
  refine ⟨_, applyOpOverwrite_any n op (h.wf hU.wf) (by rw [h.indices]; exact hU.lt) input output hi ho, by simp, ?_⟩
  have hw : 1 ≤ w := (width_pos U).trans hU.width
  have key := step_err R n h hU.wf hU.distinct hU.nodup hU.lt hU.unitary input hi (w - 1) (by have := hU.width; omega)
  rw [show w - 1 + 2 = w + 1 by omega, show ((w - 1 : ℕ) : ℝ) + 1 = w by exact_mod_cast (by omega : w - 1 + 1 = w)] at key
  refine le_trans (le_of_eq (nrm_congr _ _ _ ?_)) key
  intro r hr
  simp [vals, List.getElem?_range hr]

/-- C86, a circuit. After `G` ops the computed state is within `(1 + opErr u w)^G - 1` of the exact one. -/
theorem C86_circuit (R : Rounds val u) (n w : ℕ) (ops : List (MatrixOp F)) (Us : List (MatrixOp ℂ))
    (h : List.Forall₂ (Stores val u) ops Us) (hU : ∀ U ∈ Us, UnitaryOn n w U) (state arena : List F) (hs : state.length = 2 ^ n)
    (ha : arena.length = 2 ^ n) :
    ∃ out rest, runOps n ops (state, arena) = some (out, rest) ∧ out.length = 2 ^ n ∧
      nrm n (fun r => vals val out r - exactRun n Us (vals val state) r) ≤
        ((1 + opErr u w) ^ ops.length - 1) * nrm n (vals val state) := by
  have hu := R.nonneg
  have hε : 0 ≤ opErr u w := by
    unfold opErr
    have : (1 : ℝ) ≤ (1 + u) ^ (w + 1) := one_le_pow₀ (by linarith)
    exact mul_nonneg (by linarith) (Real.sqrt_nonneg _)
  -- the error already made is carried along
  suffices key : ∀ (f : ℕ → ℂ) (δ : ℝ), 0 ≤ δ → nrm n (fun r => vals val state r - f r) ≤ δ * nrm n f →
      ∃ out rest, runOps n ops (state, arena) = some (out, rest) ∧ out.length = 2 ^ n ∧
        nrm n (fun r => vals val out r - exactRun n Us f r) ≤ ((1 + δ) * (1 + opErr u w) ^ ops.length - 1) * nrm n f by
    obtain ⟨out, rest, h1, h2, h3⟩ := key (vals val state) 0 le_rfl (by
      rw [zero_mul, nrm_congr n _ (fun _ => 0) (fun r _ => sub_self _)]
      simp [nrm])
    exact ⟨out, rest, h1, h2, by simpa using h3⟩
  induction h generalizing state arena with
  | nil =>
    intro f δ hδ hf
    exact ⟨state, arena, rfl, hs, by simpa [exactRun] using hf⟩
  | @cons op U ops Us h1 _ ih =>
    intro f δ hδ hf
    have hU1 := hU U (by simp)
    obtain ⟨mid, m1, m2, m3⟩ := C86_apply_op R n w op U h1 hU1 state arena hs ha
    have hE := embed_unitary n U.indices hU1.nodup hU1.lt (opMat U) hU1.unitary
    have hnf := nrm_nonneg n f
    have hmid : nrm n (fun r => vals val mid r - mulVec n (embed n U.indices (opMat U)) f r) ≤
        ((1 + δ) * (1 + opErr u w) - 1) * nrm n (mulVec n (embed n U.indices (opMat U)) f) := by
      rw [nrm_mulVec n _ hE]
      have e1 : ∀ r, r < 2 ^ n → vals val mid r - mulVec n (embed n U.indices (opMat U)) f r =
          (vals val mid r - mulVec n (embed n U.indices (opMat U)) (vals val state) r) +
            mulVec n (embed n U.indices (opMat U)) (fun c => vals val state c - f c) r := by
        intro r _
        rw [mulVec_sub]; ring
      rw [nrm_congr n _ _ e1]
      refine (nrm_add_le n _ _).trans ?_
      rw [nrm_mulVec n _ hE]
      have e2 : nrm n (vals val state) ≤ (1 + δ) * nrm n f := by
        have : ∀ r, r < 2 ^ n → vals val state r = (vals val state r - f r) + f r := fun r _ => by ring
        rw [nrm_congr n _ _ this]
        refine (nrm_add_le n _ _).trans ?_
        linarith
      have := mul_le_mul_of_nonneg_left e2 hε
      nlinarith
    obtain ⟨out, rest, r1, r2, r3⟩ := ih (fun U' hU' => hU U' (by simp [hU'])) mid state m2 hs
      (mulVec n (embed n U.indices (opMat U)) f) ((1 + δ) * (1 + opErr u w) - 1) (by nlinarith) hmid
    refine ⟨out, rest, ?_, r2, ?_⟩
    · rw [runOps, List.foldlM_cons, m1]
      exact r1
    · rw [nrm_mulVec n _ hE] at r3
      refine r3.trans (le_of_eq ?_)
      simp only [List.length_cons]
      ring

/-! ### The simulator -/

theorem exactRun_congr (n : ℕ) (Vs : List (MatrixOp ℂ)) (f g : ℕ → ℂ) (hfg : ∀ c, c < 2 ^ n → f c = g c) (r : ℕ) (hr : r < 2 ^ n) :
    exactRun n Vs f r = exactRun n Vs g r := by
  induction Vs generalizing f g r with
  | nil => exact hfg r hr
  | cons V Vs ihV =>
    simp only [exactRun, List.foldl_cons]
    apply ihV _ _ _ r hr
    intro c _
    unfold mulVec
    apply sum_congr rfl
    intro d hd
    rw [hfg d (mem_range.mp hd)]

open Classical in
theorem calcFold_exact (n : ℕ) (rnds : ℕ → ℝ) (p : Pipeline) (hp : ∀ e ∈ p, SegOK n e) (Us : List (MatrixOp ℂ))
    (hU : List.Forall₂ (fun U (e : List ℕ × CObj) => ∃ g, e.2.object = .unitary g ∧ unitaryOp e.1 g = .ok U) Us p) (st : CalcState)
    (hs : st.state.length = 2 ^ n) (ha : st.arena.length = 2 ^ n) :
    ∃ st', calcFold n rnds p st = some st' ∧ st'.measurements = st.measurements ∧ st'.state.length = 2 ^ n ∧
      ∀ r, r < 2 ^ n → vals id st'.state r = exactRun n Us (vals id st.state) r := by
  induction hU generalizing st with
  | nil => exact ⟨st, rfl, rfl, hs, fun r _ => rfl⟩
  | @cons U e Us p h1 _ ih =>
    obtain ⟨g, hg, hgU⟩ := h1
    obtain ⟨⟨n1, n2, n3⟩, -, g', hg', hgp⟩ := hp e (by simp)
    obtain rfl : g' = g := by rw [hg] at hg'; injection hg' with h; exact h.symm
    obtain ⟨op, o1, o2⟩ := unitaryOp_ok e.1 g' (n3 g' hg) hgp
    obtain rfl : op = U := by rw [o1] at hgU; injection hgU
    have w1 := applyOpOverwrite_eq n op o2.wf (by rw [o2.ind]; exact n2) st.state st.arena 0 0
    have hstep : calcStep n rnds st e = 
        some ⟨st.arena.zipIdx.map (fun p => rowVal n op st.state 0 (0 + p.2)), st.state, st.measurements⟩ := by
      unfold calcStep
      rw [hg]
      cases g' with
      | GlobalPhase ρ => exact absurd rfl (hgp ρ)
      | _ => simp only [o1, w1, Option.bind_eq_bind, Option.bind_some]
    obtain ⟨st', r1, r2, r3, r4⟩ := ih (fun e' he' => hp e' (by simp [he']))
      (st := { state := st.arena.zipIdx.map (fun p => rowVal n op st.state 0 (0 + p.2)), arena := st.state, measurements := st.measurements })
      (by simpa using ha) hs
    refine ⟨st', ?_, r2, r3, ?_⟩
    · unfold calcFold at r1 ⊢
      rw [List.foldlM_cons, hstep]
      exact r1
    · intro r hr
      rw [r4 r hr]
      have e1 : ∀ c, c < 2 ^ n → vals id (st.arena.zipIdx.map (fun p => rowVal n op st.state 0 (0 + p.2))) c =
          mulVec n (embed n op.indices (opMat op)) (vals id st.state) c := by
        intro c hc
        have hc' : c < st.arena.length := by rw [ha]; exact hc
        simp only [vals, List.getElem?_map, List.getElem?_zipIdx, List.getElem?_eq_getElem hc', Option.map_some, Option.getD_some, id]
        rw [Nat.zero_add, Nat.zero_add, rowVal_embed n op (by rw [o2.ind]; exact n1) (by rw [o2.ind]; exact n2) _ _ _ hc, mulVec]
        apply sum_congr rfl
        intro d hd
        congr 1
        simp only [ampAt, Nat.not_lt_zero, if_false, Nat.sub_zero, vals]
        cases st.state[d]? <;> rfl
      rw [exactRun_congr n Us _ _ e1 r hr]
      rfl

theorem vals_initial {K : Type} [Zero K] [One K] (f : K → ℂ) (h0 : f 0 = 0) (h1 : f 1 = 1) (n i : ℕ) (r : ℕ) (hr : r < 2 ^ n) :
    vals f ((List.replicate (2 ^ n) (0 : K)).set i 1) r = if r = i then 1 else 0 := by
  unfold vals
  rw [List.getElem?_set]
  by_cases h : i = r
  · subst h; simp [hr, h1]
  · rw [if_neg h, if_neg (Ne.symm h)]
    simp [hr, h0]

theorem makeMatrixOp_inv {idx : List ℕ} {d : List ℂ} {U : MatrixOp ℂ} (h : makeMatrixOp idx d = .ok U) : U = .matrix idx d := by
  unfold makeMatrixOp at h
  simp only at h
  split at h
  · simp at h
  · split at h
    · simp at h
    · injection h with h; exact h.symm

theorem unitaryOp_distinct (idx : List ℕ) (g : UObj) (U : MatrixOp ℂ) (h : unitaryOp idx g = .ok U) : U.Distinct := by
  have one : ∀ {d : List ℂ}, makeMatrixOp idx d = .ok U → U.Distinct := by
    intro d hd
    rw [makeMatrixOp_inv hd]; trivial
  cases g with
  | GlobalPhase ρ => simp [unitaryOp] at h
  | CNOT =>
    cases idx with
    | nil => simp [unitaryOp] at h
    | cons c rest =>
      cases hm : makeMatrixOp rest ([0, 1, 1, 0] : List ℂ) with
      | error e => simp [unitaryOp, hm, bind, Except.bind] at h
      | ok V =>
        have := makeMatrixOp_inv hm
        subst this
        simp [unitaryOp, hm, bind, Except.bind, makeControlOp] at h
        subst h
        trivial
  | SWAP =>
    simp only [unitaryOp, makeSwapOp] at h
    split at h
    · simp at h
    · split at h
      · simp at h
      · split at h
        · simp at h
        · injection h with h
          subst h
          trivial
  | _ => exact one h

/-- the gates other than user matrices have at most two entries in a row -/
theorem unitaryOp_width (idx : List ℕ) (g : UObj) (hs : g.Shape idx.length) (hm : ∀ data, g ≠ .MAT data) (U : MatrixOp ℂ)
    (h : unitaryOp idx g = .ok U) : U.width ≤ 2 := by
  have one : ∀ {d : List ℂ}, idx.length = 1 → makeMatrixOp idx d = .ok U → U.width ≤ 2 := by
    intro d h1 hd
    rw [makeMatrixOp_inv hd]
    simp [MatrixOp.width, h1]
  cases g with
  | GlobalPhase ρ => simp [unitaryOp] at h
  | MAT data => exact absurd rfl (hm data)
  | CNOT =>
    match idx, hs with
    | [c, t], _ =>
      cases hm : makeMatrixOp [t] ([0, 1, 1, 0] : List ℂ) with
      | error e => simp [unitaryOp, hm, bind, Except.bind] at h
      | ok V =>
        have := makeMatrixOp_inv hm
        subst this
        simp [unitaryOp, hm, bind, Except.bind, makeControlOp] at h
        subst h
        simp [MatrixOp.width]
  | SWAP =>
    simp only [unitaryOp, makeSwapOp] at h
    split at h
    · simp at h
    · split at h
      · simp at h
      · split at h
        · simp at h
        · injection h with h
          subst h
          simp [MatrixOp.width]
  | _ => exact one hs h

open Classical in
/-- C86, the simulator. For every circuit of gates, every initial value and every arithmetic with unit roundoff `u` in which the gates are
stored with relative error `u`: the computed state is within `(1 + opErr u w)^G - 1` of the exact state, `G` being the number of gates and
`w` a bound for the number of entries in a row of a gate. -/
theorem C86_simulator (R : Rounds val u) (b : LocalBuilder) (it : List (Reg × ℕ)) (h : ∀ p ∈ it, ∀ q ∈ p.1, q < b.n)
    (hp : ∀ e ∈ b.pipeline, SegOK b.n e) (hm : UnitaryMats b.pipeline) (rnds : ℕ → ℝ) (w : ℕ) (ops : List (MatrixOp F))
    (hops : List.Forall₂ (fun op (e : List ℕ × CObj) => ∃ g U, e.2.object = .unitary g ∧ unitaryOp e.1 g = .ok U ∧
      Stores val u op U ∧ U.width ≤ w) ops b.pipeline) :
    ∃ i v out rest, initialIndex b.n it = some i ∧ b.calculateStateWithInit it rnds = some (v, []) ∧
      runOps b.n ops ((List.replicate (2 ^ b.n) 0).set i 1, List.replicate (2 ^ b.n) 0) = some (out, rest) ∧
      nrm b.n (fun r => vals val out r - vals id v r) ≤ (1 + opErr u w) ^ b.pipeline.length - 1 := by
  obtain ⟨i, i1, i2, -⟩ := initialIndex_eq b.n it h
  -- the exact ops
  obtain ⟨Us, hU1, hU2⟩ : ∃ Us : List (MatrixOp ℂ), List.Forall₂ (fun op U => Stores val u op U ∧ U.width ≤ w) ops Us ∧
      List.Forall₂ (fun U (e : List ℕ × CObj) => ∃ g, e.2.object = .unitary g ∧ unitaryOp e.1 g = .ok U) Us b.pipeline := by
    clear i1 h hp hm
    generalize b.pipeline = p at hops
    induction hops with
    | nil => exact ⟨[], .nil, .nil⟩
    | cons h1 _ ih =>
      obtain ⟨g, U, a1, a2, a3, a4⟩ := h1
      obtain ⟨Us, b1, b2⟩ := ih
      exact ⟨U :: Us, .cons ⟨a3, a4⟩ b1, .cons ⟨g, a1, a2⟩ b2⟩
  have hon : ∀ U ∈ Us, UnitaryOn b.n w U := by
    intro U hU
    obtain ⟨k, hk, rfl⟩ := List.mem_iff_getElem.mp hU
    have hk1 : k < ops.length := by rw [hU1.length_eq]; exact hk
    have hk2 : k < b.pipeline.length := by rw [← hU2.length_eq]; exact hk
    have w1 := ((List.forall₂_iff_get.mp hU1).2 k hk1 hk).2
    obtain ⟨g, g1, g2⟩ := (List.forall₂_iff_get.mp hU2).2 k hk hk2
    simp only [List.get_eq_getElem] at w1 g1 g2
    obtain ⟨⟨n1, n2, n3⟩, -, g', hg', hgp⟩ := hp _ (List.getElem_mem hk2)
    obtain rfl : g' = g := by rw [g1] at hg'; injection hg' with h; exact h.symm
    obtain ⟨op, o1, o2⟩ := unitaryOp_ok _ g' (n3 g' g1) hgp
    obtain rfl : op = Us[k] := by rw [o1] at g2; injection g2
    refine ⟨o2.wf, ?_, by rw [o2.ind]; exact n1, by rw [o2.ind]; exact n2, ?_, w1⟩
    · exact (unitaryOp_distinct _ g' _ o1)
    · rw [o2.ind]
      have := uMat_unitary rotAngle b.pipeline[k].1.length g' (n3 g' g1) (by
        rintro data rfl
        exact hm _ (List.getElem_mem hk2) data g1)
      intro r c hr hc
      rw [← this r c hr hc]
      apply sum_congr rfl
      intro s hs
      rw [o2.mat s r (mem_range.mp hs) hr, o2.mat s c (mem_range.mp hs) hc]
  have hl : ∀ {K : Type} [Zero K] [One K], ((List.replicate (2 ^ b.n) (0 : K)).set i 1).length = 2 ^ b.n := by simp
  obtain ⟨out, rest, c1, c2, c3⟩ := C86_circuit R b.n w ops Us (hU1.imp fun _ _ h => h.1) hon
    ((List.replicate (2 ^ b.n) 0).set i 1) (List.replicate (2 ^ b.n) 0) hl (by simp)
  obtain ⟨st, s1, s2, s3, s4⟩ := calcFold_exact b.n rnds b.pipeline hp Us hU2
    { state := (List.replicate (2 ^ b.n) 0).set i 1, arena := List.replicate (2 ^ b.n) 0, measurements := [] } hl (by simp)
  refine ⟨i, st.state, out, rest, i1, ?_, c1, ?_⟩
  · unfold LocalBuilder.calculateStateWithInit
    simp only [Nat.one_shiftLeft, i1, Option.bind_eq_bind, Option.bind_some, List.length_replicate]
    rw [if_pos i2, s1]
    simp [s2]
  · have e0 : nrm b.n (vals val ((List.replicate (2 ^ b.n) 0).set i 1)) = 1 := by
      unfold nrm
      rw [sum_congr rfl fun r hr => by rw [vals_initial val R.val_zero R.val_one b.n i r (mem_range.mp hr)]]
      have : ∀ r, ‖(if r = i then (1 : ℂ) else 0)‖ ^ 2 = if r = i then 1 else 0 := by
        intro r; split <;> simp
      rw [sum_congr rfl fun r _ => this r, sum_ite_eq', if_pos (mem_range.mpr i2), Real.sqrt_one]
    rw [e0, mul_one] at c3
    have hlen : ops.length = b.pipeline.length := hU1.length_eq.trans hU2.length_eq
    rw [← hlen]
    refine le_trans (le_of_eq (nrm_congr _ _ _ ?_)) c3
    intro r hr
    rw [s4 r hr]
    congr 1
    apply exactRun_congr
    · intro c hc
      rw [vals_initial id rfl rfl b.n i c hc, vals_initial val R.val_zero R.val_one b.n i c hc]
    · exact hr

/-- C86. So are the probabilities of the outcomes of any measurement: with `δ` the error of the state they differ by at most `δ (2 + δ)`. -/
theorem C86_probabilities (n : ℕ) (f g : ℕ → ℂ) (δ : ℝ) (hg : nrm n g = 1) (h : nrm n (fun r => f r - g r) ≤ δ) (S : Finset ℕ)
    (hS : S ⊆ range (2 ^ n)) : |∑ r ∈ S, ‖f r‖ ^ 2 - ∑ r ∈ S, ‖g r‖ ^ 2| ≤ δ * (2 + δ) := by
  classical
  have cut : ∀ k : ℕ → ℂ, nrm n (fun r => if r ∈ S then k r else 0) ^ 2 = ∑ r ∈ S, ‖k r‖ ^ 2 := by
    intro k
    rw [nrm_sq, ← sum_subset hS]
    · exact sum_congr rfl fun r hr => by rw [if_pos hr]
    · intro r _ hr
      rw [if_neg hr]; simp
  have cut_le : ∀ k : ℕ → ℂ, nrm n (fun r => if r ∈ S then k r else 0) ≤ nrm n k := by
    intro k
    apply Real.sqrt_le_sqrt
    apply sum_le_sum
    intro r _
    show ‖if r ∈ S then k r else 0‖ ^ 2 ≤ _
    split
    · exact le_rfl
    · simp
  rw [← cut, ← cut]
  set A := nrm n (fun r => if r ∈ S then f r else 0)
  set B := nrm n (fun r => if r ∈ S then g r else 0)
  have hd := (cut_le (fun r => f r - g r)).trans h
  have h1 : A ≤ B + δ := by
    have : ∀ r, r < 2 ^ n → (if r ∈ S then f r else 0) = (if r ∈ S then g r else 0) + (if r ∈ S then f r - g r else 0) := by
      intro r _; split <;> simp
    have e := nrm_congr n _ _ this
    have := nrm_add_le n (fun r => if r ∈ S then g r else 0) (fun r => if r ∈ S then f r - g r else 0)
    rw [← e] at this
    linarith
  have h2 : B ≤ A + δ := by
    have : ∀ r, r < 2 ^ n → (if r ∈ S then g r else 0) = (if r ∈ S then f r else 0) + (if r ∈ S then (g r - f r) else 0) := by
      intro r _; split <;> simp
    have e := nrm_congr n _ _ this
    have h3 := nrm_add_le n (fun r => if r ∈ S then f r else 0) (fun r => if r ∈ S then (g r - f r) else 0)
    rw [← e] at h3
    have e4 : nrm n (fun r => if r ∈ S then (g r - f r) else 0) = nrm n (fun r => if r ∈ S then (f r - g r) else 0) := by
      unfold nrm
      congr 1
      apply sum_congr rfl
      intro r _
      show ‖if r ∈ S then g r - f r else 0‖ ^ 2 = ‖if r ∈ S then f r - g r else 0‖ ^ 2
      split
      · rw [norm_sub_rev]
      · rfl
    linarith
  have hB : B ≤ 1 := hg ▸ cut_le g
  have hA0 : 0 ≤ A := nrm_nonneg _ _
  have hB0 : 0 ≤ B := nrm_nonneg _ _
  have hδ : 0 ≤ δ := (nrm_nonneg n _).trans h
  rw [abs_le]
  constructor <;> nlinarith

open Classical in
/-- C86, circuits without user matrices, in binary floating point arithmetic with `p ≥ 2` digits and any rounding to nearest (binary64:
`p = 53`; no overflow, no underflow): the error of the state after `G` gates. -/
theorem C86_binary {p : ℕ} {fl : ℝ → ℝ} (B : BinOps p fl) (b : LocalBuilder) (it : List (Reg × ℕ)) (h : ∀ p ∈ it, ∀ q ∈ p.1, q < b.n)
    (hp : ∀ e ∈ b.pipeline, SegOK b.n e) (hm : ∀ e ∈ b.pipeline, ∀ data, e.2.object ≠ .unitary (.MAT data)) (rnds : ℕ → ℝ)
    (ops : List (MatrixOp B.Num))
    (hops : List.Forall₂ (fun op (e : List ℕ × CObj) => ∃ g U, e.2.object = .unitary g ∧ unitaryOp e.1 g = .ok U ∧
      Stores B.val (binErr p) op U) ops b.pipeline) :
    ∃ i v out rest, initialIndex b.n it = some i ∧ b.calculateStateWithInit it rnds = some (v, []) ∧
      runOps b.n ops ((List.replicate (2 ^ b.n) 0).set i 1, List.replicate (2 ^ b.n) 0) = some (out, rest) ∧
      nrm b.n (fun r => vals B.val out r - vals id v r) ≤
        (1 + ((1 + binErr p) ^ 3 - 1) * Real.sqrt 2) ^ b.pipeline.length - 1 := by
  have := C86_simulator B.rounds b it h hp (fun e he data hd => absurd hd (hm e he data)) rnds 2 ops (by
    rw [List.forall₂_iff_get] at hops ⊢
    refine ⟨hops.1, fun k h1 h2 => ?_⟩
    obtain ⟨g, U, a1, a2, a3⟩ := hops.2 k h1 h2
    have hmem : b.pipeline.get ⟨k, h2⟩ ∈ b.pipeline := List.get_mem _ _
    refine ⟨g, U, a1, a2, a3, unitaryOp_width _ g ((hp _ hmem).1.2.2 g a1) ?_ U a2⟩
    rintro data rfl
    exact hm _ hmem data a1)
  simpa [opErr] using this

/-- the number stored for `z`: both parts rounded -/
def BinOps.store {p : ℕ} {fl : ℝ → ℝ} (B : BinOps p fl) (z : ℂ) : B.Num := ⟨⟨fl z.re, fl z.im⟩, B.near.binary _, B.near.binary _⟩

theorem store_near {p : ℕ} {fl : ℝ → ℝ} (B : BinOps p fl) (z : ℂ) : Near B.val (binErr p) (BinOps.store B z) z := by
  have h := fun x => B.near.err (by have := B.hp; omega) x
  have hd : (0 : ℝ) ≤ (2 : ℝ)⁻¹ ^ p := by positivity
  show ‖(⟨fl z.re, fl z.im⟩ : ℂ) - z‖ ≤ _
  have : ‖(⟨fl z.re, fl z.im⟩ : ℂ) - z‖ ≤ Real.sqrt 2 * ((2 : ℝ)⁻¹ ^ p * ‖z‖) := by
    apply norm_le_of_parts _ _ (by positivity)
    · exact (h z.re).trans (mul_le_mul_of_nonneg_left (Complex.abs_re_le_norm z) hd)
    · exact (h z.im).trans (mul_le_mul_of_nonneg_left (Complex.abs_im_le_norm z) hd)
  refine this.trans ?_
  rw [binErr, mul_assoc]
  refine mul_le_mul_of_nonneg_left (mul_le_mul_of_nonneg_right ?_ (norm_nonneg z)) (Real.sqrt_nonneg 2)
  nlinarith [sq_nonneg ((2 : ℝ)⁻¹ ^ p)]

/-- instance: a Hadamard gate on qubit 1, then a CNOT to qubit 0, with entries rounded to 53 digits -/
example {fl : ℝ → ℝ} (B : BinOps 53 fl) (h : ℂ) :
    (∀ e ∈ ([([1], ⟨1, .unitary .H⟩), ([1, 0], ⟨2, .unitary .CNOT⟩)] : Pipeline), SegOK 2 e ∧ ∀ data, e.2.object ≠ .unitary (.MAT data)) ∧
    Stores B.val (binErr 53) (.matrix [1] [BinOps.store B h, BinOps.store B h, BinOps.store B h, BinOps.store B (-h)])
      (.matrix [1] [h, h, h, -h]) ∧
    Stores B.val (binErr 53) (.control 1 [1, 0] (.matrix [0] [BinOps.store B 0, BinOps.store B 1, BinOps.store B 1, BinOps.store B 0]))
      (.control 1 [1, 0] (.matrix [0] [0, 1, 1, 0])) := by
  refine ⟨?_, ?_, ?_⟩
  · intro e he
    simp at he
    rcases he with rfl | rfl
    · exact ⟨⟨⟨by simp, by simp, fun u hu => by cases hu; rfl⟩, rfl, _, rfl, by simp⟩, by simp⟩
    · exact ⟨⟨⟨by simp, by simp, fun u hu => by cases hu; rfl⟩, rfl, _, rfl, by simp⟩, by simp⟩
  · exact .matrix _ _ _ (by simp [store_near])
  · exact .control _ _ _ _ (.matrix _ _ _ (by simp [store_near]))

/-- instance: a unitary op with one entry in a row -/
example : UnitaryOn 3 1 (.swap 1 [2, 0]) :=
  ⟨by simp [MatrixOp.WF], trivial, by simp [indices], by simp [indices], by
    have := swap_unitary (K := ℂ) 1 [2, 0]
    simpa [indices] using this, by simp [MatrixOp.width]⟩

/-- instance: an error of a hundredth in one of two amplitudes -/
example : nrm 1 (fun r => if r = 0 then 1 else 0) = 1 ∧
    nrm 1 (fun r => (if r = 0 then 101 / 100 else 0) - if r = 0 then 1 else 0) ≤ 1 / 100 := by
  constructor
  · simp [nrm, sum_range_succ]
  · simp only [nrm, pow_one, sum_range_succ, sum_range_zero, if_true, zero_add, one_ne_zero, if_false, sub_self, norm_zero]
    rw [Real.sqrt_le_left (by norm_num)]
    norm_num

end
end Verif.Props
