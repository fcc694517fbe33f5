import Verif.Proofs.IeeeErr
import Verif.Proofs.Ieee
import Verif.Props.Float

/-!
# Property C87: the simulator in floating point arithmetic with limited exponents

Gradual underflow, infinities and NaN included: no infinity and no NaN turns up, and the error is bounded.
-/

namespace Verif.Props
open Verif MatrixOp Finset

theorem norm_le_nrm (n : ℕ) (f : ℕ → ℂ) (r : ℕ) (hr : r < 2 ^ n) : ‖f r‖ ≤ nrm n f := by
  unfold nrm
  apply Real.le_sqrt_of_sq_le
  exact single_le_sum (f := fun r => ‖f r‖ ^ 2) (fun _ _ => sq_nonneg _) (mem_range.mpr hr)

section
variable {F : Type} [Zero F] [One F] [Add F] [Mul F] [DecidableEq F] {fin : F → Prop} {val : F → ℂ} {u η M : ℝ}

/-- C87, one op on a finite state whose amplitudes have size at most 2: the result is finite, and its error is bounded. -/
theorem C87_apply_op (R : Limits fin val u η M) (n w : ℕ) (hM : 8 * w * (1 + u) ^ (w + 2) ≤ M) (op : MatrixOp F) (U : MatrixOp ℂ)
    (h : StoresIn fin val u η op U) (hU : UnitaryOn n w U) (input output : List F) (hi : input.length = 2 ^ n)
    (ho : output.length = 2 ^ n) (hx : ∀ a ∈ input, fin a ∧ ‖val a‖ ≤ 2) :
    ∃ out, applyOpOverwrite n op input output 0 0 = some out ∧ out.length = 2 ^ n ∧ (∀ a ∈ out, fin a) ∧
      nrm n (fun r => vals val out r - mulVec n (embed n U.indices (opMat U)) (vals val input) r) ≤
        ((1 + u) ^ (w + 2) - 1) * Real.sqrt w * nrm n (vals val input) + Real.sqrt (2 ^ n) * ((1 + u) ^ w * (w * (6 * η))) := by
  have hu := R.u_nonneg
  have hη := R.η_nonneg
  have hw : 1 ≤ w := (width_pos U).trans hU.width
  have hw' : (1 : ℝ) ≤ w := by exact_mod_cast hw
  have hp : (1 : ℝ) ≤ (1 + u) ^ w := one_le_pow₀ (by linarith)
  have hp2 : (1 + u) ^ w ≤ (1 + u) ^ (w + 2) := pow_le_pow_right₀ (by linarith) (by omega)
  have hM6 : 3 * (2 : ℝ) ≤ M := by nlinarith
  have hM1 : (1 + u) ^ (w + 2) * (w * 2) + (1 + u) ^ w * (w * (2 * η * (1 + 2))) ≤ M := by
    refine le_trans ?_ hM
    have a1 : (1 + u) ^ w * (w * (2 * η * (1 + 2))) ≤ (1 + u) ^ (w + 2) * (w * 6) := by
      apply mul_le_mul hp2 _ (by positivity) (by positivity)
      apply mul_le_mul_of_nonneg_left _ (by positivity)
      linarith [R.η_le_one]
    linarith
  obtain ⟨k1, k2⟩ := step_errL R n h hU input hi hx (by norm_num : (0 : ℝ) ≤ 2) hM1 hM6
  refine ⟨_, applyOpOverwrite_any n op (h.wf hU.wf) (by rw [h.indices]; exact hU.lt) input output hi ho, by simp, ?_, ?_⟩
  · intro a ha
    rw [List.mem_map] at ha
    obtain ⟨r, hr, rfl⟩ := ha
    exact k1 r (List.mem_range.mp hr)
  · have e : 2 * η * (1 + 2) = 6 * η := by ring
    rw [e] at k2
    refine le_trans (le_of_eq (nrm_congr _ _ _ ?_)) k2
    intro r hr
    simp [vals, List.getElem?_range hr]

/-- C87, a circuit. Starting from a finite state of length 1, as long as the bound for the error stays below 1: everything stays finite,
and after `G` ops the computed state is within `(1 + stepErr u η n w)^G - 1` of the exact one. -/
theorem C87_circuit (R : Limits fin val u η M) (n w : ℕ) (hM : 8 * w * (1 + u) ^ (w + 2) ≤ M) (ops : List (MatrixOp F))
    (Us : List (MatrixOp ℂ)) (h : List.Forall₂ (StoresIn fin val u η) ops Us) (hU : ∀ U ∈ Us, UnitaryOn n w U) (state arena : List F)
    (hs : state.length = 2 ^ n) (ha : arena.length = 2 ^ n) (hf : ∀ a ∈ state, fin a) (h1 : nrm n (vals val state) = 1)
    (hG : (1 + stepErr u η n w) ^ ops.length ≤ 2) :
    ∃ out rest, runOps n ops (state, arena) = some (out, rest) ∧ out.length = 2 ^ n ∧ (∀ a ∈ out, fin a) ∧
      nrm n (fun r => vals val out r - exactRun n Us (vals val state) r) ≤ (1 + stepErr u η n w) ^ ops.length - 1 := by
  have hu := R.u_nonneg
  have hη := R.η_nonneg
  have hp0 : (1 : ℝ) ≤ (1 + u) ^ (w + 2) := one_le_pow₀ (by linarith)
  have hε : 0 ≤ ((1 + u) ^ (w + 2) - 1) * Real.sqrt w := mul_nonneg (by linarith) (Real.sqrt_nonneg _)
  have hτ : 0 ≤ Real.sqrt (2 ^ n) * ((1 + u) ^ w * (w * (6 * η))) := by positivity
  have hσ : stepErr u η n w = ((1 + u) ^ (w + 2) - 1) * Real.sqrt w + Real.sqrt (2 ^ n) * ((1 + u) ^ w * (w * (6 * η))) := rfl
  have hσ0 : 0 ≤ stepErr u η n w := by rw [hσ]; linarith
  suffices key : ∀ (f : ℕ → ℂ) (δ : ℝ), nrm n f = 1 → 0 ≤ δ → nrm n (fun r => vals val state r - f r) ≤ δ →
      (1 + δ) * (1 + stepErr u η n w) ^ ops.length ≤ 2 →
      ∃ out rest, runOps n ops (state, arena) = some (out, rest) ∧ out.length = 2 ^ n ∧ (∀ a ∈ out, fin a) ∧
        nrm n (fun r => vals val out r - exactRun n Us f r) ≤ (1 + δ) * (1 + stepErr u η n w) ^ ops.length - 1 by
    obtain ⟨out, rest, k1, k2, k3, k4⟩ := key (vals val state) 0 h1 le_rfl (by
      rw [nrm_congr n _ (fun _ => 0) (fun r _ => sub_self _)]
      simp [nrm]) (by simpa using hG)
    exact ⟨out, rest, k1, k2, k3, by simpa using k4⟩
  clear hG h1
  induction h generalizing state arena with
  | nil =>
    intro f δ _ hδ hfd _
    exact ⟨state, arena, rfl, hs, hf, by simpa [exactRun] using hfd⟩
  | @cons op U ops Us hst _ ih =>
    intro f δ hf1 hδ hfd hG
    have hU1 := hU U (by simp)
    rw [List.length_cons, pow_succ'] at hG
    have hpow : (1 : ℝ) ≤ (1 + stepErr u η n w) ^ ops.length := one_le_pow₀ (by linarith)
    have hstate : nrm n (vals val state) ≤ 1 + δ := by
      have : ∀ r, r < 2 ^ n → vals val state r = (vals val state r - f r) + f r := fun r _ => by ring
      rw [nrm_congr n _ _ this]
      refine (nrm_add_le n _ _).trans ?_
      linarith
    have h2 : 1 + δ ≤ 2 := by
      have : 1 + δ ≤ (1 + δ) * ((1 + stepErr u η n w) * (1 + stepErr u η n w) ^ ops.length) :=
        le_mul_of_one_le_right (by linarith) (by nlinarith)
      linarith
    have hx : ∀ a ∈ state, fin a ∧ ‖val a‖ ≤ 2 := by
      intro a haa
      refine ⟨hf a haa, ?_⟩
      obtain ⟨r, hr, rfl⟩ := List.mem_iff_getElem.mp haa
      have := norm_le_nrm n (vals val state) r (by omega)
      have e : vals val state r = val state[r] := by simp [vals, hr]
      rw [e] at this
      linarith
    obtain ⟨mid, m1, m2, m3, m4⟩ := C87_apply_op R n w hM op U hst hU1 state arena hs ha hx
    have hE := embed_unitary n U.indices hU1.nodup hU1.lt (opMat U) hU1.unitary
    have hmid : nrm n (fun r => vals val mid r - mulVec n (embed n U.indices (opMat U)) f r) ≤ (1 + δ) * (1 + stepErr u η n w) - 1 := by
      have e1 : ∀ r, r < 2 ^ n → vals val mid r - mulVec n (embed n U.indices (opMat U)) f r =
          (vals val mid r - mulVec n (embed n U.indices (opMat U)) (vals val state) r) +
            mulVec n (embed n U.indices (opMat U)) (fun c => vals val state c - f c) r := by
        intro r _
        rw [mulVec_sub]; ring
      rw [nrm_congr n _ _ e1]
      refine (nrm_add_le n _ _).trans ?_
      rw [nrm_mulVec n _ hE, hσ]
      have := mul_le_mul_of_nonneg_left hstate hε
      nlinarith
    obtain ⟨out, rest, r1, r2, r3, r4⟩ := ih (fun U' hU' => hU U' (by simp [hU'])) mid state m2 hs m3
      (mulVec n (embed n U.indices (opMat U)) f) ((1 + δ) * (1 + stepErr u η n w) - 1) (by rw [nrm_mulVec n _ hE, hf1])
      (by nlinarith) hmid (by refine le_of_eq_of_le (by ring) hG)
    refine ⟨out, rest, ?_, r2, r3, ?_⟩
    · rw [runOps, List.foldlM_cons, m1]
      exact r1
    · refine r4.trans (le_of_eq ?_)
      simp only [List.length_cons]
      ring

open Classical in
/-- C87, the simulator, for every circuit of gates and every initial value. -/
theorem C87_simulator (R : Limits fin val u η M) (b : LocalBuilder) (it : List (Reg × ℕ)) (h : ∀ p ∈ it, ∀ q ∈ p.1, q < b.n)
    (hp : ∀ e ∈ b.pipeline, SegOK b.n e) (hm : UnitaryMats b.pipeline) (rnds : ℕ → ℝ) (w : ℕ) (hM : 8 * w * (1 + u) ^ (w + 2) ≤ M)
    (ops : List (MatrixOp F)) (hops : List.Forall₂ (fun op (e : List ℕ × CObj) => ∃ g U, e.2.object = .unitary g ∧
      unitaryOp e.1 g = .ok U ∧ StoresIn fin val u η op U ∧ U.width ≤ w) ops b.pipeline)
    (hG : (1 + stepErr u η b.n w) ^ b.pipeline.length ≤ 2) :
    ∃ i v out rest, initialIndex b.n it = some i ∧ b.calculateStateWithInit it rnds = some (v, []) ∧
      runOps b.n ops ((List.replicate (2 ^ b.n) 0).set i 1, List.replicate (2 ^ b.n) 0) = some (out, rest) ∧ (∀ a ∈ out, fin a) ∧
      nrm b.n (fun r => vals val out r - vals id v r) ≤ (1 + stepErr u η b.n w) ^ b.pipeline.length - 1 := by
  obtain ⟨i, i1, i2, -⟩ := initialIndex_eq b.n it h
  obtain ⟨Us, hU1, hU2⟩ : ∃ Us : List (MatrixOp ℂ), List.Forall₂ (fun op U => StoresIn fin val u η op U ∧ U.width ≤ w) ops Us ∧
      List.Forall₂ (fun U (e : List ℕ × CObj) => ∃ g, e.2.object = .unitary g ∧ unitaryOp e.1 g = .ok U) Us b.pipeline := by
    clear i1 h hp hm hG
    generalize b.pipeline = p at hops
    induction hops with
    | nil => exact ⟨[], .nil, .nil⟩
    | cons h1 _ ih =>
      obtain ⟨g, U, a1, a2, a3, a4⟩ := h1
      obtain ⟨Us, b1, b2⟩ := ih
      exact ⟨U :: Us, .cons ⟨a3, a4⟩ b1, .cons ⟨g, a1, a2⟩ b2⟩
  have hon : ∀ U ∈ Us, UnitaryOn b.n w U := by
    intro U hU
    obtain ⟨k, hk, rfl⟩ := List.mem_iff_getElem.mp hU
    have hk1 : k < ops.length := by rw [hU1.length_eq]; exact hk
    have hk2 : k < b.pipeline.length := by rw [← hU2.length_eq]; exact hk
    have w1 := ((List.forall₂_iff_get.mp hU1).2 k hk1 hk).2
    obtain ⟨g, g1, g2⟩ := (List.forall₂_iff_get.mp hU2).2 k hk hk2
    simp only [List.get_eq_getElem] at w1 g1 g2
    obtain ⟨⟨n1, n2, n3⟩, -, g', hg', hgp⟩ := hp _ (List.getElem_mem hk2)
    obtain rfl : g' = g := by rw [g1] at hg'; injection hg' with h; exact h.symm
    obtain ⟨op, o1, o2⟩ := unitaryOp_ok _ g' (n3 g' g1) hgp
    obtain rfl : op = Us[k] := by rw [o1] at g2; injection g2
    refine ⟨o2.wf, ?_, by rw [o2.ind]; exact n1, by rw [o2.ind]; exact n2, ?_, w1⟩
    · exact (unitaryOp_distinct _ g' _ o1)
    · rw [o2.ind]
      have := uMat_unitary rotAngle b.pipeline[k].1.length g' (n3 g' g1) (by
        rintro data rfl
        exact hm _ (List.getElem_mem hk2) data g1)
      intro r c hr hc
      rw [← this r c hr hc]
      apply sum_congr rfl
      intro s hs
      rw [o2.mat s r (mem_range.mp hs) hr, o2.mat s c (mem_range.mp hs) hc]
  have hl : ∀ {K : Type} [Zero K] [One K], ((List.replicate (2 ^ b.n) (0 : K)).set i 1).length = 2 ^ b.n := by simp
  have hlen : ops.length = b.pipeline.length := hU1.length_eq.trans hU2.length_eq
  have e0 : nrm b.n (vals val ((List.replicate (2 ^ b.n) 0).set i 1)) = 1 := by
    unfold nrm
    rw [sum_congr rfl fun r hr => by rw [vals_initial val R.val_zero R.val_one b.n i r (mem_range.mp hr)]]
    have : ∀ r, ‖(if r = i then (1 : ℂ) else 0)‖ ^ 2 = if r = i then 1 else 0 := by
      intro r; split <;> simp
    rw [sum_congr rfl fun r _ => this r, sum_ite_eq', if_pos (mem_range.mpr i2), Real.sqrt_one]
  have hfin : ∀ a ∈ (List.replicate (2 ^ b.n) (0 : F)).set i 1, fin a := by
    intro a ha
    rcases List.mem_or_eq_of_mem_set ha with ha | rfl
    · rw [List.mem_replicate] at ha
      rw [ha.2]; exact R.fin_zero
    · exact R.fin_one
  obtain ⟨out, rest, c1, c2, c4, c3⟩ := C87_circuit R b.n w hM ops Us (hU1.imp fun _ _ h => h.1) hon
    ((List.replicate (2 ^ b.n) 0).set i 1) (List.replicate (2 ^ b.n) 0) hl (by simp) hfin e0 (by rw [hlen]; exact hG)
  obtain ⟨st, s1, s2, s3, s4⟩ := calcFold_exact b.n rnds b.pipeline hp Us hU2
    { state := (List.replicate (2 ^ b.n) 0).set i 1, arena := List.replicate (2 ^ b.n) 0, measurements := [] } hl (by simp)
  refine ⟨i, st.state, out, rest, i1, ?_, c1, c4, ?_⟩
  · unfold LocalBuilder.calculateStateWithInit
    simp only [Nat.one_shiftLeft, i1, Option.bind_eq_bind, Option.bind_some, List.length_replicate]
    rw [if_pos i2, s1]
    simp [s2]
  · rw [← hlen]
    refine le_trans (le_of_eq (nrm_congr _ _ _ ?_)) c3
    intro r hr
    rw [s4 r hr]
    congr 1
    apply exactRun_congr
    · intro c hc
      rw [vals_initial id rfl rfl b.n i c hc, vals_initial val R.val_zero R.val_one b.n i c hc]
    · exact hr

end

/-! ### binary formats -/

theorem pow_le_linear (s : ℝ) (hs : 0 ≤ s) (G : ℕ) (h : G * s ≤ 1 / 2) : (1 + s) ^ G ≤ 1 + 2 * (G * s) := by
  have hs1 : G = 0 ∨ s ≤ 1 / 2 := by
    rcases Nat.eq_zero_or_pos G with h0 | h0
    · exact .inl h0
    · right
      have : (1 : ℝ) ≤ G := by exact_mod_cast h0
      nlinarith
  rcases hs1 with rfl | hs1
  · simp
  have h1 : 1 - G * s ≤ (1 - s) ^ G := by
    have := one_add_mul_le_pow (a := -s) (by linarith) G
    have e : (1 : ℝ) + -s = 1 - s := by ring
    rw [e] at this
    linarith
  have h2 : (1 + s) ^ G * (1 - s) ^ G ≤ 1 := by
    rw [← mul_pow]
    apply pow_le_one₀ <;> nlinarith
  have h3 : (0 : ℝ) < (1 + s) ^ G := by positivity
  have h4 : (1 + s) ^ G * (1 - G * s) ≤ 1 := (mul_le_mul_of_nonneg_left h1 h3.le).trans h2
  have h5 : (0 : ℝ) ≤ G * s := by positivity
  nlinarith

theorem rel_bounds (f : Format) (hp : 10 ≤ f.p) : 0 ≤ f.relErr ∧ f.relErr ≤ 3002 / 1000 * (2 : ℝ)⁻¹ ^ f.p ∧ (2 : ℝ)⁻¹ ^ f.p ≤ 1 / 1024 := by
  have h := Format.Arith.sqrt_two_lt
  have h0 := Real.sqrt_nonneg 2
  have hd : (2 : ℝ)⁻¹ ^ f.p ≤ (2 : ℝ)⁻¹ ^ 10 := pow_le_pow_of_le_one (by norm_num) (by norm_num) hp
  have hd' : (2 : ℝ)⁻¹ ^ 10 = 1 / 1024 := by norm_num
  rw [hd'] at hd
  have hd0 : (0 : ℝ) < (2 : ℝ)⁻¹ ^ f.p := by positivity
  have e : f.relErr = Real.sqrt 2 * (2 * (2 : ℝ)⁻¹ ^ f.p + ((2 : ℝ)⁻¹ ^ f.p) ^ 2) := rfl
  rw [e]
  generalize (2 : ℝ)⁻¹ ^ f.p = d at hd hd0 ⊢
  have h1 : 2 * d + d ^ 2 ≤ 2001 / 1000 * d := by nlinarith
  have h2 : 0 ≤ 2 * d + d ^ 2 := by positivity
  refine ⟨mul_nonneg h0 h2, ?_, hd⟩
  refine (mul_le_mul h.le h1 h2 (by norm_num)).trans ?_
  linarith

/-- the error of one gate with two entries in a row -/
theorem gate_step (f : Format) (hp : 10 ≤ f.p) (n : ℕ) (hn : n + 2 * f.emin + 2 * f.p + 14 ≤ 0) :
    stepErr f.relErr f.absErr n 2 ≤ 32 * (2 : ℝ)⁻¹ ^ f.p := by
  obtain ⟨hu0, hu, hd⟩ := rel_bounds f hp
  have hd0 : (0 : ℝ) < (2 : ℝ)⁻¹ ^ f.p := by positivity
  have h2 := Format.Arith.sqrt_two_lt
  have a3 : Real.sqrt (2 ^ n) * (2 : ℝ) ^ (f.emin + 7) ≤ (2 : ℝ)⁻¹ ^ f.p := by
    have e : (2 : ℝ)⁻¹ ^ f.p = (2 : ℝ) ^ (-(f.p : ℤ)) := by rw [inv_pow, zpow_neg, zpow_natCast]
    rw [e, ← le_div_iff₀ (by positivity), Real.sqrt_le_left (by positivity), div_pow, ← zpow_natCast, ← zpow_natCast, ← zpow_natCast,
      ← zpow_mul, ← zpow_mul, ← zpow_sub₀ (by norm_num)]
    apply zpow_le_zpow_right₀ (by norm_num)
    push_cast
    linarith
  have e7 : (2 : ℝ) ^ (f.emin + 7) = 128 * (2 : ℝ) ^ f.emin := by
    rw [zpow_add₀ (by norm_num)]; norm_num; ring
  rw [e7] at a3
  have hm : (0 : ℝ) < (2 : ℝ) ^ f.emin := by positivity
  have hs := Real.sqrt_nonneg (2 ^ n)
  unfold stepErr Format.absErr
  set u := f.relErr
  generalize (2 : ℝ)⁻¹ ^ f.p = d at *
  have hus : u ≤ 3002 / 1000 * (1 / 1024) := by linarith
  have a1 : (1 + u) ^ (2 + 2) - 1 ≤ 4 * u + 7 * (u * u) := by
    have e : (1 + u) ^ (2 + 2) - 1 = 4 * u + u * u * (6 + 4 * u + u * u) := by ring
    rw [e]
    have b2 : 6 + 4 * u + u * u ≤ 7 := by nlinarith
    nlinarith [mul_nonneg hu0 hu0]
  have a0 : 0 ≤ 4 * u + 7 * (u * u) := by positivity
  have a2 : 4 * u + 7 * (u * u) ≤ 13 * d := by nlinarith
  have a5 : ((1 + u) ^ (2 + 2) - 1) * Real.sqrt (2 : ℕ) ≤ 13 * d * (3 / 2) := by
    refine mul_le_mul (a1.trans a2) (by push_cast; exact h2.le) (Real.sqrt_nonneg _) (by positivity)
  have a4 : (1 + u) ^ 2 ≤ 3 / 2 := by nlinarith
  have a6 : Real.sqrt (2 ^ n) * ((1 + u) ^ 2 * ((2 : ℕ) * (6 * (6 * (2 : ℝ) ^ f.emin)))) ≤ Real.sqrt (2 ^ n) * (128 * (2 : ℝ) ^ f.emin) := by
    apply mul_le_mul_of_nonneg_left _ hs
    push_cast
    nlinarith
  refine (add_le_add a5 (a6.trans a3)).trans ?_
  linarith

open Classical in
/-- C87 for the gates other than user matrices, whose rows have at most two entries. For every format with at least 10 digits, every rounding
to nearest, every circuit of at most `2^(p-6)` such gates, and a number of qubits that the range of exponents allows: the computed state has
no infinity and no NaN, and it differs from the exact one by at most `2^(6-p)` for every gate. -/
theorem C87_gates {f : Format} {fl : ℝ → ℝ} (A : f.Arith fl) (hf : 10 ≤ f.p) (b : LocalBuilder) (it : List (Reg × ℕ))
    (h : ∀ p ∈ it, ∀ q ∈ p.1, q < b.n) (hn : b.n + 2 * f.emin + 2 * f.p + 14 ≤ 0) (hp : ∀ e ∈ b.pipeline, SegOK b.n e)
    (hm : ∀ e ∈ b.pipeline, ∀ data, e.2.object ≠ .unitary (.MAT data)) (hl : b.pipeline.length * (64 * (2 : ℝ)⁻¹ ^ f.p) ≤ 1) (rnds : ℕ → ℝ)
    (ops : List (MatrixOp A.Num)) (hops : List.Forall₂ (fun op (e : List ℕ × CObj) => ∃ g U, e.2.object = .unitary g ∧
      unitaryOp e.1 g = .ok U ∧ StoresIn A.fin A.val f.relErr f.absErr op U) ops b.pipeline) :
    ∃ i v out rest, initialIndex b.n it = some i ∧ b.calculateStateWithInit it rnds = some (v, []) ∧
      runOps b.n ops ((List.replicate (2 ^ b.n) 0).set i 1, List.replicate (2 ^ b.n) 0) = some (out, rest) ∧ (∀ a ∈ out, A.fin a) ∧
      nrm b.n (fun r => vals A.val out r - vals id v r) ≤ b.pipeline.length * (64 * (2 : ℝ)⁻¹ ^ f.p) := by
  have R := A.limits (by omega)
  have hs := gate_step f hf b.n hn
  have hu0 := R.u_nonneg
  have hη0 := R.η_nonneg
  have hs0 : 0 ≤ stepErr f.relErr f.absErr b.n 2 := by
    unfold stepErr
    have : (1 : ℝ) ≤ (1 + f.relErr) ^ (2 + 2) := one_le_pow₀ (by linarith)
    have := mul_nonneg (by linarith : (0 : ℝ) ≤ (1 + f.relErr) ^ (2 + 2) - 1) (Real.sqrt_nonneg ((2 : ℕ) : ℝ))
    positivity
  have hGs : (b.pipeline.length : ℝ) * stepErr f.relErr f.absErr b.n 2 ≤ b.pipeline.length * (32 * (2 : ℝ)⁻¹ ^ f.p) :=
    mul_le_mul_of_nonneg_left hs (Nat.cast_nonneg _)
  have e64 : (b.pipeline.length : ℝ) * (64 * (2 : ℝ)⁻¹ ^ f.p) = 2 * (b.pipeline.length * (32 * (2 : ℝ)⁻¹ ^ f.p)) := by ring
  have hpow := pow_le_linear _ hs0 b.pipeline.length (by linarith)
  have hM : 8 * ((2 : ℕ) : ℝ) * (1 + f.relErr) ^ (2 + 2) ≤ f.top / 4 := by
    obtain ⟨-, b1, b2⟩ := rel_bounds f hf
    have h0 : 1 + f.relErr ≤ 101 / 100 := by linarith
    have h1 : (1 + f.relErr) ^ (2 + 2) ≤ (101 / 100) ^ (2 + 2) := pow_le_pow_left₀ (by linarith) h0 _
    have h2 : (2 : ℝ) ^ (1 : ℤ) ≤ 2 ^ f.emax := zpow_le_zpow_right₀ (by norm_num) A.hi
    have h3 : (2 : ℝ) ^ 10 ≤ 2 ^ f.p := pow_le_pow_right₀ (by norm_num) hf
    have h4 : ((2 : ℝ) ^ 10 - 1) * (2 : ℝ) ^ (1 : ℤ) ≤ (2 ^ f.p - 1) * (2 : ℝ) ^ f.emax :=
      mul_le_mul (by linarith) h2 (by positivity) (by linarith [(by norm_num : (1 : ℝ) ≤ 2 ^ 10)])
    have h5 : f.top = (2 ^ f.p - 1) * (2 : ℝ) ^ f.emax := rfl
    rw [h5]
    push_cast
    have h6 : ((2 : ℝ) ^ 10 - 1) * (2 : ℝ) ^ (1 : ℤ) = 2046 := by norm_num
    rw [h6] at h4
    have h7 : ((101 : ℝ) / 100) ^ (2 + 2) ≤ 2 := by norm_num
    linarith
  obtain ⟨i, v, out, rest, r1, r2, r3, r4, r5⟩ := C87_simulator R b it h hp (fun e he data hd => absurd hd (hm e he data)) rnds 2 hM ops (by
    rw [List.forall₂_iff_get] at hops ⊢
    refine ⟨hops.1, fun k h1 h2 => ?_⟩
    obtain ⟨g, U, a1, a2, a3⟩ := hops.2 k h1 h2
    have hmem : b.pipeline.get ⟨k, h2⟩ ∈ b.pipeline := List.get_mem _ _
    refine ⟨g, U, a1, a2, a3, unitaryOp_width _ g ((hp _ hmem).1.2.2 g a1) ?_ U a2⟩
    rintro data rfl
    exact hm _ hmem data a1) (by linarith)
  exact ⟨i, v, out, rest, r1, r2, r3, r4, r5.trans (by linarith)⟩

open Classical in
/-- C87 for `f64`: up to 2000 qubits and `2^47` gates, at most `2^-47` for every gate -/
theorem C87_binary64 {fl : ℝ → ℝ} (A : binary64.Arith fl) (b : LocalBuilder) (it : List (Reg × ℕ)) (h : ∀ p ∈ it, ∀ q ∈ p.1, q < b.n)
    (hn : b.n ≤ 2000) (hp : ∀ e ∈ b.pipeline, SegOK b.n e) (hm : ∀ e ∈ b.pipeline, ∀ data, e.2.object ≠ .unitary (.MAT data))
    (hl : b.pipeline.length ≤ 2 ^ 47) (rnds : ℕ → ℝ) (ops : List (MatrixOp A.Num))
    (hops : List.Forall₂ (fun op (e : List ℕ × CObj) => ∃ g U, e.2.object = .unitary g ∧ unitaryOp e.1 g = .ok U ∧
      StoresIn A.fin A.val binary64.relErr binary64.absErr op U) ops b.pipeline) :
    ∃ i v out rest, initialIndex b.n it = some i ∧ b.calculateStateWithInit it rnds = some (v, []) ∧
      runOps b.n ops ((List.replicate (2 ^ b.n) 0).set i 1, List.replicate (2 ^ b.n) 0) = some (out, rest) ∧ (∀ a ∈ out, A.fin a) ∧
      nrm b.n (fun r => vals A.val out r - vals id v r) ≤ b.pipeline.length * (2 : ℝ)⁻¹ ^ 47 := by
  have hl' : (b.pipeline.length : ℝ) ≤ 2 ^ 47 := by exact_mod_cast hl
  have e : (64 : ℝ) * (2 : ℝ)⁻¹ ^ binary64.p = (2 : ℝ)⁻¹ ^ 47 := by show (64 : ℝ) * (2 : ℝ)⁻¹ ^ 53 = _; norm_num
  rw [← e]
  refine C87_gates A (by decide) b it h ?_ hp hm ?_ rnds ops hops
  · show (b.n : ℤ) + 2 * (-1074) + 2 * ((53 : ℕ) : ℤ) + 14 ≤ 0
    push_cast
    omega
  · rw [e]
    refine (mul_le_mul_of_nonneg_right hl' (by positivity)).trans ?_
    norm_num

open Classical in
/-- C87 for `f32`: up to 200 qubits and `2^18` gates, at most `2^-18` for every gate -/
theorem C87_binary32 {fl : ℝ → ℝ} (A : binary32.Arith fl) (b : LocalBuilder) (it : List (Reg × ℕ)) (h : ∀ p ∈ it, ∀ q ∈ p.1, q < b.n)
    (hn : b.n ≤ 200) (hp : ∀ e ∈ b.pipeline, SegOK b.n e) (hm : ∀ e ∈ b.pipeline, ∀ data, e.2.object ≠ .unitary (.MAT data))
    (hl : b.pipeline.length ≤ 2 ^ 18) (rnds : ℕ → ℝ) (ops : List (MatrixOp A.Num))
    (hops : List.Forall₂ (fun op (e : List ℕ × CObj) => ∃ g U, e.2.object = .unitary g ∧ unitaryOp e.1 g = .ok U ∧
      StoresIn A.fin A.val binary32.relErr binary32.absErr op U) ops b.pipeline) :
    ∃ i v out rest, initialIndex b.n it = some i ∧ b.calculateStateWithInit it rnds = some (v, []) ∧
      runOps b.n ops ((List.replicate (2 ^ b.n) 0).set i 1, List.replicate (2 ^ b.n) 0) = some (out, rest) ∧ (∀ a ∈ out, A.fin a) ∧
      nrm b.n (fun r => vals A.val out r - vals id v r) ≤ b.pipeline.length * (2 : ℝ)⁻¹ ^ 18 := by
  have hl' : (b.pipeline.length : ℝ) ≤ 2 ^ 18 := by exact_mod_cast hl
  have e : (64 : ℝ) * (2 : ℝ)⁻¹ ^ binary32.p = (2 : ℝ)⁻¹ ^ 18 := by show (64 : ℝ) * (2 : ℝ)⁻¹ ^ 24 = _; norm_num
  rw [← e]
  refine C87_gates A (by decide) b it h ?_ hp hm ?_ rnds ops hops
  · show (b.n : ℤ) + 2 * (-149) + 2 * ((24 : ℕ) : ℤ) + 14 ≤ 0
    push_cast
    omega
  · rw [e]
    refine (mul_le_mul_of_nonneg_right hl' (by positivity)).trans ?_
    norm_num

/-- the number stored for `z`: both parts rounded -/
noncomputable def store {f : Format} {fl : ℝ → ℝ} (A : f.Arith fl) (z : ℂ) : A.Num := (A.round z.re, A.round z.im)

/-- rounding the parts of a gate entry is a way to store it -/
theorem store_storedAs {f : Format} {fl : ℝ → ℝ} (A : f.Arith fl) (z : ℂ) (hz : ‖z‖ ≤ 3) : StoredAs A.fin A.val f.relErr f.absErr (store A z) z := by
  have ht := A.top_ge
  have hr := Complex.abs_re_le_norm z
  have hi := Complex.abs_im_le_norm z
  obtain ⟨x, x1, x2⟩ := A.round_some z.re (by linarith)
  obtain ⟨y, y1, y2⟩ := A.round_some z.im (by linarith)
  have e : store A z = (some x, some y) := by unfold store; rw [x1, y1]
  have hd : (0 : ℝ) ≤ (2 : ℝ)⁻¹ ^ f.p := by positivity
  have hm : (0 : ℝ) < (2 : ℝ) ^ f.emin := by positivity
  rw [e]
  refine ⟨⟨rfl, rfl⟩, ?_, ?_⟩
  · refine (Format.Arith.norm_le_parts _ ((2 : ℝ)⁻¹ ^ f.p * ‖z‖) ((2 : ℝ) ^ f.emin / 2) (by positivity) ?_ ?_ (by positivity)).trans ?_
    · show |x.1 - z.re| ≤ _
      rw [x2]
      exact (A.near.err (by have := A.hp; omega) _).trans (add_le_add (mul_le_mul_of_nonneg_left hr hd) le_rfl)
    · show |y.1 - z.im| ≤ _
      rw [y2]
      exact (A.near.err (by have := A.hp; omega) _).trans (add_le_add (mul_le_mul_of_nonneg_left hi hd) le_rfl)
    · unfold Format.relErr Format.absErr binErr
      refine add_le_add ?_ (by linarith)
      rw [← mul_assoc]
      refine mul_le_mul_of_nonneg_right (mul_le_mul_of_nonneg_left ?_ (Real.sqrt_nonneg _)) (norm_nonneg _)
      nlinarith [sq_nonneg ((2 : ℝ)⁻¹ ^ f.p)]
  · rintro rfl
    show (some x, some y) = (A.round 0, A.round 0)
    rw [← show A.round 0 = some x from x1, ← show A.round 0 = some y from y1]

/-- there is an arithmetic for binary64, and one for binary32 -/
theorem exists_binary64 : ∃ fl, Nonempty (binary64.Arith fl) := by
  obtain ⟨fl, h⟩ := exists_rounding binary64 (by decide)
  exact ⟨fl, ⟨h, by decide, by decide, by decide⟩⟩

theorem exists_binary32 : ∃ fl, Nonempty (binary32.Arith fl) := by
  obtain ⟨fl, h⟩ := exists_rounding binary32 (by decide)
  exact ⟨fl, ⟨h, by decide, by decide, by decide⟩⟩

/-- instance: a Hadamard gate on qubit 1, then a CNOT to qubit 0 -/
example {fl : ℝ → ℝ} (A : binary64.Arith fl) (h : ℂ) (hh : ‖h‖ ≤ 1) :
    (∀ e ∈ ([([1], ⟨1, .unitary .H⟩), ([1, 0], ⟨2, .unitary .CNOT⟩)] : Pipeline), SegOK 2 e ∧ ∀ data, e.2.object ≠ .unitary (.MAT data)) ∧
    StoresIn A.fin A.val binary64.relErr binary64.absErr (.matrix [1] [store A h, store A h, store A h, store A (-h)])
      (.matrix [1] [h, h, h, -h]) ∧
    StoresIn A.fin A.val binary64.relErr binary64.absErr (.control 1 [1, 0] (.matrix [0] [store A 0, store A 1, store A 1, store A 0]))
      (.control 1 [1, 0] (.matrix [0] [0, 1, 1, 0])) := by
  have h3 : ‖h‖ ≤ 3 := by linarith
  refine ⟨?_, ?_, ?_⟩
  · intro e he
    simp at he
    rcases he with rfl | rfl
    · exact ⟨⟨⟨by simp, by simp, fun u hu => by cases hu; rfl⟩, rfl, _, rfl, by simp⟩, by simp⟩
    · exact ⟨⟨⟨by simp, by simp, fun u hu => by cases hu; rfl⟩, rfl, _, rfl, by simp⟩, by simp⟩
  · refine .matrix _ _ _ ?_
    have h4 : ‖-h‖ ≤ 3 := by rwa [norm_neg]
    simp [store_storedAs A h h3, store_storedAs A (-h) h4]
  · refine .control _ _ _ _ (.matrix _ _ _ ?_)
    have a := store_storedAs A 0 (by simp)
    have b := store_storedAs A 1 (by simp)
    simp [a, b]

/-- instance: the hypothesis of the general theorems on the number of gates, for binary64 and a thousand gates on ten qubits -/
example : (1 + stepErr binary64.relErr binary64.absErr 10 2) ^ 1000 ≤ 2 := by
  obtain ⟨fl, ⟨A⟩⟩ := exists_binary64
  have R := A.limits (by decide)
  have h0 : 0 ≤ stepErr binary64.relErr binary64.absErr 10 2 := by
    unfold stepErr
    have := R.u_nonneg
    have := R.η_nonneg
    have h1 : (1 : ℝ) ≤ (1 + binary64.relErr) ^ (2 + 2) := one_le_pow₀ (by linarith)
    have := mul_nonneg (by linarith : (0 : ℝ) ≤ (1 + binary64.relErr) ^ (2 + 2) - 1) (Real.sqrt_nonneg ((2 : ℕ) : ℝ))
    positivity
  have h1 := gate_step binary64 (by decide) 10 (by decide)
  suffices ∀ G : ℕ, G ≤ 1000 → (1 + stepErr binary64.relErr binary64.absErr 10 2) ^ G ≤ 2 from this 1000 le_rfl
  intro G hG
  have hG' : (G : ℝ) ≤ 1000 := by exact_mod_cast hG
  have h2 : (G : ℝ) * stepErr binary64.relErr binary64.absErr 10 2 ≤ 1 / 2 := by
    refine (mul_le_mul hG' h1 h0 (by norm_num)).trans ?_
    show (1000 : ℝ) * (32 * (2 : ℝ)⁻¹ ^ 53) ≤ 1 / 2
    norm_num
  exact (pow_le_linear _ h0 G h2).trans (by linarith)

end Verif.Props
