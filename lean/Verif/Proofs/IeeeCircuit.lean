import Verif.Proofs.IeeeStep2
import Verif.Props.Float
import Verif.Proofs.Born

/-! # Circuits of gates and measurements in rounded arithmetic -/

namespace Verif
open MatrixOp Finset Verif.Props

theorem vals_id_amp (v : List ℂ) : ampAt v 0 = vals id v := by
  have := amp_vals id v
  rwa [List.map_id] at this

/-- a measurement in exact arithmetic -/
theorem calcStep_collapse (n : ℕ) (rnds : ℕ → ℝ) (s : CalcState) (hs : s.state.length = 2 ^ n) (ha : s.arena.length = 2 ^ n)
    (h1 : nrm n (vals id s.state) = 1) (idx : List ℕ) (w : ℕ) (hn : idx.Nodup) (hidx : ∀ i ∈ idx, i < n) (r0 : 0 < rnds s.measurements.length)
    (r1 : rnds s.measurements.length < 1) :
    ∃ x m Q s', x < 2 ^ n ∧ cumul (vals id s.state) x < rnds s.measurements.length ∧ rnds s.measurements.length ≤ cumul (vals id s.state) (x + 1) ∧
      m = outcomeOf n idx x ∧ Q = bornProb n idx m (vals id s.state) ∧ 0 < Q ∧
      calcStep n rnds s (idx, ⟨w, .meas .measurement⟩) = some s' ∧ s'.measurements = s.measurements ++ [.single m Q] ∧
      s'.state.length = 2 ^ n ∧ s'.arena.length = 2 ^ n ∧ nrm n (vals id s'.state) = 1 ∧
      ∀ r, r < 2 ^ n → vals id s'.state r = collapsed n idx m (vals id s.state) r := by
  classical
  have hpm : probMagnitude s.state = 1 := by
    have e := prefixProb_length s.state
    rw [← e]
    have := prefix_cumul id s.state _ le_rfl
    rw [List.map_id] at this
    rw [this, hs, cumul_full, h1, one_pow]
  have hpre : ∀ k, k ≤ 2 ^ n → prefixProb s.state k = cumul (vals id s.state) k := by
    intro k hk
    have := prefix_cumul id s.state k (by omega)
    rwa [List.map_id] at this
  generalize hr : rnds s.measurements.length = r at *
  obtain ⟨x, hx⟩ := softLoop_total s.state r (by linarith) r0
  obtain ⟨x1, x2, x3⟩ := (softLoop_pos s.state r r0 x).mp hx
  rw [hs] at x1
  rw [hpre _ (by omega)] at x2 x3
  have hpos : 0 < bornProb n idx (outcomeOf n idx x) (vals id s.state) := by
    have h2 : cumul (vals id s.state) (x + 1) = cumul (vals id s.state) x + ‖vals id s.state x‖ ^ 2 := by rw [cumul, sum_range_succ]; rfl
    have h3 : ‖vals id s.state x‖ ^ 2 ≤ bornProb n idx (outcomeOf n idx x) (vals id s.state) := by
      unfold bornProb
      rw [← Complex.normSq_eq_norm_sq]
      exact single_le_sum (f := fun x => Complex.normSq (vals id s.state x)) (fun _ _ => Complex.normSq_nonneg _)
        (mem_filter.mpr ⟨mem_range.mpr x1, spells_outcomeOf n idx x⟩)
    linarith
  have hsoft : softMeasure n idx s.state none r = some (outcomeOf n idx x) := by
    rw [softMeasure_eq n idx hidx s.state none r (.inr hpm), hpm, mul_one, hx]
    rfl
  obtain ⟨out, o1, o2, o3⟩ := measureState_eq n (outcomeOf n idx x) idx hn hidx _ hpos.ne' s.state s.arena 0 0 (by omega)
  have hcol : ∀ r, r < 2 ^ n → vals id out r = collapsed n idx (outcomeOf n idx x) (vals id s.state) r := by
    intro r hr
    unfold vals collapsed
    rw [o3 r (by omega), if_pos (by omega), Nat.zero_add, vals_id_amp]
    rfl
  have hmeas : measure n idx s.state s.arena none none r =
      some ((outcomeOf n idx x, bornProb n idx (outcomeOf n idx x) (vals id s.state)), out) := by
    unfold measure
    have hp := measureProb_eq n (outcomeOf n idx x) idx hn hidx s.state none
    rw [Option.getD_none, vals_id_amp] at hp
    simp only [Option.map_none, Option.bind_none, hsoft, Option.bind_eq_bind, Option.bind_some, hp]
    have e : measureState n idx (outcomeOf n idx x, bornProb n idx (outcomeOf n idx x) (vals id s.state)) s.state s.arena none = some out := o1
    rw [e]
    rfl
  refine ⟨x, _, _, ⟨out, s.state, s.measurements ++ [.single (outcomeOf n idx x) (bornProb n idx (outcomeOf n idx x) (vals id s.state))]⟩, x1, x2, x3,
    rfl, rfl, hpos, ?_, rfl, o2.trans ha, hs, ?_, hcol⟩
  · unfold calcStep
    simp only [hr, hmeas, Option.bind_eq_bind, Option.bind_some]
  · rw [nrm_congr n _ _ hcol, show collapsed n idx (outcomeOf n idx x) (vals id s.state) = _ from funext fun r => collapsed_eq n idx _ _ r]
    have : nrm n (fun r => ((1 / nrm n (maskTo (Spells n idx (outcomeOf n idx x)) (vals id s.state)) : ℝ) : ℂ) *
        maskTo (Spells n idx (outcomeOf n idx x)) (vals id s.state) r) = 1 := by
      rw [nrm_smul, Complex.norm_real, Real.norm_eq_abs]
      have h0 : 0 < nrm n (maskTo (Spells n idx (outcomeOf n idx x)) (vals id s.state)) := by
        rw [← born_nrm]; exact Real.sqrt_pos.mpr hpos
      rw [abs_of_pos (by positivity), one_div_mul_cancel h0.ne']
    exact (nrm_congr n _ _ fun r _ => mul_comm _ _).trans this

/-- the op of a gate is unitary -/
theorem unitaryOn_gate (n : ℕ) (e : List ℕ × CObj) (he : SegU n e) (g : UObj) (hg : e.2.object = .unitary g) (U : MatrixOp ℂ)
    (hU : unitaryOp e.1 g = .ok U) : UnitaryOn n (rowEntries e.1.length g) U ∧ 2 ≤ rowEntries e.1.length g := by
  obtain ⟨⟨⟨n1, n2, n3⟩, -, g', hg', hgp⟩, hmat⟩ := he
  obtain rfl : g' = g := by rw [hg] at hg'; injection hg' with h; exact h.symm
  obtain ⟨op, o1, o2⟩ := unitaryOp_ok _ g' (n3 g' hg) hgp
  obtain rfl : op = U := by rw [o1] at hU; injection hU
  have hw : op.width ≤ rowEntries e.1.length g' ∧ 2 ≤ rowEntries e.1.length g' := by
    by_cases hm : ∃ data, g' = .MAT data
    · obtain ⟨data, rfl⟩ := hm
      have h0 : 0 < e.1.length := (n3 _ hg).2
      refine ⟨?_, ?_⟩
      · have h1 : makeMatrixOp e.1 data = .ok op := o1
        rw [makeMatrixOp_inv h1]
        exact le_refl _
      · show 2 ≤ 2 ^ e.1.length
        calc 2 = 2 ^ 1 := rfl
          _ ≤ 2 ^ e.1.length := Nat.pow_le_pow_right (by norm_num) h0
    · have e2 : rowEntries e.1.length g' = 2 := by
        cases g' <;> first | rfl | exact absurd ⟨_, rfl⟩ hm
      rw [e2]
      exact ⟨unitaryOp_width _ g' (n3 g' hg) (fun data hd => hm ⟨data, hd⟩) op o1, le_refl _⟩
  refine ⟨⟨o2.wf, unitaryOp_distinct _ g' _ o1, by rw [o2.ind]; exact n1, by rw [o2.ind]; exact n2, ?_, hw.1⟩, hw.2⟩
  rw [o2.ind]
  have := uMat_unitary rotAngle e.1.length g' (n3 g' hg) (by
    rintro data rfl
    exact hmat data hg)
  intro r c hr hc
  rw [← this r c hr hc]
  apply sum_congr rfl
  intro s hs
  rw [o2.mat s r (mem_range.mp hs) hr, o2.mat s c (mem_range.mp hs) hc]

/-- no gate has more entries in a row than the state has amplitudes -/
theorem rowEntries_le (n : ℕ) (e : List ℕ × CObj) (he : SegU n e) (g : UObj) (hg : e.2.object = .unitary g) : rowEntries e.1.length g ≤ 2 ^ n := by
  obtain ⟨⟨⟨n1, n2, n3⟩, -, g', hg', hgp⟩, -⟩ := he
  obtain rfl : g' = g := by rw [hg] at hg'; injection hg' with h; exact h.symm
  have hl : e.1.length ≤ n := by
    have h1 : e.1.length ≤ (List.range n).length := List.Subperm.length_le (List.Nodup.subperm n1 fun q hq => List.mem_range.mpr (n2 q hq))
    simpa using h1
  have hp : 0 < e.1.length := by
    have hs := n3 g' hg
    cases g' <;> simp [UObj.Shape] at hs <;> omega
  have h1 : rowEntries e.1.length g' ≤ 2 ^ e.1.length := by
    have h2 : 2 ≤ 2 ^ e.1.length := calc 2 = 2 ^ 1 := rfl
      _ ≤ 2 ^ e.1.length := Nat.pow_le_pow_right (by norm_num) hp
    cases g' <;> first | exact h2 | exact le_refl _
  exact h1.trans (Nat.pow_le_pow_right (by norm_num) hl)

/-- a gate in exact arithmetic -/
theorem calcStep_gate (n : ℕ) (rnds : ℕ → ℝ) (s s' : CalcState) (hs : s.state.length = 2 ^ n) (ha : s.arena.length = 2 ^ n) (e : List ℕ × CObj)
    (he : SegOK n e) (g : UObj) (hg : e.2.object = .unitary g) (U : MatrixOp ℂ) (hU : unitaryOp e.1 g = .ok U) (h : calcStep n rnds s e = some s') :
    s'.measurements = s.measurements ∧ s'.state.length = 2 ^ n ∧ s'.arena.length = 2 ^ n ∧
      ∀ r, r < 2 ^ n → vals id s'.state r = mulVec n (embed n U.indices (opMat U)) (vals id s.state) r := by
  obtain ⟨st, s1, s2, s3, s4⟩ := calcFold_exact n rnds [e] (by simpa using he) [U] (.cons ⟨g, hg, hU⟩ .nil) s hs ha
  rw [calcFold_cons, h] at s1
  obtain rfl : s' = st := Option.some.inj s1
  refine ⟨s2, s3, ?_, s4⟩
  have hgp : ∀ ρ, g ≠ .GlobalPhase ρ := by
    obtain ⟨-, -, g', hg', hgp⟩ := he
    rw [hg] at hg'
    injection hg' with hgg
    rwa [hgg]
  unfold calcStep at h
  rw [hg] at h
  cases g with
  | GlobalPhase ρ => exact absurd rfl (hgp ρ)
  | _ =>
    simp only [hU, Option.bind_eq_bind, Option.bind_eq_some_iff, Option.some.injEq] at h
    obtain ⟨a, -, rfl⟩ := h
    exact hs

variable {f : Format} {fl : ℝ → ℝ}

namespace Format.Arith
open Classical

/-- the rounding errors of a sum of `K` products, for `K` up to the number of amplitudes -/
theorem wide_pow (f : Format) (hf : 10 ≤ f.p) (K : ℕ) (hK : 2 ≤ K) (hKe : K * f.eps ≤ 1 / 64) :
    (1 + f.relErr) ^ (K + 2) ≤ 1 + 67 / 10 * (K * f.eps) := by
  obtain ⟨b0, b1, b2⟩ := rel_bounds f hf
  have b1 : f.relErr ≤ 3002 / 1000 * f.eps := b1
  have hd := eps_pos f
  have hK' : (2 : ℝ) ≤ K := by exact_mod_cast hK
  have hx : ((K + 2 : ℕ) : ℝ) * f.relErr ≤ 6004 / 1000 * (K * f.eps) := by
    push_cast
    have : ((K : ℝ) + 2) * f.relErr ≤ (2 * K) * (3002 / 1000 * f.eps) := mul_le_mul (by linarith) b1 b0 (by linarith)
    linarith
  have hx0 : 0 ≤ ((K + 2 : ℕ) : ℝ) * f.relErr := mul_nonneg (by positivity) b0
  have h1 : (1 + f.relErr) ^ (K + 2) ≤ Real.exp (((K + 2 : ℕ) : ℝ) * f.relErr) := by
    rw [Real.exp_nat_mul]
    exact pow_le_pow_left₀ (by linarith) (by linarith [Real.add_one_le_exp f.relErr]) _
  have h2 := Real.abs_exp_sub_one_sub_id_le (x := ((K + 2 : ℕ) : ℝ) * f.relErr) (by rw [abs_of_nonneg hx0]; linarith)
  have h3 := (_root_.abs_le.mp h2).2
  have hKe0 : 0 ≤ K * f.eps := by positivity
  generalize ((K + 2 : ℕ) : ℝ) * f.relErr = x at *
  generalize (K : ℝ) * f.eps = y at *
  nlinarith

/-- a gate in rounded arithmetic and in exact arithmetic -/
theorem gate_err (A : f.Arith fl) (hf : 10 ≤ f.p) (he : f.emin + 2 * f.p + 4 ≤ 0) (n : ℕ) (hN : 2 ^ n * f.eps ≤ 1 / 64) (op : MatrixOp A.Num) (U : MatrixOp ℂ)
    (h : StoresIn A.fin A.val f.relErr f.absErr op U) (K : ℕ) (hK : 2 ≤ K) (hKn : K ≤ 2 ^ n) (hU : UnitaryOn n K U) (v arena : List A.Num)
    (hv : v.length = 2 ^ n) (ha : arena.length = 2 ^ n)
    (hfin : ∀ c ∈ v, A.fin c) (φ : ℕ → ℂ) (hφ : nrm n φ ≤ 1) (ε : ℝ) (hε : ε ≤ 1) (hvφ : nrm n (fun r => vals A.val v r - φ r) ≤ ε) :
    ∃ out, applyOpOverwrite n op v arena 0 0 = some out ∧ out.length = 2 ^ n ∧ (∀ c ∈ out, A.fin c) ∧
      nrm n (fun r => vals A.val out r - mulVec n (embed n U.indices (opMat U)) φ r) ≤ ε + ((16 * K ^ 2 : ℕ) : ℝ) * f.eps := by
  have R := A.limits (by omega)
  have hd := eps_pos f
  have hK' : (2 : ℝ) ≤ K := by exact_mod_cast hK
  have hKn' : (K : ℝ) ≤ 2 ^ n := by exact_mod_cast hKn
  have hKe : K * f.eps ≤ 1 / 64 := (mul_le_mul_of_nonneg_right hKn' hd.le).trans hN
  have hn2 : nrm n (vals A.val v) ≤ 2 := by
    have := nrm_le_of_sub n (vals A.val v) φ
    linarith
  have hpe : (2 : ℝ) ^ f.p * f.eps = 1 := by
    unfold Format.eps
    rw [← mul_pow]
    norm_num
  have hnp : n + 6 ≤ f.p := by
    by_contra hc
    have h1 : (2 : ℝ) ^ f.p < 2 ^ (n + 6) := pow_lt_pow_right₀ (by norm_num) (by omega)
    have h3 : (2 : ℝ) ^ f.p * f.eps < 2 ^ (n + 6) * f.eps := mul_lt_mul_of_pos_right h1 hd
    have h4 : (2 : ℝ) ^ (n + 6) * f.eps = 64 * (2 ^ n * f.eps) := by rw [pow_add]; ring
    linarith
  have hw := wide_pow f hf K hK hKe
  have hη := R.η_nonneg
  have hu := R.u_nonneg
  have hM : 8 * (K : ℝ) * (1 + f.relErr) ^ (K + 2) ≤ f.top / 4 := by
    have h0 : (1 + f.relErr) ^ (K + 2) ≤ 6 / 5 := by linarith
    have h1 : 8 * (K : ℝ) * (1 + f.relErr) ^ (K + 2) ≤ 8 * K * (6 / 5) := mul_le_mul_of_nonneg_left h0 (by positivity)
    have h2 : (2 : ℝ) ^ (1 : ℤ) ≤ 2 ^ f.emax := zpow_le_zpow_right₀ (by norm_num) A.hi
    have h3 : (2 : ℝ) ^ (n + 6) ≤ 2 ^ f.p := pow_le_pow_right₀ (by norm_num) hnp
    have h4 : (2 : ℝ) ^ (n + 6) = 64 * 2 ^ n := by rw [pow_add]; ring
    have h5 : f.top = (2 ^ f.p - 1) * (2 : ℝ) ^ f.emax := rfl
    have h6 : (2 ^ f.p - 1) * (2 : ℝ) ^ (1 : ℤ) ≤ (2 ^ f.p - 1) * (2 : ℝ) ^ f.emax :=
      mul_le_mul_of_nonneg_left h2 (by linarith)
    rw [h5]
    rw [zpow_one] at h6
    linarith
  obtain ⟨out, o1, o2, o3, o4⟩ := C87_apply_op R n K hM op U h hU v arena hv ha (fin_bound A n v hv hn2 hfin)
  refine ⟨out, o1, o2, o3, ?_⟩
  have hE := embed_unitary n U.indices hU.nodup hU.lt (opMat U) hU.unitary
  have e1 : ∀ r, r < 2 ^ n → vals A.val out r - mulVec n (embed n U.indices (opMat U)) φ r =
      (vals A.val out r - mulVec n (embed n U.indices (opMat U)) (vals A.val v) r) +
        mulVec n (embed n U.indices (opMat U)) (fun c => vals A.val v c - φ c) r := by
    intro r _
    rw [mulVec_sub]; ring
  rw [nrm_congr n _ _ e1]
  refine (nrm_add_le n _ _).trans ?_
  rw [nrm_mulVec n _ hE]
  have hsq : Real.sqrt K ≤ 3 / 4 * K := by
    rw [Real.sqrt_le_left (by positivity)]
    nlinarith
  have hρ : ((1 + f.relErr) ^ (K + 2) - 1) * Real.sqrt K ≤ 67 / 10 * (K * f.eps) * (3 / 4 * K) :=
    mul_le_mul (by linarith) hsq (Real.sqrt_nonneg _) (by positivity)
  have hρ0 : 0 ≤ ((1 + f.relErr) ^ (K + 2) - 1) * Real.sqrt K := by
    have : (1 : ℝ) ≤ (1 + f.relErr) ^ (K + 2) := one_le_pow₀ (by linarith)
    exact mul_nonneg (by linarith) (Real.sqrt_nonneg _)
  have hρn := mul_le_mul hρ hn2 (nrm_nonneg n _) (by positivity)
  have hτ : Real.sqrt (2 ^ n) * ((1 + f.relErr) ^ K * (K * (6 * f.absErr))) ≤ K * f.eps := by
    have a3 : Real.sqrt (2 ^ n) * (2 : ℝ) ^ (f.emin + 7) ≤ f.eps := by
      have e : f.eps = (2 : ℝ) ^ (-(f.p : ℤ)) := by
        show (2 : ℝ)⁻¹ ^ f.p = _
        rw [inv_pow, zpow_neg, zpow_natCast]
      rw [e, ← le_div_iff₀ (by positivity), Real.sqrt_le_left (by positivity), div_pow, ← zpow_natCast, ← zpow_natCast, ← zpow_natCast,
        ← zpow_mul, ← zpow_mul, ← zpow_sub₀ (by norm_num)]
      apply zpow_le_zpow_right₀ (by norm_num)
      push_cast
      omega
    have e7 : (2 : ℝ) ^ (f.emin + 7) = 128 * (2 : ℝ) ^ f.emin := by
      rw [zpow_add₀ (by norm_num)]; norm_num; ring
    rw [e7] at a3
    have hm : (0 : ℝ) < (2 : ℝ) ^ f.emin := by positivity
    have h0 : (1 + f.relErr) ^ K ≤ 6 / 5 := (pow_le_pow_right₀ (by linarith) (by omega : K ≤ K + 2)).trans (by linarith)
    have h1 : (1 + f.relErr) ^ K * (K * (6 * f.absErr)) ≤ K * (128 * (2 : ℝ) ^ f.emin) := by
      have e : f.absErr = 6 * (2 : ℝ) ^ f.emin := rfl
      rw [e]
      have := mul_le_mul_of_nonneg_right h0 (show 0 ≤ (K : ℝ) * (6 * (6 * (2 : ℝ) ^ f.emin)) by positivity)
      nlinarith [mul_pos (show (0 : ℝ) < K by linarith) hm]
    calc _ ≤ Real.sqrt (2 ^ n) * (K * (128 * (2 : ℝ) ^ f.emin)) := mul_le_mul_of_nonneg_left h1 (Real.sqrt_nonneg _)
      _ = K * (Real.sqrt (2 ^ n) * (128 * (2 : ℝ) ^ f.emin)) := by ring
      _ ≤ K * f.eps := mul_le_mul_of_nonneg_left a3 (by positivity)
  push_cast
  have hKK : K * f.eps ≤ K * f.eps * K / 2 := by nlinarith [mul_pos (show (0 : ℝ) < K by linarith) hd]
  have hpos : 0 ≤ K * f.eps * K := by positivity
  nlinarith

theorem runs_measure (A : f.Arith fl) (n : ℕ) (rnds : ℕ → f.Part) (idx : List ℕ) (es : List (ElemP A.Num)) (s t : StateP A.Num f.Part) :
    RunsP A.prec (fun c : A.Num => c) (fun c => c) n rnds (.measurement idx :: es) s t ↔
      ∃ m p, ∃ out : List A.Num, MeasureP A.prec n idx s.state s.arena (rnds s.measurements.length) m p out ∧
        RunsP A.prec (fun c : A.Num => c) (fun c => c) n rnds es ⟨out, s.state, s.measurements ++ [(m, p)]⟩ t := by
  have key : ∀ (v w v' w' : List (f.Part × f.Part)) (m : ℕ) (p : f.Part) (out : List (f.Part × f.Part)), v = v' → w = w' →
      MeasureP A.prec n idx v w (rnds s.measurements.length) m p out → MeasureP A.prec n idx v' w' (rnds s.measurements.length) m p out := by
    rintro v w v' w' m p out rfl rfl h
    exact h
  have key2 : ∀ (out out' : List A.Num) (m : ℕ) (p : f.Part), out = out' →
      RunsP A.prec (fun c : A.Num => c) (fun c => c) n rnds es ⟨out, s.state, s.measurements ++ [(m, p)]⟩ t →
      RunsP A.prec (fun c : A.Num => c) (fun c => c) n rnds es ⟨out', s.state, s.measurements ++ [(m, p)]⟩ t := by
    rintro out out' m p rfl h
    exact h
  constructor
  · intro h
    cases h with
    | measurement _ _ _ _ m p out hm h =>
      exact ⟨m, p, out, key _ _ _ _ m p out (List.map_id _) (List.map_id _) hm, key2 _ _ m p (List.map_id _) h⟩
  · rintro ⟨m, p, out, hm, h⟩
    exact .measurement idx es s t m p out (key _ _ _ _ m p out (List.map_id _).symm (List.map_id _).symm hm) (key2 _ _ m p (List.map_id _).symm h)

/-- C88 for circuits: the fold in rounded arithmetic against the exact one -/
theorem clear_run (A : f.Arith fl) (hf : 10 ≤ f.p) (he : f.emin + 2 * f.p + 4 ≤ 0) (n : ℕ) (hN : 2 ^ n * f.eps ≤ 1 / 64) (rnds : ℕ → f.Fin)
    (hr : ∀ k, 0 < (rnds k).1 ∧ (rnds k).1 < 1) (κ : ℝ) (p : Pipeline)
    (hp : ∀ e ∈ p, GateOrMeasure n e)
    (els : List (ElemP A.Num)) (hels : List.Forall₂ (ElemAs A) els p) (s : CalcState) (ε δ : ℝ) (hc : Clear f n (fun k => (rnds k).1) κ p s ε δ)
    (hs : s.state.length = 2 ^ n) (ha : s.arena.length = 2 ^ n) (h1 : nrm n (vals id s.state) = 1) (t0 : StateP A.Num f.Part)
    (ts : t0.state.length = 2 ^ n) (ta : t0.arena.length = 2 ^ n) (tf : ∀ c ∈ t0.state, A.fin c)
    (td : nrm n (fun r => vals A.val t0.state r - vals id s.state r) ≤ ε) (tm : t0.measurements.length = s.measurements.length) :
    ∃ s', calcFold n (fun k => (rnds k).1) p s = some s' ∧
      (∃ t, RunsP A.prec (fun c : A.Num => c) (fun c => c) n (fun k => some (rnds k)) els t0 t) ∧
      ∀ t, RunsP A.prec (fun c : A.Num => c) (fun c => c) n (fun k => some (rnds k)) els t0 t →
        t.state.length = 2 ^ n ∧ (∀ c ∈ t.state, A.fin c) ∧ nrm n (fun r => vals A.val t.state r - vals id s'.state r) ≤ δ ∧
        ∃ ms ms', t.measurements = t0.measurements ++ ms ∧ s'.measurements = s.measurements ++ ms' ∧ List.Forall₂ (SameOutcome f κ) ms ms' := by
  induction hels generalizing s ε t0 with
  | nil =>
    cases hc
    refine ⟨s, rfl, ⟨t0, .nil t0⟩, ?_⟩
    intro t ht
    cases ht
    exact ⟨ts, tf, td, [], [], by simp, by simp, .nil⟩
  | @cons el e els' p' he1 hels ih =>
    have hpe := hp e (by simp)
    have hp' : ∀ e ∈ p', GateOrMeasure n e := fun e he => hp e (by simp [he])
    cases hc with
    | gate idx w g p _ s1 _ _ hstep hε hc =>
      cases he1 with
      | gate op U _ _ _ hU hst =>
        have hsegU : SegU n (idx, ⟨w, .unitary g⟩) := by
          rcases hpe with h1 | ⟨h1, -⟩
          · exact h1
          · cases h1
        have hseg := hsegU.1
        obtain ⟨hUn, hK⟩ := unitaryOn_gate n _ hsegU g rfl U hU
        have hKn := rowEntries_le n _ hsegU g rfl
        have hE := embed_unitary n U.indices hUn.nodup hUn.lt (opMat U) hUn.unitary
        obtain ⟨g1, g2, g3, g4⟩ := calcStep_gate n _ s s1 hs ha _ hseg g rfl U hU hstep
        obtain ⟨out, o1, o2, o3, o4⟩ := gate_err A hf he n hN op U hst _ hK hKn hUn t0.state t0.arena ts ta tf (vals id s.state) h1.le ε hε td
        obtain ⟨s', k1, ⟨t', k2⟩, k3⟩ := ih hp' s1 (ε + gateCost idx.length g * f.eps) hc g2 g3 (by rw [nrm_congr n _ _ g4, nrm_mulVec n _ hE, h1])
          ⟨out, t0.state, t0.measurements⟩ o2 ts o3 (by
            refine le_trans (le_of_eq (nrm_congr n _ _ fun r hr => ?_)) o4
            show vals A.val out r - vals id s1.state r = _
            rw [g4 r hr]) (by rw [g1]; exact tm)
        refine ⟨s', by rw [calcFold_cons, hstep]; exact k1, ⟨t', .op op _ _ _ out o1 k2⟩, ?_⟩
        intro t ht
        cases ht with
        | op _ _ _ _ arena ha' ht =>
          obtain rfl : out = arena := by rw [o1] at ha'; exact Option.some.inj ha'
          have := k3 t ht
          rw [g1] at this
          exact this
    | measurement idx w p _ s1 m Q _ _ hstep hms hε hκ hmar hc =>
      cases he1 with
      | measurement _ _ =>
        obtain ⟨hnd, hlt⟩ : idx.Nodup ∧ ∀ i ∈ idx, i < n := by
          rcases hpe with ⟨⟨-, -, g, h1, -⟩, -⟩ | ⟨-, h1⟩
          · cases h1
          · exact h1
        obtain ⟨x, m', Q', s1', x1, x2, x3, rfl, rfl, q0, c1, c2, c3, c4, c5, c6⟩ := calcStep_collapse n (fun k => (rnds k).1) s hs ha h1 idx w hnd hlt
          (hr _).1 (hr _).2
        obtain rfl : s1' = s1 := by rw [c1] at hstep; exact Option.some.inj hstep
        obtain ⟨rfl, rfl⟩ : outcomeOf n idx x = m ∧ bornProb n idx (outcomeOf n idx x) (vals id s.state) = Q := by
          rw [c2] at hms
          have := List.append_cancel_left hms
          simp only [List.cons.injEq, and_true, MeasResult.single.injEq] at this
          exact this
        have hD : 0 < 2 ^ n * f.eps := mul_pos (by positivity) (eps_pos f)
        obtain ⟨-, ⟨pr, out, e1⟩, e2⟩ := measure_err A hf he n hN idx hnd hlt t0.state t0.arena ts ta tf (vals id s.state) h1 ε hε td
          (rnds s.measurements.length) (hr _).1 (hr _).2 (fun k k1 k2 => lt_of_le_of_lt (by linarith) (hmar k k1 k2)) x x1 x2 x3
        rw [← tm] at e1 e2
        have key : ∀ m pr (out : List A.Num), MeasureP A.prec n idx t0.state t0.arena (some (rnds t0.measurements.length)) m pr out →
            m = outcomeOf n idx x ∧ SameOutcome f κ (m, pr) (.single (outcomeOf n idx x) (bornProb n idx (outcomeOf n idx x) (vals id s.state))) ∧
            ∃ s', calcFold n (fun k => (rnds k).1) p' s1' = some s' ∧
              (∃ t, RunsP A.prec (fun c : A.Num => c) (fun c => c) n (fun k => some (rnds k)) els' ⟨out, t0.state, t0.measurements ++ [(m, pr)]⟩ t) ∧
              ∀ t, RunsP A.prec (fun c : A.Num => c) (fun c => c) n (fun k => some (rnds k)) els' ⟨out, t0.state, t0.measurements ++ [(m, pr)]⟩ t →
                t.state.length = 2 ^ n ∧ (∀ c ∈ t.state, A.fin c) ∧ nrm n (fun r => vals A.val t.state r - vals id s'.state r) ≤ δ ∧
                ∃ ms ms', t.measurements = t0.measurements ++ [(m, pr)] ++ ms ∧ s'.measurements = s1'.measurements ++ ms' ∧
                  List.Forall₂ (SameOutcome f κ) ms ms' := by
          intro m pr out hm
          obtain ⟨rfl, ⟨y, rfl, y0, y1⟩, o2, o3, o4⟩ := e2 m pr out hm
          refine ⟨rfl, ⟨_, _, y, rfl, rfl, y0, y1.trans hκ⟩, ?_⟩
          exact ih hp' s1' _ hc c3 c4 c5 ⟨out, t0.state, t0.measurements ++ [(outcomeOf n idx x, some y)]⟩ o2 ts o3 (by
            refine le_trans (le_of_eq (nrm_congr n _ _ fun r hr => ?_)) o4
            show vals A.val out r - vals id s1'.state r = _
            rw [c6 r hr]) (by rw [c2]; simp [tm])
        obtain ⟨-, -, s', k1, ⟨t', k2⟩, -⟩ := key _ pr out e1
        refine ⟨s', by rw [calcFold_cons, c1]; exact k1, ⟨t', ?_⟩, ?_⟩
        · exact (runs_measure A n _ idx _ _ _).mpr ⟨_, pr, out, e1, k2⟩
        · intro t ht
          obtain ⟨m, pr, out, hm, ht⟩ := (runs_measure A n _ idx _ _ _).mp ht
          · obtain ⟨rfl, j1, s'', j2, -, j3⟩ := key m pr out hm
            obtain rfl : s' = s'' := by rw [k1] at j2; exact Option.some.inj j2
            obtain ⟨i1, i2, i3, ms, ms', i4, i5, i6⟩ := j3 t ht
            refine ⟨i1, i2, i3, _ :: ms, _ :: ms', ?_, ?_, .cons j1 i6⟩
            · rw [i4]; simp
            · rw [i5, c2]; simp

end Format.Arith
end Verif
