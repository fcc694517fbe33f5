import Verif.Proofs.FloatJoint

/-!
# Joint frequencies in floating point arithmetic
-/

namespace Verif
open Finset Classical

variable {f : Format} {fl : ℝ → ℝ}

namespace Format.Arith

/-- a run adds one result for each measurement -/
theorem runs_prefix (A : f.Arith fl) {n : ℕ} {rnds : ℕ → f.Part} {els : List (ElemP A.Num)} {s t : StateP A.Num f.Part}
    (h : RunsP A.prec (fun c : A.Num => c) (fun c => c) n rnds els s t) : ∃ l, t.measurements = s.measurements ++ l := by
  induction h with
  | nil s => exact ⟨[], by simp⟩
  | op o es s t arena _ _ ih => exact ih
  | measurement idx es s t m p out _ _ ih =>
    obtain ⟨l, hl⟩ := ih
    exact ⟨(m, p) :: l, by rw [hl]; simp⟩

/-- gates report nothing -/
theorem runs_gates (A : f.Arith fl) {n : ℕ} {rnds : ℕ → f.Part} {els : List (ElemP A.Num)} {p : Pipeline} (hels : List.Forall₂ (ElemAs A) els p)
    (h0 : measCount p = 0) {s t : StateP A.Num f.Part} (h : RunsP A.prec (fun c : A.Num => c) (fun c => c) n rnds els s t) :
    t.measurements = s.measurements := by
  induction h generalizing p with
  | nil s => rfl
  | op o es s t arena _ _ ih =>
    cases hels with
    | cons h1 h2 =>
      cases h1 with
      | gate op U idx w g hU hst => exact ih h2 (by simpa [measCount, isMeas] using h0)
  | measurement idx es s t m p out _ _ ih =>
    cases hels with
    | cons h1 h2 =>
      cases h1 with
      | measurement idx w => simp [measCount, isMeas] at h0

/-- every circuit of gates and measurements runs to its end on every vector, finite or not, whatever is drawn -/
theorem runs_total (A : f.Arith fl) (n : ℕ) (rnds : ℕ → f.Part) (p : Pipeline) (hp : ∀ e ∈ p, StepOK n e) (els : List (ElemP A.Num))
    (hels : List.Forall₂ (ElemAs A) els p) (s : StateP A.Num f.Part) (hs : s.state.length = 2 ^ n) (ha : s.arena.length = 2 ^ n) :
    ∃ t, RunsP A.prec (fun c : A.Num => c) (fun c => c) n rnds els s t := by
  induction hels generalizing s with
  | nil => exact ⟨s, .nil s⟩
  | @cons el e els' p' h1 hels ih =>
    have hp' : ∀ e ∈ p', StepOK n e := fun e' he' => hp e' (by simp [he'])
    have he := hp e (by simp)
    cases h1 with
    | gate op U idx w g hU hst =>
      rcases he with he | ⟨ho, -⟩
      · obtain ⟨hUn, -⟩ := unitaryOn_gate n _ he g rfl U hU
        obtain ⟨t, ht⟩ := ih hp' ⟨(List.range (2 ^ n)).map (rowTotal n op s.state), s.state, s.measurements⟩ (by simp) hs
        exact ⟨t, .op op _ _ _ _ (applyOpOverwrite_any n op (hst.wf hUn.wf) (by rw [hst.indices]; exact hUn.lt) s.state s.arena hs ha) ht⟩
      · cases ho
    | measurement idx w =>
      rcases he with ⟨⟨-, -, g, hg, -⟩, -⟩ | ⟨-, hn, hi⟩
      · cases hg
      · obtain ⟨⟨m, pr, out, k⟩, k2⟩ := Props.C88_total A.prec n idx hn hi s.state s.arena hs ha (rnds s.measurements.length)
        obtain ⟨t, ht⟩ := ih hp' ⟨out, s.state, s.measurements ++ [(m, pr)]⟩ (k2 _ _ _ k).2 hs
        exact ⟨t, (runs_measure A n rnds idx els' s t).mpr ⟨m, pr, out, k, ht⟩⟩

end Format.Arith

open Format.Arith

theorem unitW_le (ψ : Wave) : normW (unitW ψ) ≤ 1 := by
  rcases (normW_nonneg ψ).eq_or_lt with h | h
  · rw [normW_eq_zero h.symm]
    unfold unitW
    rw [smul_zero, normW_zero]
    norm_num
  · rw [unitW_norm h]

/-- the bound where it says nothing or nothing can go wrong -/
theorem joint_trivial (A : f.Arith fl) (n N : ℕ) (τ : ℝ) (hτ : 0 ≤ τ) (θ : ℝ) (hθ : 0 < θ) (p : Pipeline) (hp : ∀ e ∈ p, StepOK n e)
    (els : List (ElemP A.Num)) (hels : List.Forall₂ (ElemAs A) els p) (J : ℕ) (hJ : measCount p = J) (ms : List ℕ) (hms : ms.length = J) (k0 : ℕ)
    (rn : (Fin J → Fin N) → ℕ → f.Part) (s0 run : (Fin J → Fin N) → StateP A.Num f.Part) (hk : ∀ js, (s0 js).measurements.length = k0)
    (hrun : ∀ js, RunsP A.prec (fun c : A.Num => c) (fun c => c) n (rn js) els (s0 js) (run js))
    (ψ : Wave) (hψ : On (Low n) ψ) (h1 : normW ψ = 1) (ε : ℝ) (hε0 : 0 ≤ ε) (h : measCount p = 0 ∨ 1 < ε) :
    |shareOf N J (fun js => ((run js).measurements.drop k0).map Prod.fst = ms) - normW (branchW rotAngle p ms ψ)| ≤ jointBound f n N τ θ p ε := by
  by_cases hz : measCount p = 0
  · obtain rfl : J = 0 := by omega
    obtain rfl : ms = [] := List.length_eq_zero_iff.mp hms
    rw [shareOf_zero N fun js => by rw [runs_gates A hels hz (hrun js), ← hk js, List.drop_length]; rfl,
      normW_branch_gates p hp hz [] hψ, h1, sub_self, abs_zero]
    exact (jointBound_range f n N τ θ hτ hθ p ε hε0).1
  · have hbig := h.resolve_left hz
    rw [jointBound_large f n N τ θ p ε hbig, if_neg hz, _root_.abs_le]
    have a1 := shareOf_nonneg N J fun js => ((run js).measurements.drop k0).map Prod.fst = ms
    have a2 := shareOf_le_one N J fun js => ((run js).measurements.drop k0).map Prod.fst = ms
    have b1 := normW_nonneg (branchW rotAngle p ms ψ)
    have b2 := normW_branch_le p hp ms hψ
    constructor <;> linarith

/-- the outcomes of a circuit of gates and measurements, over all sequences of draws -/
theorem joint_err (A : f.Arith fl) (hf : 10 ≤ f.p) (he : f.emin + 2 * f.p + 4 ≤ 0) (n : ℕ) (hN : 2 ^ n * f.eps ≤ 1 / 64) (N : ℕ) (hN0 : 0 < N) (τ : ℝ)
    (d : ℕ → f.Fin) (hd : ∀ j, j < N → |(d j).1 - (j : ℝ) / N| ≤ τ) (θ : ℝ) (hθ : 0 < θ) (p : Pipeline) (els : List (ElemP A.Num))
    (hels : List.Forall₂ (ElemAs A) els p) : ∀ (_ : ∀ e ∈ p, StepOK n e) (J : ℕ) (_ : measCount p = J) (ms : List ℕ) (_ : ms.length = J) (k0 : ℕ)
    (rn : (Fin J → Fin N) → ℕ → f.Part) (_ : ∀ js (i : Fin J), rn js (k0 + i) = some (d (js i))) (s0 run : (Fin J → Fin N) → StateP A.Num f.Part)
    (_ : ∀ js, (s0 js).measurements.length = k0)
    (_ : ∀ js, RunsP A.prec (fun c : A.Num => c) (fun c => c) n (rn js) els (s0 js) (run js))
    (ψ : Wave) (_ : On (Low n) ψ) (_ : normW ψ = 1) (ε : ℝ) (_ : 0 ≤ ε)
    (_ : ε ≤ 1 → ∀ js, (s0 js).state.length = 2 ^ n ∧ (s0 js).arena.length = 2 ^ n ∧ (∀ c ∈ (s0 js).state, A.fin c) ∧
      nrm n (fun r => vals A.val (s0 js).state r - ψ (asg n r)) ≤ ε),
    |shareOf N J (fun js => ((run js).measurements.drop k0).map Prod.fst = ms) - normW (branchW rotAngle p ms ψ)| ≤ jointBound f n N τ θ p ε := by
  have hτ : 0 ≤ τ := (abs_nonneg _).trans (hd 0 hN0)
  have heps := eps_pos f
  have hN' : (0 : ℝ) < N := by exact_mod_cast hN0
  induction hels with
  | nil =>
    intro hp J hJ ms hms k0 rn hrn s0 run hk hrun ψ hψ h1 ε hε0 near
    exact joint_trivial A n N τ hτ θ hθ [] hp [] .nil J hJ ms hms k0 rn s0 run hk hrun ψ hψ h1 ε hε0 (.inl rfl)
  | @cons el e els' p' h1e hels ih =>
    intro hp J hJ ms hms k0 rn hrn s0 run hk hrun ψ hψ h1 ε hε0 near
    by_cases htriv : measCount (e :: p') = 0 ∨ 1 < ε
    · exact joint_trivial A n N τ hτ θ hθ _ hp _ (.cons h1e hels) J hJ ms hms k0 rn s0 run hk hrun ψ hψ h1 ε hε0 htriv
    push Not at htriv
    obtain ⟨hz, hε1⟩ := htriv
    have near := near hε1
    have hp' : ∀ e ∈ p', StepOK n e := fun e' he' => hp e' (by simp [he'])
    have hstep := hp e (by simp)
    cases hel : h1e with
    | gate op U idx w g hU hst =>
      have hsegU : SegU n (idx, ⟨w, .unitary g⟩) := by
        rcases hstep with h | ⟨ho, -⟩
        · exact h
        · cases ho
      have hc : measCount ((idx, (⟨w, .unitary g⟩ : CObj)) :: p') = measCount p' := by simp [measCount, isMeas]
      rw [branchW_unitary _ _ _ _ _ g rfl, jointBound_gate _ _ _ _ _ _ _ _ g rfl]
      set ε' := ε + (elemCost (idx, (⟨w, .unitary g⟩ : CObj)) : ℝ) * f.eps with hε'
      have hstep' : ∀ js, ∃ s1 : StateP A.Num f.Part, s1.measurements = (s0 js).measurements ∧
          RunsP A.prec (fun c : A.Num => c) (fun c => c) n (rn js) els' s1 (run js) ∧
          (ε' ≤ 1 → s1.state.length = 2 ^ n ∧ s1.arena.length = 2 ^ n ∧ (∀ c ∈ s1.state, A.fin c) ∧
            nrm n (fun r => vals A.val s1.state r - entryW rotAngle (idx, ⟨w, .unitary g⟩) ψ (asg n r)) ≤ ε') := by
        intro js
        by_cases hsmall : ε' ≤ 1
        · obtain ⟨n1, n2, n3, n4⟩ := near js
          have hv : ∀ (v : List ℂ) (χ : Wave), Rep n v χ → ∀ r, r < 2 ^ n → vals id v r = χ (asg n r) := by
            intro v χ h r hr
            unfold vals
            rw [h.2 r hr]; rfl
          have hcost : (circuitCost [(idx, (⟨w, .unitary g⟩ : CObj))] : ℝ) = elemCost (idx, (⟨w, .unitary g⟩ : CObj)) := by
            simp [circuitCost]
          obtain ⟨s', k1, k2, k3, k4, k5, t', k6, k7, k8, k9, k10, k11⟩ := gates_run A hf he n hN [(idx, ⟨w, .unitary g⟩)] (by simpa using hsegU)
            [.op op] (.cons (.gate op U idx w g hU hst) .nil) ⟨vecW n ψ, vecW n ψ, []⟩ (rep_vecW n ψ).1 (rep_vecW n ψ).1 (by
              rw [nrm_congr n _ (ampAt (vecW n ψ) 0) fun r hr => by
                rw [show vals id (vecW n ψ) r = _ from hv _ _ (rep_vecW n ψ) r hr, rep_amp (rep_vecW n ψ) r hr]]
              exact nrm_wave hψ h1) (s0 js) n1 n2 n3 ε (by
              refine le_trans (le_of_eq (nrm_congr n _ _ fun r hr => ?_)) n4
              show vals A.val (s0 js).state r - vals id (vecW n ψ) r = _
              rw [hv _ _ (rep_vecW n ψ) r hr]) (by rw [hcost]; exact hsmall)
          rw [hcost] at k10
          obtain ⟨st, a1, a2, -⟩ := calcStep_unitary n (fun _ => 0) ⟨vecW n ψ, vecW n ψ, []⟩ ψ (rep_vecW n ψ) (rep_vecW n ψ).1 _ hsegU.1
          obtain rfl : st = s' := by
            have := k1 fun _ => 0
            rw [calcFold_cons, a1] at this
            exact Option.some.inj this
          refine ⟨t', k8, (k11 _ _ _).mp (hrun js), fun _ => ⟨k6, k7, k9, ?_⟩⟩
          refine le_trans (le_of_eq (nrm_congr n _ _ fun r hr => ?_)) k10
          rw [hv _ _ a2 r hr]
        · have hr := hrun js
          cases hr with
          | op _ _ _ _ arena _ hr => exact ⟨⟨arena, (s0 js).state, (s0 js).measurements⟩, rfl, hr, fun h => absurd h hsmall⟩
      choose s1 q1 q2 q3 using hstep'
      exact ih hp' J (hc ▸ hJ) ms hms k0 rn hrn s1 run (fun js => by rw [q1]; exact hk js) q2 _ (hψ.entryLow _ hsegU.1.1.2.1)
        (by rw [normW_entry hψ _ hsegU]; exact h1) ε' (by positivity) fun h js => q3 js h
    | measurement idx w =>
      have hidx : idx.Nodup ∧ ∀ q ∈ idx, q < n := by
        rcases hstep with ⟨⟨-, -, g, hg, -⟩, -⟩ | ⟨-, h⟩
        · cases hg
        · exact h
      obtain ⟨hn, hi⟩ := hidx
      have hc : measCount ((idx, (⟨w, .meas .measurement⟩ : CObj)) :: p') = measCount p' + 1 := List.countP_cons_of_pos rfl
      obtain ⟨J', rfl⟩ : ∃ J', J = J' + 1 := ⟨measCount p', by rw [← hJ, hc]⟩
      have hJ' : measCount p' = J' := by omega
      obtain ⟨m, ms', rfl⟩ : ∃ m ms', ms = m :: ms' := by
        cases ms with
        | nil => simp at hms
        | cons m ms' => exact ⟨m, ms', rfl⟩
      have hms' : ms'.length = J' := by simpa using hms
      have hr1 : ∀ js, rn js k0 = some (d (js 0)) := fun js => by simpa using hrn js 0
      have hinv : ∀ js, ∃ m p, ∃ out : List A.Num, MeasureP A.prec n idx (s0 js).state (s0 js).arena (some (d (js 0))) m p out ∧
          RunsP A.prec (fun c : A.Num => c) (fun c => c) n (rn js) els' ⟨out, (s0 js).state, (s0 js).measurements ++ [(m, p)]⟩ (run js) := by
        intro js
        have := (runs_measure A n (rn js) idx els' (s0 js) (run js)).mp (hrun js)
        rwa [hk js, hr1 js] at this
      choose M P O hM hR using hinv
      have hev : ∀ js, ((run js).measurements.drop k0).map Prod.fst = m :: ms' ↔ M js = m ∧ ((run js).measurements.drop (k0 + 1)).map Prod.fst = ms' := by
        intro js
        obtain ⟨l, hl⟩ := runs_prefix A (hR js)
        have e1 : (run js).measurements.drop k0 = (M js, P js) :: l := by
          rw [hl, ← hk js, List.append_assoc, List.drop_left]; rfl
        have e2 : (run js).measurements.drop (k0 + 1) = l := by
          rw [← List.drop_drop, e1]; rfl
        rw [e1, e2, List.map_cons, List.cons.injEq]
      have hb0 := (jointBound_range f n N τ θ hτ hθ ((idx, ⟨w, .meas .measurement⟩) :: p') ε hε0).1
      rw [shareOf_congr N _ hev, branchW_meas _ _ _ _ _ _ _ rfl]
      by_cases hm : m < 2 ^ idx.length
      swap
      · rw [shareOf_false N _ (by
          rintro js ⟨h, -⟩
          obtain ⟨n1, n2, -⟩ := near js
          have := ((Props.C88_total A.prec n idx hn hi _ _ n1 n2 (some (d (js 0)))).2 _ _ _ (hM js)).1
          omega), projW_big _ _ (by show 2 ^ idx.length ≤ m; omega), branchW_zero, normW_zero, sub_zero, abs_zero]
        exact hb0
      rw [jointBound_meas _ _ _ _ _ _ _ _ .measurement rfl, if_pos hε1]
      set φ := ampAt (vecW n ψ) 0 with hφ
      have hφ1 : nrm n φ = 1 := nrm_wave hψ h1
      have hcum : cumul φ (2 ^ n) = 1 := by rw [cumul_full, hφ1, one_pow]
      have hQ : bornProb n idx m φ = normW (projW idx m ψ) := rep_born (rep_vecW n ψ) hψ idx hi m hm
      set χ := unitW (projW idx m ψ) with hχ
      have hχon : On (Low n) χ := (hψ.proj idx m).unit
      set b := normW (branchW rotAngle p' ms' χ) with hb
      have hbr : normW (branchW rotAngle p' ms' (projW idx m ψ)) = bornProb n idx m φ * b := by
        rw [hQ]
        rcases (normW_nonneg (projW idx m ψ)).eq_or_lt with h | h
        · rw [← h, normW_eq_zero h.symm, branchW_zero, normW_zero, zero_mul]
        · exact normW_branch_unit p' ms' h
      have hb1 : b ≤ 1 := (normW_branch_le p' hp' ms' hχon).trans (unitW_le _)
      have hQ1 : bornProb n idx m φ ≤ 1 := by rw [hQ, ← h1]; exact normW_proj_le hψ idx m
      have hQ0 := bornProb_nonneg n idx m φ
      set κ := ε * (2 + ε) + 20 * (2 ^ n * f.eps) with hκ
      have hκ0 : 0 ≤ κ := by positivity
      set S : (Fin (J' + 1) → Fin N) → Prop := fun js => M js = m ∧ ((run js).measurements.drop (k0 + 1)).map Prod.fst = ms' with hS
      set g : ℕ → ℝ := fun j => if h : j < N then shareOf N J' (fun js => S (Fin.cons ⟨j, h⟩ js)) else 0 with hg
      have hg' : ∀ j : Fin N, g j = shareOf N J' fun js => S (Fin.cons j js) := fun j => by simp [hg]
      have hg01 : ∀ j, j < N → 0 ≤ g j ∧ g j ≤ 1 := by
        intro j hj
        have := hg' ⟨j, hj⟩
        simp only at this
        rw [this]
        exact ⟨shareOf_nonneg _ _ _, shareOf_le_one _ _ _⟩
      rw [shareOf_cons N J' S g hg', hbr]
      -- draws away from the boundaries
      have hfar : ∀ (j : Fin N), (∀ k, k ≤ 2 ^ n → κ + τ < |((j : ℕ) : ℝ) / N - cumul φ k|) → ∀ x, x < 2 ^ n → cumul φ x ≤ ((j : ℕ) : ℝ) / N →
          ((j : ℕ) : ℝ) / N < cumul φ (x + 1) → ∀ js, M (Fin.cons j js) = outcomeOf n idx x ∧ (O (Fin.cons j js)).length = 2 ^ n ∧
            (∀ c ∈ O (Fin.cons j js), A.fin c) ∧
            nrm n (fun r => vals A.val (O (Fin.cons j js)) r - collapsed n idx (M (Fin.cons j js)) φ r) ≤
              2 * ε / Real.sqrt (bornProb n idx (M (Fin.cons j js)) φ) + 13 * (2 ^ n * f.eps) := by
        intro j hfar x x1 x2 x3 js
        have hj0 : (0 : ℝ) ≤ ((j : ℕ) : ℝ) / N := by positivity
        have hj1 : ((j : ℕ) : ℝ) / N < 1 := by rw [div_lt_one hN']; exact_mod_cast j.2
        have hdj := _root_.abs_le.mp (hd j j.2)
        have f0 := hfar 0 (by omega)
        have f1 := hfar (2 ^ n) le_rfl
        have fx := hfar x x1.le
        have fy := hfar (x + 1) x1
        rw [cumul_zero, sub_zero, abs_of_nonneg hj0] at f0
        rw [hcum, abs_of_neg (by linarith)] at f1
        rw [abs_of_nonneg (by linarith)] at fx
        rw [abs_of_neg (by linarith)] at fy
        obtain ⟨n1, n2, n3, n4⟩ := near (Fin.cons j js)
        obtain ⟨-, -, k⟩ := measure_err A hf he n hN idx hn hi _ _ n1 n2 n3 φ hφ1 ε hε1 (by
            refine le_trans (le_of_eq (nrm_congr n _ _ fun r hr => ?_)) n4
            rw [hφ, rep_amp (rep_vecW n ψ) r hr]) (d j) (by linarith) (by linarith) (by
          intro k _ k2
          have := hfar k k2
          rw [lt_abs] at this ⊢
          rcases this with h | h
          · left; linarith
          · right; linarith) x x1 (by linarith) (by linarith)
        obtain ⟨r1, -, r2, r3, r4⟩ := k _ _ _ (hM (Fin.cons j js))
        exact ⟨r1, r2, r3, r4⟩
      have hrare : ∀ (j : Fin N), (∀ k, k ≤ 2 ^ n → κ + τ < |((j : ℕ) : ℝ) / N - cumul φ k|) → ∀ x, x < 2 ^ n → cumul φ x ≤ ((j : ℕ) : ℝ) / N →
          ((j : ℕ) : ℝ) / N < cumul φ (x + 1) → ¬ Spells n idx m x → g j = 0 := by
        intro j hj x x1 x2 x3 hs
        rw [hg' j]
        refine shareOf_false N _ ?_
        rintro js ⟨h, -⟩
        rw [(hfar j hj x x1 x2 x3 js).1] at h
        exact hs ((spells_iff n idx m x hm).mpr h.symm)
      have hloss : (2 ^ n + 1) * (2 * (κ + τ) + 1 / N) + 2 * 2 ^ n / N = measLoss f n N τ ε := rfl
      refine le_min ?_ ?_
      · have a1 : 0 ≤ (∑ j ∈ range N, g j) / N := div_nonneg (sum_nonneg fun j hj => (hg01 j (mem_range.mp hj)).1) hN'.le
        have a2 : (∑ j ∈ range N, g j) / N ≤ 1 := by
          rw [← shareOf_cons N J' S g hg']
          exact shareOf_le_one _ _ _
        have a3 := mul_nonneg hQ0 (normW_nonneg (branchW rotAngle p' ms' χ))
        have a4 := mul_le_one₀ hQ1 (normW_nonneg (branchW rotAngle p' ms' χ)) hb1
        rw [_root_.abs_le]
        constructor <;> linarith
      rcases lt_or_ge (bornProb n idx m φ) θ with hlt | hge
      · have := avg_close n idx m φ hcum N hN0 (κ + τ) (by linarith) g hg01 b 1 (normW_nonneg _) hb1 (by norm_num) le_rfl (by
          intro j hj hf' x x1 x2 x3
          refine ⟨fun _ => ?_, hrare ⟨j, hj⟩ hf' x x1 x2 x3⟩
          have a := hg01 j hj
          have a' := normW_nonneg (branchW rotAngle p' ms' χ)
          rw [_root_.abs_le]
          constructor <;> linarith)
        rw [hloss] at this
        have := le_max_left θ (jointBound f n N τ θ p' (2 * ε / Real.sqrt θ + 13 * (2 ^ n * f.eps)))
        linarith
      · have hQp : 0 < bornProb n idx m φ := hθ.trans_le hge
        have hχ1 : normW χ = 1 := unitW_norm (by rw [← hQ]; exact hQp)
        have hε2 : 0 ≤ 2 * ε / Real.sqrt (bornProb n idx m φ) + 13 * (2 ^ n * f.eps) := by positivity
        obtain ⟨c0, c1⟩ := jointBound_range f n N τ θ hτ hθ p' _ hε2
        have := avg_close n idx m φ hcum N hN0 (κ + τ) (by linarith) g hg01 b _ (normW_nonneg _) hb1 c0 c1 (by
          intro j hj hf' x x1 x2 x3
          refine ⟨fun hs => ?_, hrare ⟨j, hj⟩ hf' x x1 x2 x3⟩
          have hsm := (spells_iff n idx m x hm).mp hs
          have hall := hfar ⟨j, hj⟩ hf' x x1 x2 x3
          have hMm : ∀ js, M (Fin.cons ⟨j, hj⟩ js) = m := fun js => by rw [(hall js).1, ← hsm]
          have e1 : g j = shareOf N J' fun js => ((run (Fin.cons ⟨j, hj⟩ js)).measurements.drop (k0 + 1)).map Prod.fst = ms' := by
            rw [show g j = _ from hg' ⟨j, hj⟩]
            exact shareOf_congr N _ fun js => by simp only [hS, hMm js, true_and]
          rw [e1]
          refine ih hp' J' hJ' ms' hms' (k0 + 1) (fun js => rn (Fin.cons ⟨j, hj⟩ js)) (fun js i => ?_)
            (fun js => ⟨O (Fin.cons ⟨j, hj⟩ js), (s0 (Fin.cons ⟨j, hj⟩ js)).state,
              (s0 (Fin.cons ⟨j, hj⟩ js)).measurements ++ [(M (Fin.cons ⟨j, hj⟩ js), P (Fin.cons ⟨j, hj⟩ js))]⟩)
            (fun js => run (Fin.cons ⟨j, hj⟩ js)) (fun js => ?_) (fun js => hR _) χ hχon hχ1 _ hε2 (fun _ js => ?_)
          · have := hrn (Fin.cons ⟨j, hj⟩ js) i.succ
            rw [Fin.cons_succ, Fin.val_succ, show k0 + ((i : ℕ) + 1) = k0 + 1 + i by omega] at this
            exact this
          · rw [List.length_append, hk]; rfl
          · obtain ⟨r1, r2, r3, r4⟩ := hall js
            rw [hMm js] at r4
            refine ⟨r2, (near _).1, r3, le_trans (le_of_eq (nrm_congr n _ _ fun r hr => ?_)) r4⟩
            rw [collapsed_wave hψ idx hi m hm r hr])
        rw [hloss] at this
        have hmono := jointBound_mono f n N τ θ hτ hθ p' _ (2 * ε / Real.sqrt θ + 13 * (2 ^ n * f.eps)) hε2 (by
          have := div_le_div_of_nonneg_left (show 0 ≤ 2 * ε by linarith) (Real.sqrt_pos.mpr hθ) (Real.sqrt_le_sqrt hge)
          linarith)
        have hmul := mul_le_of_le_one_left c0 hQ1
        have := le_max_right θ (jointBound f n N τ θ p' (2 * ε / Real.sqrt θ + 13 * (2 ^ n * f.eps)))
        linarith

end Verif
