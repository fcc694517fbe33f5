import Verif.Proofs.IeeeCircuit
import Verif.Proofs.Panics2
import Verif.Spec.FloatLoop

/-! # Circuits with all kinds of elements in rounded arithmetic -/

namespace Verif
open MatrixOp Finset Verif.Props

/-- the probabilities of all outcomes in exact arithmetic -/
theorem probsP_exact (n : ℕ) (idx : List ℕ) (input : List ℂ) (ps : List ℝ) :
    ProbsP exactPrec n idx (input.map reIm) ps ↔ measureProbs n idx input none = some ps := by
  have hp : ∀ m p, (∃ terms, measureTermsP exactPrec n m idx (input.map reIm) none = some terms ∧ SumsP exactPrec terms p) ↔
      measureProb n m idx input none = some p := by
    intro m p
    rw [← measureTerms_exact, Option.map_eq_some_iff]
    simp only [sums_exact, eq_comm]
  unfold ProbsP measureProbs
  simp only [hp]
  generalize List.range (1 <<< idx.length) = l
  induction l generalizing ps with
  | nil => simp
  | cons m l ih =>
    rw [List.mapM_cons]
    simp only [Option.bind_eq_bind, Option.bind_eq_some_iff, Option.pure_def, Option.some.injEq]
    constructor
    · intro h
      cases h with
      | cons h1 h2 => exact ⟨_, h1, _, (ih _).mp h2, rfl⟩
    · rintro ⟨p, h1, ps', h2, rfl⟩
      exact .cons h1 ((ih _).mpr h2)

theorem exact_inj (s t : StateC ℂ ℝ) (h : s.exact = t.exact) : s = t := by
  obtain ⟨a, b, c⟩ := s
  obtain ⟨a', b', c'⟩ := t
  simp only [StateC.exact, CalcState.mk.injEq] at h
  obtain ⟨rfl, rfl, h⟩ := h
  have : c = c' := by
    refine List.map_injective_iff.mpr ?_ h
    rintro (_ | _) (_ | _) h <;> simp_all
  rw [this]

/-- with exact numbers the loop is the one of `Verif.Model.Calc` -/
theorem runsC_exact (n : ℕ) (rnds : ℕ → ℝ) (els : List (ElemC ℂ)) (p : Pipeline) (h : List.Forall₂ ElemIs els p) (hp : ∀ e ∈ p, ∀ q ∈ e.1, q < n)
    (s t : StateC ℂ ℝ) (hs : s.state.length = 2 ^ n) (ha : s.arena.length = 2 ^ n) :
    RunsC exactPrec reIm (fun c => ⟨c.1, c.2⟩) n rnds els s t ↔ calcFold n rnds p s.exact = some t.exact := by
  induction h generalizing s with
  | nil =>
    constructor
    · intro h; cases h; rfl
    · intro h
      obtain rfl : s = t := exact_inj s t (Option.some.inj h)
      exact .nil s
  | @cons el e els' p' he hels ih =>
    have hp' : ∀ e ∈ p', ∀ q ∈ e.1, q < n := fun e he => hp e (by simp [he])
    have hl : ∀ s' : CalcState, calcStep n rnds s.exact e = some s' → s'.state.length = 2 ^ n ∧ s'.arena.length = 2 ^ n := by
      intro s' h'
      by_cases hm : Misfit e
      · rw [calcStep_misfit n rnds _ e hm] at h'; cases h'
      · obtain ⟨s2, h1, h2, h3⟩ := calcStep_fits n rnds s.exact e hm (hp e (by simp)) hs ha
        rw [h1] at h'
        obtain rfl := Option.some.inj h'
        exact ⟨h2, h3⟩
    have key : ∀ s' : StateC ℂ ℝ, calcStep n rnds s.exact e = some s'.exact →
        (RunsC exactPrec reIm (fun c => ⟨c.1, c.2⟩) n rnds els' s' t ↔ calcFold n rnds (e :: p') s.exact = some t.exact) := by
      intro s' h'
      rw [calcFold_cons, h', Option.bind_some]
      exact ih hp' s' (hl _ h').1 (hl _ h').2
    cases he with
    | gate U idx w g hg hU =>
      have hc : calcStep n rnds s.exact (idx, ⟨w, .unitary g⟩) = (applyOpOverwrite n U s.state s.arena 0 0).map fun arena =>
          StateC.exact ⟨arena, s.state, s.measurements⟩ := by
        unfold calcStep
        cases g with
        | GlobalPhase ρ => exact absurd rfl (hg ρ)
        | _ =>
          simp only [hU, Option.bind_eq_bind]
          show Option.bind (applyOpOverwrite n U s.state s.arena 0 0) _ = _
          cases applyOpOverwrite n U s.state s.arena 0 0 <;> rfl
      constructor
      · intro h
        cases h with
        | op _ _ _ _ arena h1 h2 =>
          rw [h1] at hc
          exact (key _ hc).mp h2
      · intro h
        cases h1 : applyOpOverwrite n U s.state s.arena 0 0 with
        | none => rw [h1] at hc; rw [calcFold_cons, hc] at h; cases h
        | some arena =>
          rw [h1] at hc
          exact .op U _ _ _ arena h1 ((key _ hc).mpr h)
    | phase idx w ρ =>
      have hc : calcStep n rnds s.exact (idx, ⟨w, .unitary (.GlobalPhase ρ)⟩) = some (StateC.exact ⟨s.arena, s.state, s.measurements⟩) := rfl
      constructor
      · intro h
        cases h with
        | globalPhase _ _ _ h => exact (key _ hc).mp h
      · intro h
        exact .globalPhase _ _ _ ((key _ hc).mpr h)
    | measurement idx w =>
      have hc : calcStep n rnds s.exact (idx, ⟨w, .meas .measurement⟩) =
          (measure n idx s.state s.arena none none (rnds s.measurements.length)).map fun r =>
            StateC.exact ⟨r.2, s.state, s.measurements ++ [.single r.1.1 r.1.2]⟩ := by
        unfold calcStep
        show Option.bind (measure n idx s.state s.arena none none (rnds s.exact.measurements.length)) _ = _
        rw [show s.exact.measurements.length = s.measurements.length by simp [StateC.exact]]
        cases measure n idx s.state s.arena none none (rnds s.measurements.length) with
        | none => rfl
        | some r => simp [StateC.exact]
      have hid : ∀ o : List ℂ, (o.map reIm).map (fun c : ℝ × ℝ => (⟨c.1, c.2⟩ : ℂ)) = o := by
        intro o; rw [List.map_map]; exact List.map_id o
      constructor
      · intro h
        cases h with
        | measurement _ _ _ _ m q out h1 h2 =>
          obtain ⟨o, h3, rfl⟩ := (measureP_exact n idx s.state s.arena hs _ m q out).mp h1
          rw [h3] at hc
          rw [hid] at h2
          exact (key _ hc).mp h2
      · intro h
        cases h3 : measure n idx s.state s.arena none none (rnds s.measurements.length) with
        | none => rw [h3] at hc; rw [calcFold_cons, hc] at h; cases h
        | some r =>
          rw [h3] at hc
          have := (key _ hc).mpr h
          rw [← hid r.2] at this
          exact .measurement idx _ _ _ r.1.1 r.1.2 _ ((measureP_exact n idx s.state s.arena hs _ _ _ _).mpr ⟨r.2, h3, rfl⟩) this
    | stochastic idx w =>
      have hc : calcStep n rnds s.exact (idx, ⟨w, .meas .stochastic⟩) =
          (measureProbs n idx s.state none).map fun ps => StateC.exact ⟨s.arena, s.state, s.measurements ++ [.stochastic ps]⟩ := by
        unfold calcStep
        show Option.bind (measureProbs n idx s.state none) _ = _
        cases measureProbs n idx s.state none with
        | none => rfl
        | some r => simp [StateC.exact]
      constructor
      · intro h
        cases h with
        | stochastic _ _ _ _ ps h1 h2 =>
          rw [(probsP_exact n idx s.state ps).mp h1] at hc
          exact (key _ hc).mp h2
      · intro h
        cases h3 : measureProbs n idx s.state none with
        | none => rw [h3] at hc; rw [calcFold_cons, hc] at h; cases h
        | some ps =>
          rw [h3] at hc
          exact .stochastic idx _ _ _ ps ((probsP_exact n idx s.state ps).mpr h3) ((key _ hc).mpr h)

variable {f : Format} {fl : ℝ → ℝ}

namespace Format.Arith

/-- the probabilities of all outcomes in rounded arithmetic -/
theorem probs_err (A : f.Arith fl) (hf : 10 ≤ f.p) (he : f.emin + 2 * f.p + 4 ≤ 0) (n : ℕ) (hN : 2 ^ n * f.eps ≤ 1 / 64) (idx : List ℕ) (hn : idx.Nodup)
    (hidx : ∀ i ∈ idx, i < n) (v : List A.Num) (hv : v.length = 2 ^ n) (hfin : ∀ c ∈ v, A.fin c) (φ : ℕ → ℂ) (hφ : nrm n φ ≤ 1) (ε : ℝ) (hε : ε ≤ 1)
    (hvφ : nrm n (fun r => vals A.val v r - φ r) ≤ ε) :
    (∃ ps, ProbsP A.prec n idx v ps) ∧ ∀ ps, ProbsP A.prec n idx v ps →
      List.Forall₂ (NearProb f (ε * (2 + ε) + 24 * (2 ^ n * f.eps))) ps ((List.range (2 ^ idx.length)).map fun m => bornProb n idx m φ) := by
  have hd := eps_pos f
  have hd1 := eps_le f hf
  have hN1 : (1 : ℝ) ≤ 2 ^ n := one_le_pow₀ (by norm_num)
  have hn2 : nrm n (vals A.val v) ≤ 2 := by
    have := nrm_le_of_sub n (vals A.val v) φ
    linarith
  have one : ∀ m, ∃ ts, measureTermsP A.prec n m idx v none = some ts ∧ ∀ p, SumsP A.prec ts p →
      NearProb f (ε * (2 + ε) + 24 * (2 ^ n * f.eps)) p (bornProb n idx m φ) := by
    intro m
    have hPQ := mask_sq_sub n (Spells n idx m) (vals A.val v) φ ε hφ hvφ
    rw [← born_mask, ← born_mask] at hPQ
    have hP4 : bornProb n idx m (vals A.val v) ≤ 4 := by
      rw [born_mask]
      have : nrm n (maskTo (Spells n idx m) (vals A.val v)) ≤ 2 := (nrm_mono n _ _ fun r _ => maskTo_le _ _ r).trans hn2
      nlinarith [nrm_nonneg n (maskTo (Spells n idx m) (vals A.val v))]
    obtain ⟨ts, t1, t2⟩ := prob_err A hf n m idx hn hidx v (fin_bound A n v hv hn2 hfin) (bornProb n idx m (vals A.val v))
      (by rw [amp_vals]) hP4 hN
    refine ⟨ts, t1, fun p hp => ?_⟩
    obtain ⟨y, y1, y2, y3⟩ := t2 p hp
    refine ⟨y, y1, y2, (abs_sub_le _ (bornProb n idx m (vals A.val v)) _).trans ?_⟩
    have h1 := tiny_sq f he
    have h2 : f.eps ^ 2 ≤ 1 / 1024 * f.eps := by nlinarith
    have h3 : 10 * (2 ^ n * f.tiny) ≤ 2 ^ n * f.eps := by nlinarith
    have hDP : 2 ^ n * f.eps * bornProb n idx m (vals A.val v) ≤ 2 ^ n * f.eps * 4 := mul_le_mul_of_nonneg_left hP4 (by positivity)
    have hD : 0 < 2 ^ n * f.eps := mul_pos (by positivity) hd
    linarith
  unfold ProbsP
  rw [Nat.one_shiftLeft]
  generalize List.range (2 ^ idx.length) = l
  induction l with
  | nil =>
    refine ⟨⟨[], .nil⟩, fun ps h => ?_⟩
    cases h
    exact .nil
  | cons m l ih =>
    obtain ⟨ts, t1, t2⟩ := one m
    obtain ⟨⟨ps, h1⟩, h2⟩ := ih
    obtain ⟨p, hp⟩ := sums_exists A.prec ts
    refine ⟨⟨p :: ps, .cons ⟨ts, t1, hp⟩ h1⟩, fun qs hq => ?_⟩
    cases hq with
    | cons a b =>
      obtain ⟨ts', a1, a2⟩ := a
      obtain rfl : ts = ts' := by rw [t1] at a1; exact Option.some.inj a1
      exact .cons (t2 _ a2) (h2 _ b)

end Format.Arith
end Verif
