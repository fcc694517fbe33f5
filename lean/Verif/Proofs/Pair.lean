import Verif.Spec.Pair
import Verif.Props.Stale

/-! # Circuits of any elements -/

namespace Verif
open Complex Classical MeasureTheory
open Verif.Props (rep_zero)

/-- a state of length 1, or zero -/
def UnitOrZero (ψ : Wave) : Prop := ψ = 0 ∨ normW ψ = 1

theorem UnitOrZero.entry {n : ℕ} {ψ : Wave} (h : UnitOrZero ψ) (hl : On (Low n) ψ) (e : List ℕ × CObj) (he : SegU n e) :
    UnitOrZero (entryW rotAngle e ψ) := by
  rcases h with rfl | h
  · exact Or.inl (map_zero _)
  · exact Or.inr (by rw [normW_entry hl e he, h])

/-- what is known of the two buffers -/
structure PairInv (n : ℕ) (st : CalcState) (S : Wave × Wave) : Prop where
  r1 : Rep n st.state S.1
  r2 : Rep n st.arena S.2
  l1 : On (Low n) S.1
  l2 : On (Low n) S.2
  u1 : UnitOrZero S.1
  u2 : UnitOrZero S.2

theorem softMeasure_zero (n : ℕ) (r : Reg) (hi : ∀ q ∈ r, q < n) (t : ℝ) (ht : 0 < t) :
    softMeasure n r (vecW n 0) none t = some 0 := by
  have hv : vecW n 0 = List.replicate (2 ^ n) (0 : ℂ) := by
    unfold vecW
    simp [List.map_const']
  have hl : ∀ (k i : ℕ), softLoop (List.replicate k (0 : ℂ)) i t = none := by
    intro k
    induction k with
    | zero => intro i; rfl
    | succ k ih =>
      intro i
      rw [List.replicate_succ, softLoop]
      simp only [map_zero, sub_zero]
      rw [if_neg (not_le.mpr ht)]
      exact ih _
  unfold softMeasure
  rw [hv]
  simp only [List.length_replicate, Nat.one_shiftLeft, lt_irrefl, if_false, mul_one, Option.getD_none]
  rw [hl, mapM_some r (bitPos n) (fun q => n - 1 - q) (fun q hq => by simp [bitPos, hi q hq])]
  show some (extractBits 0 _) = some 0
  congr 1
  refine Nat.eq_of_testBit_eq fun i => ?_
  rw [testBit_extractBits]
  simp

theorem probsW_zero_proj (r : Reg) (m : ℕ) : projW r m (0 : Wave) = 0 := by ext x; rw [projW_apply]; simp

/-- one measurement that collapses, whatever the current state is -/
theorem pair_measure (n : ℕ) (rnds : ℕ → ℝ) (st : CalcState) (S : Wave × Wave) (h : PairInv n st S) (e : List ℕ × CObj)
    (ho : e.2.object = .meas .measurement) (hn : e.1.Nodup) (hi : ∀ q ∈ e.1, q < n)
    (h0 : 0 < rnds st.measurements.length) (h1 : rnds st.measurements.length < 1) :
    ∃ st' m, calcStep n rnds st e = some st' ∧ PairInv n st' (pairStep rotAngle e m S) ∧
      st'.measurements = st.measurements ++ resultW e m S.1 ∧ 0 < chanceW e.1 m S.1 ∧
      softMeasure n e.1 (vecW n S.1) none (rnds st.measurements.length) = some m := by
  have hst : st.state = vecW n S.1 := rep_unique h.r1 (rep_vecW n _)
  rcases h.u1 with hz | hz
  · refine ⟨⟨st.arena, st.state, st.measurements ++ [.single 0 0]⟩, 0, ?_, ?_, ?_, ?_, ?_⟩
    · have hs := softMeasure_zero n e.1 hi _ h0
      rw [hz] at hst
      have hb : bornProb n e.1 0 (ampAt st.state 0) = 0 := by
        rw [rep_born h.r1 h.l1 e.1 hi 0 (by positivity), hz, probsW_zero_proj, normW_zero]
      have hp : measureProb n 0 e.1 st.state none = some 0 := by
        rw [measureProb_eq n 0 e.1 hn hi]
        simp only [Option.getD_none, hb]
      unfold calcStep
      rw [ho]
      simp only
      unfold measure
      simp only [Option.map_none, Option.bind_none]
      rw [hst, hs, ← hst]
      show (do
        let p ← measureProb n 0 e.1 st.state none
        let out ← measureState n e.1 (0, p) st.state st.arena none
        some ((0, p), out)) >>= _ = _
      rw [hp]
      simp [measureState]
    · have : pairStep rotAngle e 0 S = (S.2, S.1) := by
        unfold pairStep
        rw [ho]
        simp only
        rw [if_pos (by rw [hz, probsW_zero_proj, normW_zero])]
      rw [this]
      exact ⟨h.r2, h.r1, h.l2, h.l1, h.u2, h.u1⟩
    · unfold resultW
      rw [ho]
      simp only
      rw [hz, probsW_zero_proj, normW_zero]
    · unfold chanceW
      rw [if_pos hz, if_pos rfl]; exact one_pos
    · rw [hz]; exact softMeasure_zero n e.1 hi _ h0
  · have hu : unitW S.1 = S.1 := by unfold unitW; rw [hz]; simp
    obtain ⟨st', m, a1, a2, a3, a4, a5, a6⟩ := calcStep_measure n rnds st S.1 h.l1 (by rw [hz]; exact one_pos)
      (by rw [hu]; exact h.r1) h.r2.1 e ho hn hi h0 h1
    rw [hu] at a2
    rw [hz, div_one] at a6
    have hs : pairStep rotAngle e m S = (unitW (projW e.1 m S.1), S.1) := by
      unfold pairStep
      rw [ho]
      simp only
      rw [if_neg a3.ne']
    have harena : st'.arena = st.state := by
      unfold calcStep at a1
      rw [ho] at a1
      simp only [Option.bind_eq_bind, Option.bind_eq_some_iff] at a1
      obtain ⟨x, -, hx⟩ := a1
      cases hx; rfl
    refine ⟨st', m, a1, ?_, ?_, ?_, a2⟩
    · rw [hs]
      exact ⟨a4, by rw [harena]; exact h.r1, (h.l1.proj _ _).unit, h.l1, Or.inr (unitW_norm a3), h.u1⟩
    · rw [a6]
      unfold resultW
      rw [ho]
    · unfold chanceW
      rw [if_neg (fun hc => by rw [hc, normW_zero] at hz; exact absurd hz (by norm_num))]
      exact a3

theorem softMeasure_some (n : ℕ) (r : Reg) (hi : ∀ q ∈ r, q < n) (v : List ℂ) (t : ℝ) :
    ∃ m, softMeasure n r v none t = some m ∧ m < 2 ^ r.length := by
  unfold softMeasure
  rw [mapM_some r (bitPos n) (fun q => n - 1 - q) (fun q hq => by simp [bitPos, hi q hq])]
  exact ⟨_, rfl, outcomeOf_lt n r _⟩

/-- one measurement that collapses, with any draw -/
theorem pair_measure_any (n : ℕ) (rnds : ℕ → ℝ) (st : CalcState) (S : Wave × Wave) (h : PairInv n st S) (e : List ℕ × CObj)
    (ho : e.2.object = .meas .measurement) (hn : e.1.Nodup) (hi : ∀ q ∈ e.1, q < n) :
    ∃ st' m, calcStep n rnds st e = some st' ∧ m < 2 ^ e.1.length ∧ PairInv n st' (pairStep rotAngle e m S) ∧
      st'.measurements = st.measurements ++ resultW e m S.1 := by
  obtain ⟨m, m1, m2⟩ := softMeasure_some n e.1 hi st.state (rnds st.measurements.length)
  have hb := rep_born h.r1 h.l1 e.1 hi m m2
  have hres : resultW e m S.1 = [.single m (normW (projW e.1 m S.1))] := by unfold resultW; rw [ho]
  by_cases hz : normW (projW e.1 m S.1) = 0
  · refine ⟨⟨st.arena, st.state, st.measurements ++ [.single m 0]⟩, m, ?_, m2, ?_, by rw [hres, hz]⟩
    · have hp : measureProb n m e.1 st.state none = some 0 := by
        rw [measureProb_eq n m e.1 hn hi]
        simp only [Option.getD_none]
        rw [hb, hz]
      unfold calcStep
      rw [ho]
      simp only
      unfold measure
      simp only [Option.map_none, Option.bind_none]
      rw [m1]
      show (do
        let p ← measureProb n m e.1 st.state none
        let out ← measureState n e.1 (m, p) st.state st.arena none
        some ((m, p), out)) >>= _ = _
      rw [hp]
      simp [measureState]
    · have : pairStep rotAngle e m S = (S.2, S.1) := by
        unfold pairStep
        rw [ho]
        simp only
        rw [if_pos hz]
      rw [this]
      exact ⟨h.r2, h.r1, h.l2, h.l1, h.u2, h.u1⟩
  · have hpos : 0 < normW (projW e.1 m S.1) := lt_of_le_of_ne (normW_nonneg _) (Ne.symm hz)
    obtain ⟨out, o1, o2, o3, o4, -⟩ := Props.C22_collapse n m e.1 hn hi m2 st.state st.arena h.r1.1 h.r2.1
      (rnds st.measurements.length) (by rw [hb]; exact hz)
    rw [hb] at o1 o4
    refine ⟨⟨out, st.state, st.measurements ++ [.single m (normW (projW e.1 m S.1))]⟩, m, ?_, m2, ?_, by rw [hres]⟩
    · have hm : measure n e.1 st.state st.arena none none (rnds st.measurements.length) =
          some ((m, normW (projW e.1 m S.1)), out) := by
        rw [← o1]
        unfold measure
        simp only [Option.map_none, Option.bind_none, Option.bind_some, m1]
      unfold calcStep
      rw [ho]
      simp only
      rw [hm]; rfl
    · have : pairStep rotAngle e m S = (unitW (projW e.1 m S.1), S.1) := by
        unfold pairStep
        rw [ho]
        simp only
        rw [if_neg hz]
      rw [this]
      refine ⟨⟨o2, fun i hi' => ?_⟩, h.r1, (h.l1.proj _ _).unit, h.l1, Or.inr (unitW_norm hpos), h.u1⟩
      unfold unitW
      rw [Finsupp.smul_apply, projW_apply]
      by_cases hs : Spells n e.1 m i
      · rw [o4 i hi' hs, if_pos ((spells_valQ n e.1 hi m i m2).mp hs), rep_amp h.r1 i hi', smul_eq_mul, mul_comm]
      · rw [o3 i hi' hs, if_neg fun h => hs ((spells_valQ n e.1 hi m i m2).mpr h)]; simp

/-- one element of any kind -/
theorem pair_step (n : ℕ) (rnds : ℕ → ℝ) (st : CalcState) (S : Wave × Wave) (h : PairInv n st S) (e : List ℕ × CObj)
    (he : AnyOK n e) (h0 : 0 < rnds st.measurements.length) (h1 : rnds st.measurements.length < 1) :
    ∃ st' m, calcStep n rnds st e = some st' ∧ PairInv n st' (pairStep rotAngle e m S) ∧
      st'.measurements = st.measurements ++ resultW e m S.1 ∧
      (isColl e = true → 0 < chanceW e.1 m S.1 ∧
        softMeasure n e.1 (vecW n S.1) none (rnds st.measurements.length) = some m) := by
  rcases he with he | ⟨ho, he | he⟩
  · obtain ⟨st', a1, a2, a3, a4, a5, a6⟩ := Props.stale_step n rnds st S h.r1 h.r2 h.l1 h.l2 e (Or.inl he.1)
    obtain ⟨-, -, u, hu, hg⟩ := id he.1
    have hs : pairStep rotAngle e 0 S = (entryW rotAngle e S.1, S.1) := by
      unfold pairStep
      rw [hu]
      cases u with
      | GlobalPhase ρ => exact absurd rfl (hg ρ)
      | _ => rfl
    rw [Props.staleStep_gate rotAngle he.1] at a2 a3 a4 a5
    refine ⟨st', 0, a1, ?_, ?_, ?_⟩
    · rw [hs]
      exact ⟨a2, a3, a4, a5, h.u1.entry h.l1 e he, h.u1⟩
    · rw [a6, Props.not_meas he.1]
      unfold resultW
      rw [hu]; simp
    · intro hc
      unfold isColl at hc
      rw [hu] at hc
      cases hc
  · obtain ⟨st', a1, a2, a3, a4, a5, a6⟩ := Props.stale_step n rnds st S h.r1 h.r2 h.l1 h.l2 e (Or.inr ⟨he, ho⟩)
    have hs : pairStep rotAngle e 0 S = (S.2, S.1) := by
      unfold pairStep
      rcases he with ⟨ρ, he⟩ | he <;> rw [he]
    rw [Props.staleStep_idle rotAngle he] at a2 a3 a4 a5
    refine ⟨st', 0, a1, ?_, ?_, ?_⟩
    · rw [hs]
      exact ⟨a2, a3, a4, a5, h.u2, h.u1⟩
    · rw [a6]
      unfold resultW isMeas
      rcases he with ⟨ρ, he⟩ | he <;> rw [he] <;> simp
    · intro hc
      unfold isColl at hc
      rcases he with ⟨ρ, he⟩ | he <;> rw [he] at hc <;> cases hc
  · obtain ⟨st', m, a1, a2, a3, a4, a5⟩ := pair_measure n rnds st S h e he ho.1 ho.2.1 h0 h1
    exact ⟨st', m, a1, a2, a3, fun _ => ⟨a4, a5⟩⟩

theorem pairStep_congr (ang : Rot → ℝ) (e : List ℕ × CObj) (he : isColl e = false) (m m' : ℕ) (S : Wave × Wave) :
    pairStep ang e m S = pairStep ang e m' S ∧ resultW e m S.1 = resultW e m' S.1 := by
  unfold pairStep resultW
  unfold isColl at he
  split <;> simp_all

/-- the draws that make a run give the outcomes `ms`, measurement by measurement; a stochastic measurement uses no draw -/
noncomputable def pairSets (n : ℕ) : Pipeline → List ℕ → Wave × Wave → List (Set ℝ)
  | [], _, _ => []
  | e :: p, ms, S =>
    (if isColl e then [{t | t ∈ Set.Ioo (0 : ℝ) 1 ∧ softMeasure n e.1 (vecW n S.1) none t = some (ms.headD 0)}]
      else if isMeas e then [Set.Ioo (0 : ℝ) 1] else []) ++
    pairSets n p (restOf e ms) (pairStep rotAngle e (ms.headD 0) S)

theorem pairSets_length (n : ℕ) (p : Pipeline) (ms : List ℕ) (S : Wave × Wave) : (pairSets n p ms S).length = measCount p := by
  induction p generalizing ms S with
  | nil => rfl
  | cons e p ih =>
    rw [pairSets, List.length_append, ih]
    unfold measCount
    rw [List.countP_cons]
    by_cases hc : isColl e = true
    · have : isMeas e = true := by
        unfold isColl at hc
        unfold isMeas
        split at hc <;> simp_all
      rw [if_pos hc, this]; simp; omega
    · rw [if_neg hc]
      split <;> simp; omega

theorem isColl_meas {e : List ℕ × CObj} (h : isColl e = true) : isMeas e = true := by
  unfold isColl at h
  unfold isMeas
  split at h <;> simp_all

theorem resultW_length (e : List ℕ × CObj) (m : ℕ) (ψ : Wave) : (resultW e m ψ).length = if isMeas e then 1 else 0 := by
  unfold resultW isMeas
  split <;> simp_all

/-- a run with draws in (0,1): it succeeds, its outcomes have positive probability, and the results are those of these
outcomes; it gives other outcomes exactly if some draw lies outside the sets of those outcomes -/
theorem pair_run (n : ℕ) (rnds : ℕ → ℝ) (hr : ∀ k, 0 < rnds k ∧ rnds k < 1) (p : Pipeline) (hp : ∀ e ∈ p, AnyOK n e)
    (st : CalcState) (S : Wave × Wave) (h : PairInv n st S) :
    ∃ st' ms, calcFold n rnds p st = some st' ∧ ms.length = collCount p ∧
      st'.measurements = st.measurements ++ resultsW rotAngle p ms S ∧ 0 < chancesW rotAngle p ms S ∧
      PairInv n st' (pairW rotAngle p ms S) ∧
      ∀ ms', ms'.length = collCount p →
        (ms' = ms ↔ ∀ j A, (pairSets n p ms' S)[j]? = some A → rnds (st.measurements.length + j) ∈ A) := by
  induction p generalizing st S with
  | nil =>
    refine ⟨st, [], rfl, rfl, by simp [resultsW], by simp [chancesW], h, fun ms' h => ?_⟩
    rw [show ms' = [] from List.length_eq_zero_iff.mp h]
    simp [pairSets]
  | cons e p ih =>
    obtain ⟨s1, m, a1, a2, a3, a4⟩ := pair_step n rnds st S h e (hp e (by simp)) (hr _).1 (hr _).2
    obtain ⟨st', ms, b1, b2, b3, b4, b5, b6⟩ := ih (fun e' he' => hp e' (by simp [he'])) s1 _ a2
    have hlen : s1.measurements.length = st.measurements.length + if isMeas e then 1 else 0 := by
      rw [a3, List.length_append, resultW_length]
    by_cases hc : isColl e = true
    · obtain ⟨c1, c2⟩ := a4 hc
      have hcc : collCount (e :: p) = collCount p + 1 := by simp [collCount, hc]
      rw [isColl_meas hc, if_pos rfl] at hlen
      have hrest : restOf e (m :: ms) = ms := by simp [restOf, hc]
      refine ⟨st', m :: ms, by rw [calcFold_cons, a1]; exact b1, by simp [hcc, b2], ?_, ?_, ?_, ?_⟩
      · rw [resultsW, hrest, b3, a3, List.append_assoc]; rfl
      · rw [chancesW, hrest, if_pos hc]; exact mul_pos c1 b4
      · rw [pairW, hrest]; exact b5
      · intro ms' h'
        cases ms' with
        | nil => rw [hcc] at h'; simp at h'
        | cons m' ms' =>
          have hl : ms'.length = collCount p := by rw [hcc] at h'; simpa using h'
          have hd : pairSets n (e :: p) (m' :: ms') S =
              {t | t ∈ Set.Ioo (0 : ℝ) 1 ∧ softMeasure n e.1 (vecW n S.1) none t = some m'} ::
                pairSets n p ms' (pairStep rotAngle e m' S) := by
            rw [pairSets, if_pos hc]
            simp [restOf, hc]
          rw [hd]
          constructor
          · intro he
            obtain ⟨rfl, rfl⟩ := List.cons.inj he
            have h9 := (b6 ms' hl).mp rfl
            rintro (_ | j) A hj
            · simp only [List.getElem?_cons_zero, Option.some.injEq] at hj
              rw [← hj]
              exact ⟨hr _, c2⟩
            · have := h9 j A (by simpa using hj)
              rw [hlen] at this
              rw [show st.measurements.length + (j + 1) = st.measurements.length + 1 + j by omega]
              exact this
          · intro hall
            have h1 := (hall 0 _ rfl).2
            rw [Nat.add_zero, c2, Option.some.injEq] at h1
            subst h1
            congr 1
            rw [b6 ms' hl]
            intro j A hj
            have := hall (j + 1) A (by simpa using hj)
            rw [hlen]
            rw [show st.measurements.length + 1 + j = st.measurements.length + (j + 1) by omega]
            exact this
    · have hf : isColl e = false := by simpa using hc
      have hcc : collCount (e :: p) = collCount p := by simp [collCount, hf]
      have hrest : ∀ l, restOf e l = l := fun l => by simp [restOf, hf]
      have hst : ∀ m', pairStep rotAngle e m' S = pairStep rotAngle e m S := fun m' => (pairStep_congr _ e hf m' m S).1
      refine ⟨st', ms, by rw [calcFold_cons, a1]; exact b1, by rw [hcc]; exact b2, ?_, ?_, ?_, ?_⟩
      · rw [resultsW, hrest, hst, b3, a3, List.append_assoc, (pairStep_congr rotAngle e hf (ms.headD 0) m S).2]
      · rw [chancesW, hrest, hst, if_neg hc, one_mul]; exact b4
      · rw [pairW, hrest, hst]; exact b5
      · intro ms' h'
        rw [b6 ms' (by rw [← hcc]; exact h'), pairSets, hrest, hst (ms'.headD 0), if_neg hc, hlen]
        cases hm : isMeas e with
        | false => simp
        | true =>
          simp only [if_true]
          constructor
          · intro hall
            rintro (_ | j) A hj
            · simp only [List.cons_append, List.nil_append, List.getElem?_cons_zero, Option.some.injEq] at hj
              rw [← hj]; exact hr _
            · have := hall j A (by simpa using hj)
              rwa [show st.measurements.length + (j + 1) = st.measurements.length + 1 + j by omega]
          · intro hall j A hj
            have := hall (j + 1) A (by simpa using hj)
            rwa [show st.measurements.length + 1 + j = st.measurements.length + (j + 1) by omega]

/-- a run with any draws -/
theorem pair_run_any (n : ℕ) (rnds : ℕ → ℝ) (p : Pipeline) (hp : ∀ e ∈ p, AnyOK n e) (st : CalcState) (S : Wave × Wave)
    (h : PairInv n st S) :
    ∃ st' ms, calcFold n rnds p st = some st' ∧ ms.length = collCount p ∧
      st'.measurements = st.measurements ++ resultsW rotAngle p ms S ∧ PairInv n st' (pairW rotAngle p ms S) := by
  induction p generalizing st S with
  | nil => exact ⟨st, [], rfl, rfl, by simp [resultsW], h⟩
  | cons e p ih =>
    have hp' : ∀ e ∈ p, AnyOK n e := fun e' he' => hp e' (by simp [he'])
    by_cases hc : isColl e = true
    · have ho : e.2.object = .meas .measurement := by
        unfold isColl at hc
        split at hc
        · assumption
        · cases hc
      have hok : EntryOK n e := by
        rcases hp e (by simp) with he | he
        · exact he.1.1
        · exact he.1
      obtain ⟨s1, m, a1, -, a2, a3⟩ := pair_measure_any n rnds st S h e ho hok.1 hok.2.1
      obtain ⟨st', ms, b1, b2, b3, b5⟩ := ih hp' s1 _ a2
      have hcc : collCount (e :: p) = collCount p + 1 := by simp [collCount, hc]
      have hrest : restOf e (m :: ms) = ms := by simp [restOf, hc]
      refine ⟨st', m :: ms, by rw [calcFold_cons, a1]; exact b1, by simp [hcc, b2], ?_, ?_⟩
      · rw [resultsW, hrest, b3, a3, List.append_assoc]; rfl
      · rw [pairW, hrest]; exact b5
    · have hf : isColl e = false := by simpa using hc
      have hstep : ∃ st' , calcStep n rnds st e = some st' ∧ PairInv n st' (pairStep rotAngle e 0 S) ∧
          st'.measurements = st.measurements ++ resultW e 0 S.1 := by
        have hgen : ∀ rnds', calcStep n rnds st e = calcStep n rnds' st e := by
          intro rnds'
          unfold isColl at hf
          unfold calcStep
          split <;> simp_all
        obtain ⟨st', m, a1, a2, a3, -⟩ := pair_step n (fun _ => 1 / 2) st S h e (hp e (by simp)) (by norm_num) (by norm_num)
        obtain ⟨c1, c2⟩ := pairStep_congr rotAngle e hf m 0 S
        exact ⟨st', by rw [hgen]; exact a1, by rw [← c1]; exact a2, by rw [← c2]; exact a3⟩
      obtain ⟨s1, a1, a2, a3⟩ := hstep
      obtain ⟨st', ms, b1, b2, b3, b5⟩ := ih hp' s1 _ a2
      have hcc : collCount (e :: p) = collCount p := by simp [collCount, hf]
      have hrest : restOf e ms = ms := by simp [restOf, hf]
      obtain ⟨c1, c2⟩ := pairStep_congr rotAngle e hf (ms.headD 0) 0 S
      refine ⟨st', ms, by rw [calcFold_cons, a1]; exact b1, by rw [hcc]; exact b2, ?_, ?_⟩
      · rw [resultsW, hrest, c1, c2, b3, a3, List.append_assoc]
      · rw [pairW, hrest, c1]; exact b5

/-! ## the probability of a run -/

theorem pairSet_volume (n : ℕ) (r : Reg) (hi : ∀ q ∈ r, q < n) (ψ : Wave) (hψ : On (Low n) ψ) (hu : UnitOrZero ψ) (m : ℕ) :
    volume {t | t ∈ Set.Ioo (0 : ℝ) 1 ∧ softMeasure n r (vecW n ψ) none t = some m} = ENNReal.ofReal (chanceW r m ψ) := by
  rcases hu with rfl | hu
  · unfold chanceW
    rw [if_pos rfl]
    by_cases hm : m = 0
    · subst hm
      rw [if_pos rfl]
      have : {t | t ∈ Set.Ioo (0 : ℝ) 1 ∧ softMeasure n r (vecW n 0) none t = some 0} = Set.Ioo 0 1 := by
        ext t
        exact ⟨fun h => h.1, fun h => ⟨h, softMeasure_zero n r hi t h.1⟩⟩
      rw [this]; simp
    · rw [if_neg hm, ENNReal.ofReal_zero]
      refine (congrArg volume (Set.eq_empty_iff_forall_notMem.mpr ?_)).trans measure_empty
      rintro t ⟨h1, ht⟩
      rw [softMeasure_zero n r hi t h1.1, Option.some.injEq] at ht
      exact hm ht.symm
  · have hw : unitW ψ = ψ := by unfold unitW; rw [hu]; simp
    have := drawSet_volume n r hi ψ hψ (by rw [hu]; exact one_pos) m
    rw [hw, hu, div_one] at this
    rw [this]
    unfold chanceW
    rw [if_neg (fun hc => by rw [hc, normW_zero] at hu; exact absurd hu (by norm_num))]

theorem chancesW_nonneg (ang : Rot → ℝ) (p : Pipeline) (ms : List ℕ) (S : Wave × Wave) : 0 ≤ chancesW ang p ms S := by
  induction p generalizing ms S with
  | nil => exact zero_le_one
  | cons e p ih =>
    rw [chancesW]
    refine mul_nonneg ?_ (ih _ _)
    split
    · unfold chanceW
      split
      · split <;> norm_num
      · exact normW_nonneg _
    · exact zero_le_one

theorem PairStep_low {n : ℕ} {S : Wave × Wave} (l1 : On (Low n) S.1) (l2 : On (Low n) S.2) (u1 : UnitOrZero S.1)
    (u2 : UnitOrZero S.2) (e : List ℕ × CObj) (he : AnyOK n e) (m : ℕ) :
    On (Low n) (pairStep rotAngle e m S).1 ∧ On (Low n) (pairStep rotAngle e m S).2 ∧
      UnitOrZero (pairStep rotAngle e m S).1 ∧ UnitOrZero (pairStep rotAngle e m S).2 := by
  rcases he with he | ⟨ho, he | he⟩
  · obtain ⟨-, -, u, hu, hg⟩ := id he.1
    have hs : pairStep rotAngle e m S = (entryW rotAngle e S.1, S.1) := by
      unfold pairStep
      rw [hu]
      cases u with
      | GlobalPhase ρ => exact absurd rfl (hg ρ)
      | _ => rfl
    rw [hs]
    exact ⟨l1.entryLow e he.1.1.2.1, l1, u1.entry l1 e he, u1⟩
  · have hs : pairStep rotAngle e m S = (S.2, S.1) := by
      unfold pairStep
      rcases he with ⟨ρ, he⟩ | he <;> rw [he]
    rw [hs]
    exact ⟨l2, l1, u2, u1⟩
  · unfold pairStep
    rw [he]
    simp only
    split
    · exact ⟨l2, l1, u2, u1⟩
    · next hz =>
      exact ⟨(l1.proj _ _).unit, l1, Or.inr (unitW_norm (lt_of_le_of_ne (normW_nonneg _) (Ne.symm hz))), u1⟩

theorem pairSets_volume (n : ℕ) (p : Pipeline) (hp : ∀ e ∈ p, AnyOK n e) (ms : List ℕ)
    (S : Wave × Wave) (l1 : On (Low n) S.1) (l2 : On (Low n) S.2) (u1 : UnitOrZero S.1) (u2 : UnitOrZero S.2) :
    ((pairSets n p ms S).map volume).prod = ENNReal.ofReal (chancesW rotAngle p ms S) := by
  induction p generalizing ms S with
  | nil => simp [pairSets, chancesW]
  | cons e p ih =>
    have he := hp e (by simp)
    obtain ⟨c1, c2, c3, c4⟩ := PairStep_low l1 l2 u1 u2 e he (ms.headD 0)
    rw [pairSets, chancesW, List.map_append, List.prod_append, ih (fun e' he' => hp e' (by simp [he'])) _ _ c1 c2 c3 c4]
    by_cases hc : isColl e = true
    · have hi : ∀ q ∈ e.1, q < n := by
        rcases he with he | ⟨ho, -⟩
        · exact he.1.1.2.1
        · exact ho.2.1
      rw [if_pos hc, if_pos hc, List.map_singleton, List.prod_singleton, pairSet_volume n e.1 hi S.1 l1 u1,
        ← ENNReal.ofReal_mul']
      exact chancesW_nonneg _ _ _ _
    · rw [if_neg hc, if_neg hc, one_mul]
      split <;> simp

end Verif
