import Verif.Proofs.Calc3
import Verif.Proofs.Client

/-! # What a handle fetches -/

namespace Verif
open Rooted Ledger

/-- a measurement in the middle of a circuit -/
theorem handle_core {p seg : Pipeline} {b : LocalBuilder} {r : Reg} {m : MObj} (hb : b.pipeline = p ++ (r, ⟨r.length, .meas m⟩) :: seg)
    {it : List (Reg × ℕ)} {rnds : ℕ → ℝ} {v : List ℂ} {ms : List MeasResult} (hc : b.calculateStateWithInit it rnds = some (v, ms)) :
    ∃ st st', { b with pipeline := p }.calculateStateWithInit it rnds = some (st.state, st.measurements) ∧
      st.measurements.length = measCount p ∧
      calcStep b.n rnds st (r, ⟨r.length, .meas m⟩) = some st' ∧ ∃ l, ms = st'.measurements ++ l := by
  obtain ⟨i, i1, i2, st2, g1, g2⟩ := calculate_some b it rnds _ hc
  rw [hb] at g1
  obtain ⟨st, st', k1, k2, k3⟩ := calcFold_split _ _ _ _ _ _ _ g1
  obtain ⟨l0, m1, m2⟩ := calcFold_meas _ _ _ _ _ k1
  obtain ⟨l, n1, -⟩ := calcFold_meas _ _ _ _ _ k3
  refine ⟨st, st', calculate_of_fold { b with pipeline := p } it rnds i i1 i2 st k1, ?_, k2, l, ?_⟩
  · rw [m1, List.length_append, m2]
    simp [calcInit]
  · cases g2; exact n1

theorem handle_measure {p seg : Pipeline} {b : LocalBuilder} {r : Reg} (hr : r.Nodup) (hlt : ∀ q ∈ r, q < b.n)
    (hb : b.pipeline = p ++ (r, ⟨r.length, .meas .measurement⟩) :: seg)
    {it : List (Reg × ℕ)} {rnds : ℕ → ℝ} {v : List ℂ} {ms : List MeasResult} (hc : b.calculateStateWithInit it rnds = some (v, ms)) :
    ∃ w ms0 val, { b with pipeline := p }.calculateStateWithInit it rnds = some (w, ms0) ∧
      softMeasure b.n r w none (rnds (measCount p)) = some val ∧
      getMeasurement ms (measCount p) = some (val, bornProb b.n r val (ampAt w 0)) ∧ getStochasticMeasurement ms (measCount p) = none := by
  obtain ⟨st, st', k1, k2, k3, l, k4⟩ := handle_core hb hc
  unfold calcStep at k3
  simp only [Option.bind_eq_bind] at k3
  cases hme : measure b.n r st.state st.arena none none (rnds st.measurements.length) with
  | none => rw [hme] at k3; exact absurd k3 (by simp)
  | some a =>
    obtain ⟨⟨val, pr⟩, out⟩ := a
    rw [hme] at k3
    cases k3
    rw [k2] at hme
    unfold measure at hme
    simp only [Option.bind_eq_bind, Option.map_none, Option.bind_none] at hme
    cases hsm : softMeasure b.n r st.state none (rnds (measCount p)) with
    | none => rw [hsm] at hme; exact absurd hme (by simp)
    | some val' =>
      rw [hsm] at hme
      simp only [Option.bind_some] at hme
      rw [measureProb_eq b.n _ r hr hlt] at hme
      simp only [Option.bind_some, Option.getD_none] at hme
      cases hms : measureState b.n r (val', bornProb b.n r val' (ampAt st.state 0)) st.state st.arena none with
      | none => rw [hms] at hme; exact absurd hme (by simp)
      | some o =>
        rw [hms] at hme
        simp only [Option.bind_some, Option.some.injEq, Prod.mk.injEq] at hme
        obtain ⟨⟨rfl, rfl⟩, -⟩ := hme
        have hget : ms[measCount p]? = some (.single val' (bornProb b.n r val' (ampAt st.state 0))) := by
          rw [k4]; exact getElem?_mid _ _ _ _ (by rw [k2])
        refine ⟨st.state, st.measurements, val', k1, hsm, ?_, ?_⟩
        · unfold getMeasurement; rw [hget]
        · unfold getStochasticMeasurement; rw [hget]

theorem handle_stochastic {p seg : Pipeline} {b : LocalBuilder} {r : Reg} (hr : r.Nodup) (hlt : ∀ q ∈ r, q < b.n)
    (hb : b.pipeline = p ++ (r, ⟨r.length, .meas .stochastic⟩) :: seg)
    {it : List (Reg × ℕ)} {rnds : ℕ → ℝ} {v : List ℂ} {ms : List MeasResult} (hc : b.calculateStateWithInit it rnds = some (v, ms)) :
    ∃ w ms0, { b with pipeline := p }.calculateStateWithInit it rnds = some (w, ms0) ∧
      getStochasticMeasurement ms (measCount p) =
        some ((List.range (2 ^ r.length)).map fun m => bornProb b.n r m (ampAt w 0)) ∧
      getMeasurement ms (measCount p) = none := by
  obtain ⟨st, st', k1, k2, k3, l, k4⟩ := handle_core hb hc
  unfold calcStep at k3
  simp only [Option.bind_eq_bind] at k3
  rw [measureProbs_eq b.n r hr hlt] at k3
  cases k3
  have hget : ms[measCount p]? = some (.stochastic ((List.range (2 ^ r.length)).map fun m => bornProb b.n r m (ampAt st.state 0))) := by
    rw [k4]; exact getElem?_mid _ _ _ _ (by rw [k2])
  refine ⟨st.state, st.measurements, k1, ?_, ?_⟩
  · unfold getStochasticMeasurement; rw [hget]
  · unfold getMeasurement; rw [hget]

/-! ## the circuit of a program only grows, and measurements are counted -/

/-- the circuit of `b` is that of `a` with more elements, the measurements among which are counted -/
def Extends (a b : LocalBuilder) : Prop :=
  a.n ≤ b.n ∧ ∃ seg, b.pipeline = a.pipeline ++ seg ∧ b.measurements = a.measurements + measCount seg

theorem Extends.refl (a : LocalBuilder) : Extends a a := ⟨Nat.le_refl _, [], by simp, rfl⟩

theorem Extends.trans {a b c : LocalBuilder} (h : Extends a b) (h' : Extends b c) : Extends a c := by
  obtain ⟨n1, s1, p1, m1⟩ := h
  obtain ⟨n2, s2, p2, m2⟩ := h'
  refine ⟨Nat.le_trans n1 n2, s1 ++ s2, by rw [p2, p1, List.append_assoc], ?_⟩
  rw [m2, m1, Nat.add_assoc]
  unfold measCount
  rw [List.countP_append]

theorem spares_extends : (k : ℕ) → (s s' : NB k) → (L : List Reg) → letI := Stock.quiet
    Spares s s' L → Extends (root s) (root s')
  | 0, s, s', L => by
    letI := Stock.quiet
    rintro ⟨h1, seg, h2, -, h3⟩
    exact ⟨h1, seg, h2, h3 trivial⟩
  | k + 1, s, s', L => fun h => spares_extends k (Conditioned.parent (β := NB k) s) (Conditioned.parent (β := NB k) s') L h

theorem Session.then {ok : CObj → Prop} {k₀ k : ℕ} {s₀ : NB k₀} {live₀ : List Reg} {s : NB k} {live : List Reg}
    (h : Session ok k₀ s₀ live₀) (h' : Onward ok k₀ s₀ live₀ k s live) : Session ok k s live := by
  induction h' with
  | start => exact h
  | ok _ hf hp he ih => exact .ok ih hf hp he
  | err _ hf hp he ih => exact .err ih hf hp he
  | drop _ hp ih => exact .drop ih hp
  | condition _ hp ih => exact .condition ih hp
  | dissolve _ hr ih => exact .dissolve ih hr
  | abandon _ ih => exact .abandon ih

theorem Onward.extends {k₀ k : ℕ} {s₀ : NB k₀} {live₀ : List Reg} {s : NB k} {live : List Reg}
    (h : Session NotMeas k₀ s₀ live₀) (h' : Onward NotMeas k₀ s₀ live₀ k s live) : Extends (root s₀) (root s) := by
  letI := Stock.quiet
  induction h' with
  | start => exact .refl _
  | ok h1 hf hp he ih =>
    have hs := (Session.then h h1).holds (fun _ h => h)
    exact ih.trans (spares_extends _ _ _ _ ((hf.keeping (fun _ h => h) _ _ _ (sub hp.symm.subperm hs)).1 _ _ he).2)
  | err h1 hf hp he ih =>
    have hs := (Session.then h h1).holds (fun _ h => h)
    exact ih.trans (spares_extends _ _ _ _ ((NB.scraps_iff _ _ _ _).mp ((hf.keeping (fun _ h => h) _ _ _ (sub hp.symm.subperm hs)).2 _ he).2))
  | drop _ _ ih => exact ih
  | condition _ _ ih => exact ih
  | dissolve _ _ ih => exact ih
  | abandon _ ih => exact ih

end Verif
