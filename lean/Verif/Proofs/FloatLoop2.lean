import Verif.Proofs.FloatLoop

/-! # Circuits with all kinds of elements in rounded arithmetic against the exact ones -/

namespace Verif
open MatrixOp Finset Verif.Props

variable {f : Format} {fl : ℝ → ℝ}

namespace Format.Arith
open Classical

theorem runsC_measure (A : f.Arith fl) (n : ℕ) (rnds : ℕ → f.Part) (idx : List ℕ) (es : List (ElemC A.Num)) (s t : StateC A.Num f.Part) :
    RunsC A.prec (fun c : A.Num => c) (fun c => c) n rnds (.measurement idx :: es) s t ↔
      ∃ m p, ∃ out : List A.Num, MeasureP A.prec n idx s.state s.arena (rnds s.measurements.length) m p out ∧
        RunsC A.prec (fun c : A.Num => c) (fun c => c) n rnds es ⟨out, s.state, s.measurements ++ [.single m p]⟩ t := by
  have key : ∀ (v w v' w' : List (f.Part × f.Part)) m p out, v = v' → w = w' → MeasureP A.prec n idx v w (rnds s.measurements.length) m p out →
      MeasureP A.prec n idx v' w' (rnds s.measurements.length) m p out := by rintro _ _ _ _ m p out rfl rfl h; exact h
  have key2 : ∀ (v v' : List A.Num) m p, v = v' → RunsC A.prec (fun c : A.Num => c) (fun c => c) n rnds es ⟨v, s.state, s.measurements ++ [.single m p]⟩ t →
      RunsC A.prec (fun c : A.Num => c) (fun c => c) n rnds es ⟨v', s.state, s.measurements ++ [.single m p]⟩ t := by rintro _ _ m p rfl h; exact h
  constructor
  · intro h
    cases h with
    | measurement _ _ _ _ m p out hm h =>
      exact ⟨m, p, out, key _ _ _ _ m p out (List.map_id _) (List.map_id _) hm, key2 _ _ m p (List.map_id _) h⟩
  · rintro ⟨m, p, out, hm, h⟩
    exact .measurement idx es s t m p out (key _ _ _ _ m p out (List.map_id _).symm (List.map_id _).symm hm) (key2 _ _ m p (List.map_id _).symm h)

theorem runsC_stochastic (A : f.Arith fl) (n : ℕ) (rnds : ℕ → f.Part) (idx : List ℕ) (es : List (ElemC A.Num)) (s t : StateC A.Num f.Part) :
    RunsC A.prec (fun c : A.Num => c) (fun c => c) n rnds (.stochastic idx :: es) s t ↔
      ∃ ps, ProbsP A.prec n idx s.state ps ∧
        RunsC A.prec (fun c : A.Num => c) (fun c => c) n rnds es ⟨s.arena, s.state, s.measurements ++ [.stochastic ps]⟩ t := by
  have key : ∀ (v v' : List (f.Part × f.Part)) ps, v = v' → ProbsP A.prec n idx v ps → ProbsP A.prec n idx v' ps := by rintro _ _ ps rfl h; exact h
  constructor
  · intro h
    cases h with
    | stochastic _ _ _ _ ps h1 h2 => exact ⟨ps, key _ _ ps (List.map_id _) h1, h2⟩
  · rintro ⟨ps, h1, h2⟩
    exact .stochastic idx es s t ps (key _ _ ps (List.map_id _).symm h1) h2

theorem near_mono {κ κ' : ℝ} (h : κ ≤ κ') {ps : List f.Part} {Ps : List ℝ} (hp : List.Forall₂ (NearProb f κ) ps Ps) : List.Forall₂ (NearProb f κ') ps Ps :=
  hp.imp fun _ _ ⟨y, y1, y2, y3⟩ => ⟨y, y1, y2, y3.trans h⟩

/-- the fold in rounded arithmetic against the exact one -/
theorem clear_runC (A : f.Arith fl) (hf : 10 ≤ f.p) (he : f.emin + 2 * f.p + 4 ≤ 0) (n : ℕ) (hN : 2 ^ n * f.eps ≤ 1 / 64) (rnds : ℕ → f.Fin)
    (κ : ℝ) (p : Pipeline) (hp : ∀ e ∈ p, AnyElem n e) (hr : (∃ e ∈ p, e.2.object = .meas .measurement) → ∀ k, 0 < (rnds k).1 ∧ (rnds k).1 < 1)
    (els : List (ElemC A.Num)) (hels : List.Forall₂ (ElemAsC A) els p) (s : CalcState) (ε ε' δ : ℝ) (hc : ClearC f n (fun k => (rnds k).1) κ p s ε ε' δ)
    (hs : s.state.length = 2 ^ n) (ha : s.arena.length = 2 ^ n) (h1 : nrm n (vals id s.state) ≤ 1) (h2 : nrm n (vals id s.arena) ≤ 1)
    (t0 : StateC A.Num f.Part) (ts : t0.state.length = 2 ^ n) (ta : t0.arena.length = 2 ^ n) (tf : ∀ c ∈ t0.state, A.fin c) (tg : ∀ c ∈ t0.arena, A.fin c)
    (td : nrm n (fun r => vals A.val t0.state r - vals id s.state r) ≤ ε) (te : nrm n (fun r => vals A.val t0.arena r - vals id s.arena r) ≤ ε')
    (tm : t0.measurements.length = s.measurements.length) :
    ∃ s', calcFold n (fun k => (rnds k).1) p s = some s' ∧
      (∃ t, RunsC A.prec (fun c : A.Num => c) (fun c => c) n (fun k => some (rnds k)) els t0 t) ∧
      ∀ t, RunsC A.prec (fun c : A.Num => c) (fun c => c) n (fun k => some (rnds k)) els t0 t →
        t.state.length = 2 ^ n ∧ (∀ c ∈ t.state, A.fin c) ∧ nrm n (fun r => vals A.val t.state r - vals id s'.state r) ≤ δ ∧
        ∃ ms ms', t.measurements = t0.measurements ++ ms ∧ s'.measurements = s.measurements ++ ms' ∧ List.Forall₂ (SameResult f κ) ms ms' := by
  induction hels generalizing s ε ε' t0 with
  | nil =>
    cases hc
    refine ⟨s, rfl, ⟨t0, .nil t0⟩, ?_⟩
    intro t ht
    cases ht
    exact ⟨ts, tf, td, [], [], by simp, by simp, .nil⟩
  | @cons el e els' p' he1 hels ih =>
    have hpe := hp e (by simp)
    have hp' : ∀ e ∈ p', AnyElem n e := fun e he => hp e (by simp [he])
    have hr' : (∃ e ∈ p', e.2.object = .meas .measurement) → ∀ k, 0 < (rnds k).1 ∧ (rnds k).1 < 1 :=
      fun ⟨e', h, h'⟩ => hr ⟨e', by simp [h], h'⟩
    cases hc with
    | gate idx w g p _ s1 _ _ _ hgp hstep hε hc =>
      cases he1 with
      | phase _ _ ρ => exact absurd rfl (hgp ρ)
      | gate op U _ _ _ hU hst =>
        have hsegU : SegU n (idx, ⟨w, .unitary g⟩) := by
          rcases hpe with (h1 | ⟨h1, -⟩) | ⟨⟨ρ, h1⟩ | h1, -⟩
          · exact h1
          · cases h1
          · injection h1 with h1
            exact absurd h1 (hgp ρ)
          · cases h1
        have hseg := hsegU.1
        obtain ⟨hUn, hK⟩ := unitaryOn_gate n _ hsegU g rfl U hU
        have hKn := rowEntries_le n _ hsegU g rfl
        have hE := embed_unitary n U.indices hUn.nodup hUn.lt (opMat U) hUn.unitary
        obtain ⟨g1, g2, g3, g4⟩ := calcStep_gate n _ s s1 hs ha _ hseg g rfl U hU hstep
        have g5 : s1.arena = s.state := by
          unfold calcStep at hstep
          cases g with
          | GlobalPhase ρ => exact absurd rfl (hgp ρ)
          | _ =>
            simp only [hU, Option.bind_eq_bind, Option.bind_eq_some_iff, Option.some.injEq] at hstep
            obtain ⟨a, -, rfl⟩ := hstep
            rfl
        obtain ⟨out, o1, o2, o3, o4⟩ := gate_err A hf he n hN op U hst _ hK hKn hUn t0.state t0.arena ts ta tf (vals id s.state) h1 ε hε td
        obtain ⟨s', k1, ⟨t', k2⟩, k3⟩ := ih hp' hr' s1 (ε + gateCost idx.length g * f.eps) ε hc g2 g3 (by rw [nrm_congr n _ _ g4, nrm_mulVec n _ hE]; exact h1)
          (by rw [g5]; exact h1) ⟨out, t0.state, t0.measurements⟩ o2 ts o3 tf (by
            refine le_trans (le_of_eq (nrm_congr n _ _ fun r hr => ?_)) o4
            show vals A.val out r - vals id s1.state r = _
            rw [g4 r hr]) (by rw [g5]; exact td) (by rw [g1]; exact tm)
        refine ⟨s', by rw [calcFold_cons, hstep]; exact k1, ⟨t', .op op _ _ _ out o1 k2⟩, ?_⟩
        intro t ht
        cases ht with
        | op _ _ _ _ arena ha' ht =>
          obtain rfl : out = arena := by rw [o1] at ha'; exact Option.some.inj ha'
          have := k3 t ht
          rw [g1] at this
          exact this
    | phase idx w ρ p _ s1 _ _ _ hstep hc =>
      obtain rfl : (⟨s.arena, s.state, s.measurements⟩ : CalcState) = s1 := Option.some.inj hstep
      cases he1 with
      | gate op U _ _ _ hU hst => cases hU
      | phase _ _ _ =>
        obtain ⟨s', k1, ⟨t', k2⟩, k3⟩ := ih hp' hr' ⟨s.arena, s.state, s.measurements⟩ ε' ε hc ha hs h2 h1 ⟨t0.arena, t0.state, t0.measurements⟩ ta ts tg tf te td tm
        refine ⟨s', by rw [calcFold_cons, hstep]; exact k1, ⟨t', .globalPhase _ _ _ k2⟩, ?_⟩
        intro t ht
        cases ht with
        | globalPhase _ _ _ ht => exact k3 t ht
    | stochastic idx w p _ s1 _ _ _ hstep hε hκ hc =>
      cases he1 with
      | stochastic _ _ =>
        obtain ⟨hnd, hlt⟩ : idx.Nodup ∧ ∀ i ∈ idx, i < n := by
          rcases hpe with (⟨⟨-, -, g, h1, -⟩, -⟩ | ⟨h1, -⟩) | ⟨-, h1, h2, -⟩
          · cases h1
          · cases h1
          · exact ⟨h1, h2⟩
        have hb : measureProbs n idx s.state none = some ((List.range (2 ^ idx.length)).map fun m => bornProb n idx m (vals id s.state)) := by
          rw [measureProbs_eq n idx hnd hlt, Option.getD_none, vals_id_amp]
        obtain rfl : (⟨s.arena, s.state, s.measurements ++ [.stochastic ((List.range (2 ^ idx.length)).map fun m => bornProb n idx m (vals id s.state))]⟩ : CalcState) = s1 := by
          unfold calcStep at hstep
          simp only [hb, Option.bind_eq_bind, Option.bind_some, Option.some.injEq] at hstep
          exact hstep
        obtain ⟨⟨ps, e1⟩, e2⟩ := probs_err A hf he n hN idx hnd hlt t0.state ts tf (vals id s.state) h1 ε hε td
        have key : ∀ ps, ProbsP A.prec n idx t0.state ps → _ := fun ps (_ : ProbsP A.prec n idx t0.state ps) =>
          ih hp' hr' _ ε' ε hc ha hs h2 h1 ⟨t0.arena, t0.state, t0.measurements ++ [.stochastic ps]⟩ ta ts tg tf te td (by simp [tm])
        obtain ⟨s', k1, ⟨t', k2⟩, -⟩ := key ps e1
        refine ⟨s', by rw [calcFold_cons, hstep]; exact k1, ⟨t', (runsC_stochastic A n _ idx _ _ _).mpr ⟨ps, e1, k2⟩⟩, ?_⟩
        intro t ht
        obtain ⟨qs, q1, q2⟩ := (runsC_stochastic A n _ idx _ _ _).mp ht
        obtain ⟨s'', k1', -, k3⟩ := key qs q1
        obtain rfl : s' = s'' := by rw [k1] at k1'; exact Option.some.inj k1'
        obtain ⟨i1, i2, i3, ms, ms', i4, i5, i6⟩ := k3 t q2
        refine ⟨i1, i2, i3, _ :: ms, _ :: ms', ?_, ?_, .cons (.stochastic _ _ (near_mono hκ (e2 qs q1))) i6⟩
        · rw [i4]; simp
        · rw [i5]; simp
    | measurement idx w p _ s1 m Q _ _ _ hn1 hstep hms hε hκ hmar hc =>
      cases he1 with
      | measurement _ _ =>
        have hr0 := hr ⟨_, List.mem_cons_self .., rfl⟩
        obtain ⟨hnd, hlt⟩ : idx.Nodup ∧ ∀ i ∈ idx, i < n := by
          rcases hpe with (⟨⟨-, -, g, h1, -⟩, -⟩ | ⟨-, h1⟩) | ⟨⟨ρ, h1⟩ | h1, -⟩
          · cases h1
          · exact h1
          · cases h1
          · cases h1
        obtain ⟨x, m', Q', s1', x1, x2, x3, rfl, rfl, q0, c1, c2, c3, c4, c5, c6⟩ := calcStep_collapse n (fun k => (rnds k).1) s hs ha hn1 idx w hnd hlt
          (hr0 _).1 (hr0 _).2
        obtain rfl : s1' = s1 := by rw [c1] at hstep; exact Option.some.inj hstep
        obtain ⟨rfl, rfl⟩ : outcomeOf n idx x = m ∧ bornProb n idx (outcomeOf n idx x) (vals id s.state) = Q := by
          rw [c2] at hms
          have := List.append_cancel_left hms
          simp only [List.cons.injEq, and_true, MeasResult.single.injEq] at this
          exact this
        have c7 : s1'.arena = s.state := by
          unfold calcStep at c1
          simp only [Option.bind_eq_bind, Option.bind_eq_some_iff] at c1
          obtain ⟨a, -, c1⟩ := c1
          obtain rfl := Option.some.inj c1
          rfl
        have hD : 0 < 2 ^ n * f.eps := mul_pos (by positivity) (eps_pos f)
        obtain ⟨-, ⟨pr, out, e1⟩, e2⟩ := measure_err A hf he n hN idx hnd hlt t0.state t0.arena ts ta tf (vals id s.state) hn1 ε hε td
          (rnds s.measurements.length) (hr0 _).1 (hr0 _).2 (fun k k1 k2 => lt_of_le_of_lt (by linarith) (hmar k k1 k2)) x x1 x2 x3
        rw [← tm] at e1 e2
        have key : ∀ m pr (out : List A.Num), MeasureP A.prec n idx t0.state t0.arena (some (rnds t0.measurements.length)) m pr out →
            m = outcomeOf n idx x ∧ SameResult f κ (.single m pr) (.single (outcomeOf n idx x) (bornProb n idx (outcomeOf n idx x) (vals id s.state))) ∧
            ∃ s', calcFold n (fun k => (rnds k).1) p' s1' = some s' ∧
              (∃ t, RunsC A.prec (fun c : A.Num => c) (fun c => c) n (fun k => some (rnds k)) els' ⟨out, t0.state, t0.measurements ++ [.single m pr]⟩ t) ∧
              ∀ t, RunsC A.prec (fun c : A.Num => c) (fun c => c) n (fun k => some (rnds k)) els' ⟨out, t0.state, t0.measurements ++ [.single m pr]⟩ t →
                t.state.length = 2 ^ n ∧ (∀ c ∈ t.state, A.fin c) ∧ nrm n (fun r => vals A.val t.state r - vals id s'.state r) ≤ δ ∧
                ∃ ms ms', t.measurements = t0.measurements ++ [.single m pr] ++ ms ∧ s'.measurements = s1'.measurements ++ ms' ∧
                  List.Forall₂ (SameResult f κ) ms ms' := by
          intro m pr out hm
          obtain ⟨rfl, ⟨y, rfl, y0, y1⟩, o2, o3, o4⟩ := e2 m pr out hm
          refine ⟨rfl, .single _ y _ y0 (y1.trans hκ), ?_⟩
          exact ih hp' hr' s1' _ ε hc c3 c4 c5.le (by rw [c7]; exact h1) ⟨out, t0.state, t0.measurements ++ [.single (outcomeOf n idx x) (some y)]⟩ o2 ts o3 tf (by
            refine le_trans (le_of_eq (nrm_congr n _ _ fun r hr => ?_)) o4
            show vals A.val out r - vals id s1'.state r = _
            rw [c6 r hr]) (by rw [c7]; exact td) (by rw [c2]; simp [tm])
        obtain ⟨-, -, s', k1, ⟨t', k2⟩, -⟩ := key _ pr out e1
        refine ⟨s', by rw [calcFold_cons, c1]; exact k1, ⟨t', ?_⟩, ?_⟩
        · exact (runsC_measure A n _ idx _ _ _).mpr ⟨_, pr, out, e1, k2⟩
        · intro t ht
          obtain ⟨m, pr, out, hm, ht⟩ := (runsC_measure A n _ idx _ _ _).mp ht
          obtain ⟨rfl, j1, s'', j2, -, j3⟩ := key m pr out hm
          obtain rfl : s' = s'' := by rw [k1] at j2; exact Option.some.inj j2
          obtain ⟨i1, i2, i3, ms, ms', i4, i5, i6⟩ := j3 t ht
          refine ⟨i1, i2, i3, _ :: ms, _ :: ms', ?_, ?_, .cons j1 i6⟩
          · rw [i4]; simp
          · rw [i5, c2]; simp

/-- a circuit without measurements that draw: the errors stay below the cost of its elements -/
theorem clear_quiet (n : ℕ) (rnds : ℕ → ℝ) (p : Pipeline) (hp : ∀ e ∈ p, AnyElem n e ∧ e.2.object ≠ .meas .measurement) (k : ℕ)
    (hk : ((circuitCost p + k : ℕ) : ℝ) * f.eps ≤ 1) (κ : ℝ)
    (hκ : ((circuitCost p + k : ℕ) : ℝ) * f.eps * (2 + ((circuitCost p + k : ℕ) : ℝ) * f.eps) + 24 * (2 ^ n * f.eps) ≤ κ)
    (s : CalcState) (hs : s.state.length = 2 ^ n) (ha : s.arena.length = 2 ^ n) (ε ε' : ℝ) (h0 : 0 ≤ ε) (h0' : 0 ≤ ε')
    (h : ε ≤ (k : ℝ) * f.eps) (h' : ε' ≤ (k : ℝ) * f.eps) :
    ∃ δ, ClearC f n rnds κ p s ε ε' δ ∧ δ ≤ ((circuitCost p + k : ℕ) : ℝ) * f.eps := by
  have hd := eps_pos f
  induction p generalizing s ε ε' k with
  | nil => exact ⟨ε, .nil s ε ε', by simpa [circuitCost] using h⟩
  | cons e p ih =>
    have hlen : circuitCost (e :: p) + k = circuitCost p + (k + elemCost e) := by simp [circuitCost]; omega
    have hmono : (k : ℝ) * f.eps ≤ ((circuitCost (e :: p) + k : ℕ) : ℝ) * f.eps := by
      refine mul_le_mul_of_nonneg_right ?_ hd.le
      exact_mod_cast Nat.le_add_left _ _
    have hk1 : (k : ℝ) * f.eps + elemCost e * f.eps = ((k + elemCost e : ℕ) : ℝ) * f.eps := by push_cast; ring
    have hε1 : ε ≤ 1 := h.trans (hmono.trans hk)
    have hκε : ε * (2 + ε) + 24 * (2 ^ n * f.eps) ≤ κ := by
      refine le_trans ?_ hκ
      have := h.trans hmono
      nlinarith
    rw [hlen] at hk hκ ⊢
    have hpe := hp e (by simp)
    have hp' : ∀ e ∈ p, AnyElem n e ∧ e.2.object ≠ .meas .measurement := fun e he => hp e (by simp [he])
    obtain ⟨s1, c1, c2, c3⟩ : ∃ s1, calcStep n rnds s e = some s1 ∧ s1.state.length = 2 ^ n ∧ s1.arena.length = 2 ^ n := by
      refine calcStep_fits n rnds s e ?_ ?_ hs ha
      · rintro ⟨u, hu, hg, hsh⟩
        rcases hpe.1 with (⟨⟨⟨-, -, h3⟩, -⟩, -⟩ | ⟨h1, -⟩) | ⟨⟨ρ, h1⟩ | h1, -⟩
        · exact hsh (h3 u hu)
        · rw [hu] at h1; cases h1
        · rw [hu] at h1
          injection h1 with h1
          exact hg ρ h1
        · rw [hu] at h1; cases h1
      · rcases hpe.1 with (⟨⟨⟨-, h2, -⟩, -⟩, -⟩ | ⟨-, -, h2⟩) | ⟨-, -, h2, -⟩ <;> exact h2
    have hup : ∀ x : ℝ, x ≤ (k : ℝ) * f.eps → x ≤ ((k + elemCost e : ℕ) : ℝ) * f.eps := fun x hx => by
      have : 0 ≤ (elemCost e : ℝ) * f.eps := by positivity
      linarith
    obtain ⟨idx, w, o⟩ := e
    cases o with
    | unitary g =>
      by_cases hg : ∃ ρ, g = .GlobalPhase ρ
      · obtain ⟨ρ, rfl⟩ := hg
        obtain ⟨δ, d1, d2⟩ := ih hp' (k + elemCost _) hk hκ s1 c2 c3 ε' ε h0' h0 (hup _ h') (hup _ h)
        exact ⟨δ, .phase idx w ρ p s s1 ε ε' δ c1 d1, d2⟩
      · obtain ⟨δ, d1, d2⟩ := ih hp' (k + elemCost _) hk hκ s1 c2 c3 (ε + gateCost idx.length g * f.eps) ε (by positivity) h0 (by
          have e : elemCost (idx, ⟨w, .unitary g⟩) = gateCost idx.length g := by
            cases g <;> first | rfl | exact absurd ⟨_, rfl⟩ hg
          rw [← hk1, e]
          linarith) (hup _ h)
        exact ⟨δ, .gate idx w g p s s1 ε ε' δ (fun ρ hρ => hg ⟨ρ, hρ⟩) c1 hε1 d1, d2⟩
    | meas t =>
      cases t with
      | measurement => exact absurd rfl hpe.2
      | stochastic =>
        obtain ⟨δ, d1, d2⟩ := ih hp' (k + elemCost _) hk hκ s1 c2 c3 ε' ε h0' h0 (hup _ h') (hup _ h)
        exact ⟨δ, .stochastic idx w p s s1 ε ε' δ c1 hε1 hκε d1, d2⟩

end Format.Arith
end Verif
