import Verif.Spec.FloatCertain
import Verif.Proofs.FloatJoint2
import Verif.Proofs.Main

/-!
# Programs that are certain of their outcomes, in floating point arithmetic
-/

namespace Verif
open Finset

theorem SureRun.append {D : Set ℝ} {seg seg' : Pipeline} (hu : ∀ e ∈ seg, ∃ u, e.2.object = .unitary u) {ψ χ : Wave} {ms : List ℕ}
    (h : SureRun D seg' (runW rotAngle seg ψ) ms χ) : SureRun D (seg ++ seg') ψ ms χ := by
  induction seg generalizing ψ with
  | nil => exact h
  | cons e seg ih =>
    obtain ⟨u, h1⟩ := hu e (by simp)
    exact .gate e u _ _ _ _ h1 (ih (fun e he => hu e (by simp [he])) h)

theorem SureRun.length {D : Set ℝ} {p : Pipeline} {ψ χ : Wave} {ms : List ℕ} (h : SureRun D p ψ ms χ) : ms.length = measCount p := by
  induction h with
  | nil => rfl
  | gate e g p ψ ms χ hg _ ih => rw [ih]; simp [measCount, isMeas, hg]
  | meas r w p ψ m ms χ _ _ _ ih =>
    rw [List.length_cons, ih]
    exact (List.countP_cons_of_pos rfl).symm

/-- the pipeline of such steps -/
theorem acts_sure {D : Set ℝ} (rs : List Reg) (acts : List Act) (hT : ∀ a ∈ acts, a.Takes rs) (s : LocalBuilder) (ho : Own s rs.flatten) (hs : List ℕ) {ψ χ : Wave} {ms : List ℕ}
    (hψ : On {x | Clean s x} ψ) (h : ActsSure D rs acts ψ ms χ) :
    ∃ s', acts.foldlM (fun s a => a.exec s) (rs, hs) s = .ok (rs, hs ++ List.range' s.measurements (measures acts)) s' ∧
      ∃ seg, s'.pipeline = s.pipeline ++ seg ∧ SureRun D seg ψ ms χ := by
  induction h generalizing s hs with
  | nil ψ => exact ⟨s, by simp [measures]; rfl, [], by simp, .nil ψ⟩
  | run p as ψ ms χ _ ih =>
    have hp : p.Takes false rs := hT (.run p) (by simp)
    obtain ⟨s1, e1, o1, v1⟩ := p.does_free s rs hp ho
    obtain ⟨seg, g1, g2, g3⟩ := v1.seg
    have er : runW rotAngle seg ψ = lift (p.wave false rs) ψ := hψ.agree fun x hx => by rw [(g3 x hx).1, lift_ket]
    have on1 : On {x | Clean s1 x} (lift (p.wave false rs) ψ) := hψ.map _ fun x hx => by
      rw [lift_ket]
      exact on_iff.mpr (g3 x hx).2
    obtain ⟨s2, e2, seg', f1, f2⟩ := ih (fun a ha => hT a (by simp [ha])) s1 o1 hs on1
    refine ⟨s2, ?_, seg ++ seg', by rw [f1, g1, List.append_assoc], ?_⟩
    · have : Act.exec (.run p) (rs, hs) s = .ok (rs, hs) s1 := by
        show (p.run rs >>= fun rs => pure (rs, hs) : M LocalBuilder _) s = _
        rw [bind_ok e1]
        rfl
      rw [List.foldlM_cons, bind_ok this, e2, v1.meas]
      rfl
    · refine SureRun.append (fun e he => ?_) (by rw [er]; exact f2)
      obtain ⟨⟨-, -, u, hu, -⟩, -⟩ := g2 e he
      exact ⟨u, hu⟩
  | measure i as ψ m ms χ hm hD _ ih =>
    have hi : i < rs.length := hT (.measure i) (by simp)
    have hg : rs[i]? = some rs[i] := List.getElem?_eq_getElem hi
    have hd : rs.getD i [] = rs[i] := List.getD_eq_getElem _ _ hi
    set s1 : LocalBuilder := { s with pipeline := s.pipeline ++ [(rs[i], ⟨rs[i].length, .meas .measurement⟩)], measurements := s.measurements + 1 } with hs1
    have e1 : Act.exec (.measure i) (rs, hs) s = .ok (rs, hs ++ [s.measurements]) s1 := by
      unfold Act.exec
      simp only [hg]
      have : LocalBuilder.measure rs[i] s = .ok (rs[i], s.measurements) s1 := rfl
      rw [bind_ok this]
      simp only [List.set_getElem_self]
      rfl
    obtain ⟨s2, e2, seg', f1, f2⟩ := ih (fun a ha => hT a (by simp [ha])) s1 ⟨ho.pool, ho.nodup, ho.lt⟩ (hs ++ [s.measurements]) hψ
    refine ⟨s2, ?_, (rs[i], ⟨rs[i].length, .meas .measurement⟩) :: seg', by rw [f1, hs1]; simp, ?_⟩
    · rw [List.foldlM_cons, bind_ok e1, e2]
      congr 2
      rw [List.append_assoc]
      rfl
    · rw [hd] at hm
      exact .meas _ _ _ _ _ _ _ hm hD f2

theorem main_sure {D : Set ℝ} (sizes : List ℕ) (hpos : ∀ k ∈ sizes, 0 < k) (acts : List Act) (hT : ∀ a ∈ acts, a.Takes (blocks 0 sizes)) {ψ χ : Wave} {ms : List ℕ}
    (hψ : On {x | Clean { LocalBuilder.default with n := sizes.sum } x} ψ) (h : ActsSure D (blocks 0 sizes) acts ψ ms χ) {out : List Reg × List ℕ} {s : LocalBuilder}
    (hr : mainProg sizes acts LocalBuilder.default = .ok out s) : SureRun D s.pipeline ψ ms χ := by
  have h1 := registers_run sizes hpos LocalBuilder.default
  have hd : LocalBuilder.default.n = 0 := rfl
  rw [hd, Nat.zero_add, ← blocks_eq] at h1
  have ho : Own { LocalBuilder.default with n := sizes.sum } (blocks 0 sizes).flatten := by
    rw [blocks_eq, ranges_flatten, ← List.range_eq_range']
    exact fresh_own _
  obtain ⟨s', e, seg, d1, d2⟩ := acts_sure (blocks 0 sizes) acts hT _ ho [] hψ h
  unfold mainProg at hr
  rw [bind_ok h1, e] at hr
  cases hr
  rw [d1]
  exact d2

variable {f : Format} {fl : ℝ → ℝ}

open Format.Arith

/-- such a circuit, from a state near `ψ` -/
theorem certain_run (A : f.Arith fl) (hf : 10 ≤ f.p) (he : f.emin + 2 * f.p + 4 ≤ 0) (n : ℕ) (hN : 2 ^ n * f.eps ≤ 1 / 64) (B : ℝ) (hB : B ≤ 1)
    {D : Set ℝ} (rnds : ℕ → f.Fin)
    (hr : ∀ k, 0 < (rnds k).1 ∧ (rnds k).1 < 1 ∧ ∀ d ∈ D, 3 * B + 20 * (2 ^ n * f.eps) < |(rnds k).1 - d|)
    {p : Pipeline} {ψ χ : Wave} {ms : List ℕ} (hb : SureRun D p ψ ms χ) : ∀ (els : List (ElemP A.Num)) (_ : List.Forall₂ (ElemAs A) els p)
    (_ : ∀ e ∈ p, StepOK n e) (_ : On (Low n) ψ) (_ : normW ψ = 1) (ε : ℝ)
    (_ : 2 ^ measCount p * (ε + ((circuitCost p : ℝ) + 13 * measCount p * 2 ^ n) * f.eps) ≤ B) (s0 : StateP A.Num f.Part)
    (_ : s0.state.length = 2 ^ n) (_ : s0.arena.length = 2 ^ n) (_ : ∀ c ∈ s0.state, A.fin c)
    (_ : nrm n (fun r => vals A.val s0.state r - ψ (asg n r)) ≤ ε),
    (∃ t, RunsP A.prec (fun c : A.Num => c) (fun c => c) n (fun k => some (rnds k)) els s0 t) ∧
    ∀ t, RunsP A.prec (fun c : A.Num => c) (fun c => c) n (fun k => some (rnds k)) els s0 t →
      (∃ l, t.measurements = s0.measurements ++ l ∧ List.Forall₂ (fun r m => r.1 = m ∧ NearProb f (3 * B + 24 * (2 ^ n * f.eps)) r.2 1) l ms) ∧
      t.state.length = 2 ^ n ∧ (∀ c ∈ t.state, A.fin c) ∧ nrm n (fun r => vals A.val t.state r - χ (asg n r)) ≤ B := by
  classical
  have heps := eps_pos f
  have h2n : (0 : ℝ) < 2 ^ n := by positivity
  have hq : 0 < 2 ^ n * f.eps := by positivity
  have hv : ∀ (v : List ℂ) (χ : Wave), Rep n v χ → ∀ r, r < 2 ^ n → vals id v r = χ (asg n r) := by
    intro v χ h r hr
    unfold vals
    rw [h.2 r hr]; rfl
  have hεB : ∀ (p : Pipeline) (ε : ℝ), 0 ≤ ε → 2 ^ measCount p * (ε + ((circuitCost p : ℝ) + 13 * measCount p * 2 ^ n) * f.eps) ≤ B →
      ε + (circuitCost p : ℝ) * f.eps ≤ B := by
    intro p ε h0 h
    have h1 : (1 : ℝ) ≤ 2 ^ measCount p := one_le_pow₀ (by norm_num)
    have h3 : 0 ≤ ε + ((circuitCost p : ℝ) + 13 * measCount p * 2 ^ n) * f.eps := by positivity
    have h4 : 0 ≤ 13 * (measCount p : ℝ) * 2 ^ n * f.eps := by positivity
    nlinarith
  induction hb with
  | nil ψ =>
    intro els hels hp hψ h1 ε hE s0 s1 s2 s3 s4
    cases hels
    refine ⟨⟨s0, .nil s0⟩, fun t ht => ?_⟩
    cases ht
    have := hεB [] ε ((nrm_nonneg _ _).trans s4) hE
    refine ⟨⟨[], by simp, .nil⟩, s1, s3, ?_⟩
    simp [circuitCost] at this
    linarith
  | gate e g p' ψ ms χ hg _ ih =>
    intro els hels hp hψ h1 ε hE s0 s1 s2 s3 s4
    have hε0 : 0 ≤ ε := (nrm_nonneg _ _).trans s4
    have hp' : ∀ e ∈ p', StepOK n e := fun e' he' => hp e' (by simp [he'])
    have hsegU : SegU n e := by
      rcases hp e (by simp) with h | ⟨ho, -⟩
      · exact h
      · rw [hg] at ho; cases ho
    have hc : measCount (e :: p') = measCount p' := by simp [measCount, isMeas, hg]
    have hcost : (circuitCost [e] : ℝ) = elemCost e := by simp [circuitCost]
    have hlen : (circuitCost (e :: p') : ℝ) = circuitCost p' + elemCost e := by
      rw [show circuitCost (e :: p') = elemCost e + circuitCost p' by simp [circuitCost]]
      push_cast; ring
    have hE1 := hεB _ ε hε0 hE
    rw [hc] at hE
    rw [hlen] at hE hE1
    have hp0 : 0 ≤ (circuitCost p' : ℝ) * f.eps := by positivity
    cases hels with
    | @cons el _ els' _ h1e hels =>
      obtain ⟨s', k1, k2, k3, k4, k5, t', k6, k7, k8, k9, k10, k11⟩ := gates_run A hf he n hN [e] (by simpa using hsegU)
        [el] (.cons h1e .nil) ⟨vecW n ψ, vecW n ψ, []⟩ (rep_vecW n ψ).1 (rep_vecW n ψ).1 (by
          rw [nrm_congr n _ (ampAt (vecW n ψ) 0) fun r hr => by
            rw [show vals id (vecW n ψ) r = _ from hv _ _ (rep_vecW n ψ) r hr, rep_amp (rep_vecW n ψ) r hr]]
          exact nrm_wave hψ h1) s0 s1 s2 s3 ε (by
          refine le_trans (le_of_eq (nrm_congr n _ _ fun r hr => ?_)) s4
          show vals A.val s0.state r - vals id (vecW n ψ) r = _
          rw [hv _ _ (rep_vecW n ψ) r hr]) (by rw [hcost]; linarith)
      rw [hcost] at k10
      obtain ⟨st, a1, a2, -⟩ := calcStep_unitary n (fun _ => 0) ⟨vecW n ψ, vecW n ψ, []⟩ ψ (rep_vecW n ψ) (rep_vecW n ψ).1 _ hsegU.1
      obtain rfl : st = s' := by
        have := k1 fun _ => 0
        rw [calcFold_cons, a1] at this
        exact Option.some.inj this
      obtain ⟨⟨t, j1⟩, j2⟩ := ih els' hels hp' (hψ.entryLow _ hsegU.1.1.2.1) (by rw [normW_entry hψ _ hsegU]; exact h1) (ε + (elemCost e : ℝ) * f.eps)
        (by refine le_trans (le_of_eq ?_) hE; ring) t' k6 k7 k9 (by
          refine le_trans (le_of_eq (nrm_congr n _ _ fun r hr => ?_)) k10
          rw [hv _ _ a2 r hr])
      refine ⟨⟨t, (k11 _ _ _).mpr j1⟩, fun t ht => ?_⟩
      have := j2 t ((k11 _ _ _).mp ht)
      rw [k8] at this
      exact this
  | meas idx w p' ψ m0 ms χ hsup hD _ ih =>
    intro els hels hp hψ h1 ε hE s0 s1 s2 s3 s4
    have hε0 : 0 ≤ ε := (nrm_nonneg _ _).trans s4
    have hp' : ∀ e ∈ p', StepOK n e := fun e' he' => hp e' (by simp [he'])
    obtain ⟨hn, hi⟩ : idx.Nodup ∧ ∀ q ∈ idx, q < n := by
      rcases hp _ (List.mem_cons_self) with ⟨⟨-, -, g, hg, -⟩, -⟩ | ⟨-, h⟩
      · cases hg
      · exact h
    have hc : measCount ((idx, (⟨w, .meas .measurement⟩ : CObj)) :: p') = measCount p' + 1 := List.countP_cons_of_pos rfl
    have hlen : (circuitCost p' : ℝ) ≤ circuitCost ((idx, (⟨w, .meas .measurement⟩ : CObj)) :: p') := by
      rw [show circuitCost ((idx, (⟨w, .meas .measurement⟩ : CObj)) :: p') = elemCost (idx, (⟨w, .meas .measurement⟩ : CObj)) + circuitCost p' by simp [circuitCost]]
      push_cast
      have : (0 : ℝ) ≤ elemCost (idx, (⟨w, .meas .measurement⟩ : CObj)) := by positivity
      linarith
    have hE1 := hεB _ ε hε0 hE
    have hεB' : ε ≤ B := by
      have : 0 ≤ (circuitCost ((idx, (⟨w, .meas .measurement⟩ : CObj)) :: p') : ℝ) * f.eps := by positivity
      linarith
    set φ := ampAt (vecW n ψ) 0 with hφ
    have hφ1 : nrm n φ = 1 := nrm_wave hψ h1
    have hcum : ∀ k, k ≤ 2 ^ n → cumul φ k = ∑ i ∈ range k, Complex.normSq (ψ (asg n i)) := by
      intro k hk
      unfold cumul
      refine sum_congr rfl fun r hr => ?_
      rw [hφ, rep_amp (rep_vecW n _) r (by have := mem_range.mp hr; omega), Complex.normSq_eq_norm_sq]
    have hfull : cumul φ (2 ^ n) = 1 := by rw [cumul_full, hφ1, one_pow]
    obtain ⟨r0, r1, rD⟩ := hr s0.measurements.length
    obtain ⟨z, hz, hz0, hz1⟩ : ∃ z, z < 2 ^ n ∧ cumul φ z < (rnds s0.measurements.length).1 ∧ (rnds s0.measurements.length).1 ≤ cumul φ (z + 1) := by
      have hex : ∃ k, (rnds s0.measurements.length).1 ≤ cumul φ k := ⟨2 ^ n, by rw [hfull]; exact r1.le⟩
      have h0 : Nat.find hex ≠ 0 := by
        intro h
        have := Nat.find_spec hex
        rw [h, cumul_zero] at this
        linarith
      obtain ⟨z, hz⟩ := Nat.exists_eq_succ_of_ne_zero h0
      have hle : Nat.find hex ≤ 2 ^ n := Nat.find_min' hex (by rw [hfull]; exact r1.le)
      refine ⟨z, by omega, ?_, by have := Nat.find_spec hex; rwa [hz] at this⟩
      have := Nat.find_min hex (show z < Nat.find hex by omega)
      linarith
    have hval : valQ idx (asg n z) = m0 := by
      refine hsup _ (Finsupp.mem_support_iff.mpr fun h => ?_)
      have e : cumul φ (z + 1) = cumul φ z + Complex.normSq (ψ (asg n z)) := by
        rw [hcum _ (by omega), hcum _ (by omega), sum_range_succ]
      rw [h, map_zero, add_zero] at e
      linarith
    have hout : outcomeOf n idx z = m0 := by
      rw [← hval]
      exact ((spells_valQ n idx hi _ z (outcomeOf_lt n idx z)).mp (spells_outcomeOf n idx z)).symm
    have hm : m0 < 2 ^ idx.length := hout ▸ outcomeOf_lt n idx z
    have hproj : projW idx m0 ψ = ψ := projW_on (on_iff.mpr hsup)
    have hQ : bornProb n idx m0 φ = 1 := by
      rw [rep_born (rep_vecW n _) hψ idx hi _ hm, hproj, h1]
    have hcol : ∀ r, r < 2 ^ n → collapsed n idx m0 φ r = ψ (asg n r) := by
      intro r hr
      rw [hφ, collapsed_wave hψ idx hi _ hm r hr, hproj]
      unfold unitW
      rw [h1]
      simp
    cases hels with
    | @cons el _ els' _ h1e hels =>
      cases h1e with
      | measurement =>
        have hκ : ε * (2 + ε) ≤ 3 * B := by nlinarith
        have hB0 : 0 ≤ B := hε0.trans hεB'
        obtain ⟨-, ⟨pr, out, k1⟩, k2⟩ := measure_err A hf he n hN idx hn hi s0.state s0.arena s1 s2 s3 φ hφ1 ε (hεB'.trans hB) (by
            refine le_trans (le_of_eq (nrm_congr n _ _ fun r hr => ?_)) s4
            rw [hφ, rep_amp (rep_vecW n _) r hr]) (rnds s0.measurements.length) r0 r1 (by
          intro k _ hk
          have := rD _ (hD n k hk)
          rw [← hcum k hk] at this
          linarith) z hz hz0 hz1
        rw [hout] at k1 k2
        have step : ∀ m pr (out : List A.Num), MeasureP A.prec n idx s0.state s0.arena (some (rnds s0.measurements.length)) m pr out →
            m = m0 ∧ NearProb f (3 * B + 24 * (2 ^ n * f.eps)) pr 1 ∧ out.length = 2 ^ n ∧ (∀ c ∈ out, A.fin c) ∧
            nrm n (fun r => vals A.val out r - ψ (asg n r)) ≤ 2 * ε + 13 * (2 ^ n * f.eps) := by
          intro m pr out h
          obtain ⟨m1, ⟨v, m2, m3, m4⟩, m5, m6, m7⟩ := k2 m pr out h
          rw [m1, hQ] at m4 m7
          refine ⟨m1, ⟨v, m2, m3.le, by linarith⟩, m5, m6, ?_⟩
          rw [Real.sqrt_one, div_one] at m7
          refine le_trans (le_of_eq (nrm_congr n _ _ fun r hr => ?_)) m7
          rw [hcol r hr]
        have hEn : 2 ^ measCount p' * (2 * ε + 13 * (2 ^ n * f.eps) + ((circuitCost p' : ℝ) + 13 * measCount p' * 2 ^ n) * f.eps) ≤ B := by
          refine le_trans ?_ hE
          rw [hc, pow_succ, mul_assoc (2 ^ measCount p') 2]
          refine mul_le_mul_of_nonneg_left ?_ (show (0 : ℝ) ≤ 2 ^ measCount p' by positivity)
          have a1 := mul_le_mul_of_nonneg_right hlen heps.le
          have a2 : 0 ≤ (circuitCost p' : ℝ) * f.eps := by positivity
          have a3 : 0 ≤ (measCount p' : ℝ) * 2 ^ n * f.eps := by positivity
          push_cast
          nlinarith
        have next := fun (m : ℕ) (pr : f.Part) (out : List A.Num) (h : MeasureP A.prec n idx s0.state s0.arena (some (rnds s0.measurements.length)) m pr out) =>
          ih els' hels hp' hψ h1 (2 * ε + 13 * (2 ^ n * f.eps)) hEn ⟨out, s0.state, s0.measurements ++ [(m, pr)]⟩
            (step m pr out h).2.2.1 s1 (step m pr out h).2.2.2.1 (step m pr out h).2.2.2.2
        refine ⟨?_, fun t ht => ?_⟩
        · obtain ⟨⟨t, ht⟩, -⟩ := next _ _ _ k1
          exact ⟨t, (runs_measure A n _ idx els' s0 t).mpr ⟨_, _, _, k1, ht⟩⟩
        · obtain ⟨m, pr, out, g1, g2⟩ := (runs_measure A n _ idx els' s0 t).mp ht
          obtain ⟨⟨l, l1, l2⟩, l3⟩ := (next m pr out g1).2 t g2
          refine ⟨⟨(m, pr) :: l, by rw [l1]; simp, .cons ⟨(step m pr out g1).1, (step m pr out g1).2.1⟩ l2⟩, l3⟩

end Verif
