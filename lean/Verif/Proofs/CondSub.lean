import Verif.Proofs.SubDoes

/-! # Subcircuits inside conditions -/

namespace Verif
open Classical Complex RegOps CircuitBuilder TempBuilder Rooted

/-- a builder whose subcircuits are applied by the builder at the bottom -/
class SubSim (β : Type) [Recursive β] [Rooted β] : Prop extends Sim β where
  condSub : ∀ {s : β} {cs : List Reg} {sc : Pipeline} {cr r r' : Reg} {b : LocalBuilder}, ctl s = some cs → cr ≠ [] →
    (cr ++ cs.flatten).Nodup →
    Recursive.applyCondSub (β := LocalBuilder) sc (cr ++ cs.flatten) r (root s) = .ok (cr ++ cs.flatten, r') b →
    Acts (Recursive.applyCondSub sc cr r) s (cr, r') b
  sub : ∀ {s : β} {cs : List Reg} {sc : Pipeline} {r r' : Reg} {b : LocalBuilder}, ctl s = some cs → cs ≠ [] → cs.flatten.Nodup →
    Recursive.applyCondSub (β := LocalBuilder) sc cs.flatten r (root s) = .ok (cs.flatten, r') b →
    Acts (Recursive.applySub sc r) s r' b
  sub_nil : ∀ {s : β} {sc : Pipeline} {r r' : Reg} {b : LocalBuilder}, ctl s = some [] →
    applyPipelineObjects sc r (root s) = .ok r' b → Acts (Recursive.applySub sc r) s r' b

instance : SubSim LocalBuilder where
  condSub {s cs sc cr r r' b} h _ _ h2 := by
    obtain rfl : [] = cs := by injection h
    rw [List.flatten_nil, List.append_nil] at h2
    exact ⟨b, h2, rfl, rfl⟩
  sub {s cs sc r r' b} h h1 _ _ := by
    obtain rfl : [] = cs := by injection h
    exact absurd rfl h1
  sub_nil {s sc r r' b} _ h := ⟨b, h, rfl, rfl⟩

instance {β : Type} [Recursive β] [Rooted β] [SubSim β] : SubSim (Conditioned β) where
  condSub {s cs sc cr r r' b} h hc hn h2 := by
    obtain ⟨ccr, ps, e1, e2, e3, rfl⟩ := ctl_conditioned h
    rw [List.flatten_cons, ← List.append_assoc] at hn h2
    have hn1 : (cr ++ ccr).Nodup := (List.nodup_append.mp hn).1
    obtain ⟨p', k1, k2, k3⟩ := SubSim.condSub (s := s.parent) e3 (by simp [hc]) hn h2
    refine ⟨⟨p', some ccr⟩, ?_, k2, ?_⟩
    · show (do
        let ccr ← Conditioned.takeCr
        let cr' ← RegOps.mergeTwo cr ccr
        let (cr', r) ← Conditioned.onParent (Recursive.applyCondSub sc cr' r)
        match ← RegOps.splitRel cr' (List.range cr.length) with
        | .split cr ccr => do
          Conditioned.putCr ccr
          pure (cr, r)
        | .selected _ => throw .panic
        | .unselected _ => throw .panic : M (Conditioned β) (Reg × Reg)) s = _
      rw [bind_ok (Conditioned.takeCr_ok e1), LawfulReg.mergeTwo_eq _ _ (by simp [hc]), pure_bind,
        bind_ok (Conditioned.onParent_ok (s := { s with cr := none }) k1)]
      simp only
      rw [LawfulReg.splitRel_eq, splitE_prefix cr ccr hn1 hc e2]
      rfl
    · rw [conditioned_ctl (k3.trans e3) e2, h]
  sub {s cs sc r r' b} h hc hn h2 := by
    obtain ⟨ccr, ps, e1, e2, e3, rfl⟩ := ctl_conditioned h
    obtain ⟨p', k1, k2, k3⟩ := SubSim.condSub (s := s.parent) e3 e2 hn h2
    refine ⟨⟨p', some ccr⟩, ?_, k2, ?_⟩
    · show (do
        let cr ← Conditioned.takeCr
        let (cr, r) ← Conditioned.onParent (Recursive.applyCondSub sc cr r)
        Conditioned.putCr cr
        pure r : M (Conditioned β) Reg) s = _
      rw [bind_ok (Conditioned.takeCr_ok e1), bind_ok (Conditioned.onParent_ok (s := { s with cr := none }) k1)]
      rfl
    · rw [conditioned_ctl (k3.trans e3) e2, h]
  sub_nil {s sc r r' b} h _ := by
    obtain ⟨ccr, ps, e1, e2, e3, e4⟩ := ctl_conditioned h
    exact absurd e4 (by simp)

instance NB.subSim : (k : ℕ) → SubSim (NB k)
  | 0 => inferInstanceAs (SubSim LocalBuilder)
  | k + 1 => letI := NB.subSim k; inferInstanceAs (SubSim (Conditioned (NB k)))

/-! ## objects -/

theorem at_one (R : Reg) (i : ℕ) : at' R [i] = [R.getD i 0] := rfl

section
variable {β : Type} [Conditionable β] [Rooted β] [Sim β]

theorem fit_condable {e : List ℕ × CObj} (h : Condable e) {cs : List Reg} (hc : cs ≠ []) : Fit rotAngle β cs e (condObj e.2) := by
  intro R s L hs hn ho
  have hfl := flatten_ne hs hc
  have hcn : cs.flatten.Nodup := (List.nodup_append.mp (List.nodup_append.mp ho.left).1).1
  obtain ⟨idx, n, o⟩ := e
  obtain ⟨-, ⟨h1, h2⟩ | ⟨h1, h2⟩⟩ := h
  · obtain ⟨i, rfl⟩ := List.length_eq_one_iff.mp h1
    simp only [at_one] at hn ho ⊢
    obtain ⟨q, hq⟩ : ∃ q, q = R.getD i 0 := ⟨_, rfl⟩
    rw [← hq] at hn ho ⊢
    have key : ∀ (W : Wave →ₗ[ℂ] Wave), Does rotAngle (LocalBuilder.tryCond cs.flatten [q] ⟨n, o⟩) (root s) (cs.flatten, [q])
        (cs.flatten ++ [q] ++ L) (ctlW cs.flatten W) → W = entryW rotAngle ([q], condObj ⟨n, o⟩) →
        Does rotAngle (CircuitBuilder.applyCO [q] ⟨n, o⟩) s [q] (cs.flatten ++ [q] ++ L) (ctlW cs.flatten (entryW rotAngle ([q], condObj ⟨n, o⟩))) := by
      rintro W hW rfl
      exact Does.of_root' hW fun b hb => Sim.applyCO hs hc hcn hb
    simp only at h2
    rcases h2 with rfl | rfl | rfl | rfl | rfl | rfl
    · refine key _ ((condX_does rotAngle cs.flatten [q] L (root s) hfl ho n (by simp)).congrU fun x _ => ?_) rfl
      rw [show ([q] : List ℕ).length = 1 from rfl, tofPhase_one, one_smul]; rfl
    · refine key _ (condY_does rotAngle cs.flatten L q (root s) hfl ho n) ?_
      unfold u1 entryW condObj
      simp only
      refine wave_ext fun x => ?_
      rw [LinearMap.neg_apply, gateW_ket, gateW_ket, ← Finset.sum_neg_distrib]
      refine Finset.sum_congr rfl fun r hr => ?_
      rw [← neg_smul]
      congr 1
      have h1 := readQ_lt [q] x
      rw [Finset.mem_range] at hr
      simp only [List.length_singleton, pow_one] at hr h1 ⊢
      interval_cases r <;> interval_cases (readQ [q] x) <;> simp [uMat, mat2]
    · refine key _ ((condZ_does rotAngle cs.flatten [q] L (root s) hfl ho n (by simp)).congrU fun x _ => ?_) rfl
      rw [show ([q] : List ℕ).length = 1 from rfl, tofPhase_one, one_smul]; rfl
    · refine key _ (condH_does cs.flatten L q (root s) hfl ho n) ?_
      unfold entryW condObj
      simp only
      refine gateW_congr [q] _ _ fun i j hi hj => ?_
      simp only [List.length_singleton, pow_one] at hi hj ⊢
      interval_cases i <;> interval_cases j <;> simp [uMat, mat2, condHMat]
    · exact key _ (condS_does rotAngle cs.flatten L q (root s) hfl ho n) rfl
    · exact key _ (condT_does rotAngle cs.flatten L q (root s) hfl ho n) rfl
  · obtain ⟨i, j, rfl⟩ := List.length_eq_two.mp h1
    simp only at h2
    subst h2
    exact Does.of_root' (condCnot_does rotAngle cs.flatten L (R.getD i 0) (R.getD j 0) (root s) hfl ho n) fun b hb =>
      Sim.applyCO hs hc hcn hb

end

/-- A subcircuit applied inside conditions acts, when they hold, as the circuit of the replaced objects. -/
theorem applySub_cond {β : Type} [Recursive β] [Rooted β] [SubSim β] {s : β} {cs : List Reg} {L : List ℕ} {sc : Pipeline} {r : Reg}
    (hs : ctl s = some cs) (hc : cs ≠ []) (hr : r ≠ []) {m : ℕ} (hm : maxIndex sc = some m) (hk : r.length ≤ m + 1)
    (h : ∀ e ∈ sc, Condable e) (ho : Own (root s) (cs.flatten ++ r ++ L)) (V : Asg → Wave)
    (hV : ∀ z, (∀ i, r.length ≤ i → z i = false) → runW rotAngle (objects condObj sc) (ket z) = V z ∧ On {y | ∀ i, r.length ≤ i → y i = false} (V z)) :
    Does rotAngle (Recursive.applySub sc r) s r (cs.flatten ++ r ++ L)
      (fun x => if ∀ c ∈ cs.flatten, x c = true then moveW r V x else ket x) := by
  have hfl := flatten_ne hs hc
  have hcn : cs.flatten.Nodup := (List.nodup_append.mp (List.nodup_append.mp ho.left).1).1
  have hctl : ctl (⟨root s, some cs.flatten⟩ : Conditioned LocalBuilder) = some [cs.flatten] := conditioned_ctl rfl hfl
  have hff : ([cs.flatten] : List Reg).flatten = cs.flatten := by simp
  have h1 := applySub_sim (ang := rotAngle) (β := Conditioned LocalBuilder) condObj (s := ⟨root s, some cs.flatten⟩) (L := L) hctl hr hm hk
    (fun e he => ⟨by
      obtain ⟨-, h1 | h1⟩ := h e he <;> · intro h0; rw [h0] at h1; simp at h1, (h e he).1, fit_condable (h e he) (by simp)⟩) (by rw [hff]; exact ho) V hV
  rw [hff] at h1
  obtain ⟨b, k1, k2⟩ := Does.conditioned (β := LocalBuilder) (cs := []) rfl hfl h1
  refine Does.of_root' (l := Recursive.applyCondSub (β := LocalBuilder) sc cs.flatten r) (c := (cs.flatten, r)) ?_ fun b hb => SubSim.sub hs hc hcn hb
  refine ⟨b, ?_, k2⟩
  show (do
    let (r, cr) ← Conditioned.conditioned cs.flatten (applyPipelineObjects sc r)
    pure (cr, r) : M LocalBuilder (Reg × Reg)) (root s) = _
  rw [bind_ok k1]
  rfl

end Verif
