import Verif.Proofs.FloatExact2
import Verif.Proofs.FloatJoint2
import Verif.Props.FloatGates

/-! # Circuits without rounding -/

namespace Verif
open MatrixOp Finset

theorem rep_unitVec (n z : ℕ) (hz : z < 2 ^ n) (u : ℂ) : Rep n (unitVec n z u) (u • ket (asg n z)) := by
  refine ⟨unitVec_length n z u, fun i hi => ?_⟩
  rw [unitVec_get n z u i hi]
  classical
  unfold ket
  rw [Finsupp.smul_apply, Finsupp.single_apply, smul_eq_mul]
  by_cases h : i = z
  · subst h; simp
  · rw [if_neg h, if_neg fun e => h (asg_inj n z i hz hi e).symm, mul_zero]

theorem rep_inj {n : ℕ} {v : List ℂ} {ψ χ : Wave} (h : Rep n v ψ) (h' : Rep n v χ) (hψ : On (Low n) ψ) (hχ : On (Low n) χ) : ψ = χ := by
  ext y
  by_cases hy : y ∈ Low n
  · obtain ⟨j, hj, rfl⟩ := asg_surj n y hy
    have := (h.2 j hj).symm.trans (h'.2 j hj)
    exact Option.some.inj this
  · have off : ∀ {ψ : Wave}, On (Low n) ψ → ψ y = 0 := fun {ψ} h => by
      by_contra hne
      exact hy (h (Finsupp.mem_support_iff.mpr hne))
    rw [off hψ, off hχ]

theorem low_unit (n z : ℕ) (u : ℂ) : On (Low n) (u • ket (asg n z)) := (On.ket (asg_low n z)).smul u

theorem normW_unit (n z : ℕ) (u : ℂ) (hu : Quarter u) (h0 : u ≠ 0) : normW (u • ket (asg n z)) = 1 := by
  have : normW (ket (asg n z)) = 1 := by
    unfold normW ket
    rw [Finsupp.sum_single_index] <;> simp
  rw [normW_smul, this, hu.normSq, if_neg h0, mul_one]

variable {f : Format} {fl : ℝ → ℝ}

namespace Format.Arith

/-- the element holds the gate without rounding, or is the same measurement -/
inductive PlainElem (A : f.Arith fl) : ElemP A.Num → List ℕ × CObj → Prop
  | gate (U : MatrixOp ℂ) (idx : List ℕ) (w : ℕ) (g : UObj) : unitaryOp idx g = .ok U → Entries Quarter U →
      (∀ r, r < 2 ^ U.indices.length → ∃ c e, rowItems U r = [(c, e)] ∧ Quarter e) → PlainElem A (.op (mapOp A.stored U)) (idx, ⟨w, .unitary g⟩)
  | measurement (idx : List ℕ) (w : ℕ) : PlainElem A (.measurement idx) (idx, ⟨w, .meas .measurement⟩)

theorem plain_elements (A : f.Arith fl) (L : StdLib f) (n : ℕ) (c : List (List ℕ × ObjTypeP f)) (p : Pipeline) (hm : List.Forall₂ Meant c p)
    (hp : ∀ e ∈ p, StepOK n e) (hpl : ∀ e ∈ p, PlainStep e) :
    ∃ els : List (ElemP A.Num), c.mapM (elemP A L) = .ok (els.map Props.elemOf) ∧ List.Forall₂ (PlainElem A) els p := by
  induction hm with
  | nil => exact ⟨[], rfl, .nil⟩
  | @cons ce e c p h _ ih =>
    obtain ⟨els, h1, h2⟩ := ih (fun e he => hp e (by simp [he])) fun e he => hpl e (by simp [he])
    suffices ∃ el : ElemP A.Num, elemP A L ce = .ok (Props.elemOf el) ∧ PlainElem A el e by
      obtain ⟨el, k1, k2⟩ := this
      refine ⟨el :: els, ?_, .cons k2 h2⟩
      rw [List.mapM_cons, k1, h1]
      rfl
    have hpe := hpl e (by simp)
    have hse := hp e (by simp)
    obtain ⟨idx, w, o⟩ := e
    obtain ⟨ci, co⟩ := ce
    obtain ⟨h3, h4⟩ := h
    simp only at h3 h4
    subst h3
    cases o with
    | meas m =>
      have hm : m = .measurement := by
        rcases hse with ⟨⟨-, -, u, hu, -⟩, -⟩ | ⟨hu, -⟩
        · cases hu
        · injection hu
      subst hm
      rcases h4 with h4 | ⟨data, d, -, h4, -⟩ | ⟨x, θ, -, h4, -⟩
      · cases co with
        | unitary c => cases h4
        | meas m =>
          obtain rfl : MObj.measurement = m := by injection h4
          exact ⟨.measurement idx, rfl, .measurement idx w⟩
      · cases h4
      · cases h4
    | unitary g =>
      have hg : g.plain = true := hpe
      have hex : (⟨idx, co⟩ : List ℕ × ObjTypeP f).2.exact = .unitary g := by
        rcases h4 with h4 | ⟨data, d, -, h4, -⟩ | ⟨x, θ, -, h4, -⟩
        · exact h4.symm
        · injection h4 with h4; subst h4; cases hg
        · injection h4 with h4; subst h4; cases hg
      obtain ⟨⟨n1, n2, n3⟩, -, u, hu, hgp⟩ : SegOK n (idx, ⟨w, .unitary g⟩) := by
        rcases hse with h | ⟨h, -⟩
        · exact h.1
        · cases h
      obtain rfl : g = u := by injection hu
      obtain ⟨U, hU, -⟩ := unitaryOp_ok idx g (n3 g rfl) hgp
      cases co with
      | meas m => cases hex
      | unitary c =>
        obtain ⟨k1, k2, k3⟩ := plain_op A L idx c g hex hg U hU
        refine ⟨.op (mapOp A.stored U), ?_, .gate U idx w g hU k2 k3⟩
        unfold elemP
        cases c with
        | GlobalPhase r =>
          injection hex with hex
          exact absurd hex.symm (hgp _)
        | _ => simp only [k1]; rfl

/-- a gate on a basis state -/
theorem gate_stored (A : f.Arith fl) (n : ℕ) (U : MatrixOp ℂ) (idx : List ℕ) (w : ℕ) (g : UObj) (hU : unitaryOp idx g = .ok U) (hE : Entries Quarter U)
    (hR : ∀ r, r < 2 ^ U.indices.length → ∃ c e, rowItems U r = [(c, e)] ∧ Quarter e) (hs : SegU n (idx, ⟨w, .unitary g⟩)) (z : ℕ) (hz : z < 2 ^ n) (u : ℂ)
    (hu : Quarter u) (h0 : u ≠ 0) :
    ∃ z' u', z' < 2 ^ n ∧ Quarter u' ∧ u' ≠ 0 ∧ entryW rotAngle (idx, ⟨w, .unitary g⟩) (u • ket (asg n z)) = u' • ket (asg n z') ∧
      ∀ arena : List A.Num, arena.length = 2 ^ n →
        applyOpOverwrite n (mapOp A.stored U) ((unitVec n z u).map A.stored) arena 0 0 = some ((unitVec n z' u').map A.stored) := by
  obtain ⟨hUn, -⟩ := unitaryOn_gate n _ hs g rfl U hU
  have hl := unitVec_length n z u
  have hrep := rep_unitVec n z hz u
  obtain ⟨st, a1, a2, -, -⟩ := calcStep_unitary n (fun _ => 0) ⟨unitVec n z u, unitVec n z u, []⟩ _ hrep hl _ hs.1
  obtain ⟨out, o1, -, o3⟩ := apply_stored A n U hUn.wf hUn.lt hE hR _ hl (unitVec_quarter n z u hu) (List.replicate (2 ^ n) 0) (by simp) (unitVec n z u) hl
  have hst : st.state = out := by
    obtain ⟨-, -, g', hg', hgp⟩ := hs.1
    obtain rfl : g = g' := by injection hg'
    unfold calcStep at a1
    cases g with
    | GlobalPhase ρ => exact absurd rfl (hgp ρ)
    | _ =>
      simp only [hU, o1, Option.bind_eq_bind, Option.bind_some, Option.some.injEq] at a1
      rw [← a1]
  rw [hst] at a2
  have hon : On (Low n) (entryW rotAngle (idx, ⟨w, .unitary g⟩) (u • ket (asg n z))) := (low_unit n z u).entryLow _ hs.1.1.2.1
  have hnrm : nrm n (vals id out) = 1 := by
    unfold nrm
    rw [sum_congr rfl fun r hr => by
      rw [show vals id out r = entryW rotAngle (idx, ⟨w, .unitary g⟩) (u • ket (asg n z)) (asg n r) by
        unfold vals; rw [a2.2 r (mem_range.mp hr)]; rfl, ← Complex.normSq_eq_norm_sq], ← normW_low hon, normW_entry (low_unit n z u) _ hs,
      normW_unit n z u hu h0, Real.sqrt_one]
  obtain ⟨z', u', k1, k2, k3, k4⟩ := unit_of_nrm n out a2.1 o3 hnrm
  refine ⟨z', u', k1, k2, k3, rep_inj a2 (by rw [k4]; exact rep_unitVec n z' k1 u') hon (low_unit n z' u'), fun arena ha => ?_⟩
  obtain ⟨out', p1, p2, -⟩ := apply_stored A n U hUn.wf hUn.lt hE hR _ hl (unitVec_quarter n z u hu) arena ha (unitVec n z u) hl
  obtain rfl : out = out' := by rw [o1] at p1; exact Option.some.inj p1
  rw [p2, k4]

/-- such a circuit runs without rounding, and nothing depends on the draws -/
theorem plain_run (A : f.Arith fl) (n : ℕ) (p : Pipeline) (els : List (ElemP A.Num)) (hels : List.Forall₂ (PlainElem A) els p) :
    ∀ (_ : ∀ e ∈ p, StepOK n e) (z : ℕ) (_ : z < 2 ^ n) (u : ℂ) (_ : Quarter u) (_ : u ≠ 0),
    ∃ z' u' ms, z' < 2 ^ n ∧ Quarter u' ∧ u' ≠ 0 ∧ ms.length = measCount p ∧ branchW rotAngle p ms (u • ket (asg n z)) = u' • ket (asg n z') ∧
      ∀ (rnds : ℕ → f.Fin) (_ : ∀ k, 0 < (rnds k).1 ∧ (rnds k).1 ≤ 1) (t0 : StateP A.Num f.Part) (_ : t0.state = (unitVec n z u).map A.stored)
        (_ : t0.arena.length = 2 ^ n),
        (∃ t, RunsP A.prec (fun c : A.Num => c) (fun c => c) n (fun k => some (rnds k)) els t0 t) ∧
        ∀ t, RunsP A.prec (fun c : A.Num => c) (fun c => c) n (fun k => some (rnds k)) els t0 t →
          t.state = (unitVec n z' u').map A.stored ∧ t.measurements = t0.measurements ++ ms.map fun m => (m, A.round 1) := by
  induction hels with
  | nil =>
    intro _ z hz u hu h0
    refine ⟨z, u, [], hz, hu, h0, rfl, rfl, fun rnds hr t0 h1 h2 => ⟨⟨t0, .nil t0⟩, fun t ht => ?_⟩⟩
    cases ht
    exact ⟨h1, by simp⟩
  | @cons el e els' p' he _ ih =>
    intro hp z hz u hu h0
    have hp' : ∀ e ∈ p', StepOK n e := fun e' he' => hp e' (by simp [he'])
    have hstep := hp e (by simp)
    have hl : ∀ z u, ((unitVec n z u).map A.stored).length = 2 ^ n := fun z u => by rw [List.length_map, unitVec_length]
    cases he with
    | gate U idx w g hU hE hR =>
      have hs : SegU n (idx, ⟨w, .unitary g⟩) := by
        rcases hstep with h | ⟨h, -⟩
        · exact h
        · cases h
      obtain ⟨z1, u1, k1, k2, k3, k4, k5⟩ := gate_stored A n U idx w g hU hE hR hs z hz u hu h0
      obtain ⟨z', u', ms, j1, j2, j3, j4, j5, j6⟩ := ih hp' z1 k1 u1 k2 k3
      refine ⟨z', u', ms, j1, j2, j3, by rw [j4]; simp [measCount, isMeas], by rw [branchW_unitary _ _ _ _ _ g rfl, k4, j5], ?_⟩
      intro rnds hr t0 h1 h2
      have ha := k5 t0.arena h2
      rw [← h1] at ha
      obtain ⟨⟨t, ht⟩, j7⟩ := j6 rnds hr ⟨(unitVec n z1 u1).map A.stored, t0.state, t0.measurements⟩ rfl (by
        show t0.state.length = _
        rw [h1]; exact hl _ _)
      refine ⟨⟨t, .op _ _ _ _ _ ha ht⟩, fun t ht => ?_⟩
      cases ht with
      | op _ _ _ _ arena har ht =>
        obtain rfl : (unitVec n z1 u1).map A.stored = arena := by rw [ha] at har; exact Option.some.inj har
        exact j7 t ht
    | measurement idx w =>
      obtain ⟨hn, hi⟩ : idx.Nodup ∧ ∀ q ∈ idx, q < n := by
        rcases hstep with ⟨⟨-, -, g, hg, -⟩, -⟩ | ⟨-, h⟩
        · cases hg
        · exact h
      obtain ⟨z', u', ms, j1, j2, j3, j4, j5, j6⟩ := ih hp' z hz u hu h0
      have hlt : outcomeOf n idx z < 2 ^ idx.length := outcomeOf_lt n idx z
      have hv : valQ idx (asg n z) = outcomeOf n idx z := (spells_valQ n idx hi _ z hlt).mp (spells_outcomeOf n idx z)
      refine ⟨z', u', outcomeOf n idx z :: ms, j1, j2, j3, by
        rw [List.length_cons, j4]
        exact (List.countP_cons_of_pos rfl).symm, ?_, ?_⟩
      · rw [branchW_meas _ _ _ _ _ _ _ rfl]
        show branchW rotAngle p' ms (projW idx _ _) = _
        rw [projW_on (On.smul (On.ket hv) u), j5]
      · intro rnds hr t0 h1 h2
        have key : ∀ m pr (out : List A.Num), MeasureP A.prec n idx t0.state t0.arena (some (rnds t0.measurements.length)) m pr out →
            m = outcomeOf n idx z ∧ pr = A.round 1 ∧ out = (unitVec n z u).map A.stored := by
          intro m pr out h
          have h' : MeasureP A.prec n idx ((unitVec n z u).map A.stored) t0.arena (some (rnds t0.measurements.length)) m pr out :=
            h1 ▸ h
          exact measure_stored A n z hz u hu h0 idx hn hi t0.arena h2 _ (hr _).1 (hr _).2 m pr out h'
        have hsl : t0.state.length = 2 ^ n := by rw [h1]; exact hl _ _
        obtain ⟨⟨m, pr, out, k⟩, -⟩ := Props.C88_total A.prec n idx hn hi t0.state t0.arena hsl h2 (some (rnds t0.measurements.length))
        constructor
        · obtain ⟨e1, e2, e3⟩ := key m pr out k
          obtain ⟨⟨t, ht⟩, -⟩ := j6 rnds hr ⟨out, t0.state, t0.measurements ++ [(m, pr)]⟩ e3 hsl
          exact ⟨t, (runs_measure A n _ idx els' t0 t).mpr ⟨m, pr, out, k, ht⟩⟩
        · intro t ht
          obtain ⟨m, pr, out, k, ht⟩ := (runs_measure A n _ idx els' t0 t).mp ht
          obtain ⟨rfl, rfl, e3⟩ := key m pr out k
          obtain ⟨-, j7⟩ := j6 rnds hr ⟨out, t0.state, t0.measurements ++ [(_, _)]⟩ e3 hsl
          obtain ⟨i1, i2⟩ := j7 t ht
          exact ⟨i1, by rw [i2]; simp⟩

end Format.Arith
end Verif
