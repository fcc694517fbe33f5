import Verif.Spec.Examples
import Verif.Model.Examples
import Verif.Props.Runs
import Verif.Props.Born
import Verif.Props.Cond
import Verif.Props.Gates
import Verif.Proofs.Add2

/-!
# Property C80: the swap test

The example (CSWAP) of the documentation. The measurement of the control qubit compares the states of the two
registers.
-/

namespace Verif.Props
open Complex Classical

/-! ## exchanging -/

theorem exch_get (ra rb : Reg) (hl : ra.length = rb.length) (hn : (ra ++ rb).Nodup) (x : Asg) (i : ℕ) (hi : i < ra.length) :
    exch ra rb x ra[i] = x (rb[i]'(by omega)) ∧ exch ra rb x (rb[i]'(by omega)) = x ra[i] := by
  obtain ⟨ha, hb, hd⟩ := List.nodup_append.mp hn
  unfold exch
  constructor
  · rw [if_pos (List.getElem_mem _), ha.idxOf_getElem, List.getD_eq_getElem]
  · rw [if_neg (fun h => hd _ h _ (List.getElem_mem _) rfl), if_pos (List.getElem_mem _), hb.idxOf_getElem, List.getD_eq_getElem]

theorem exch_not_mem (ra rb : Reg) (x : Asg) (q : ℕ) (h1 : q ∉ ra) (h2 : q ∉ rb) : exch ra rb x q = x q := by
  unfold exch
  rw [if_neg h1, if_neg h2]

theorem exch_unique (ra rb : Reg) (hl : ra.length = rb.length) (hn : (ra ++ rb).Nodup) (x y : Asg)
    (h1 : ∀ i (h : i < ra.length), y ra[i] = x (rb[i]'(by omega)) ∧ y (rb[i]'(by omega)) = x ra[i])
    (h2 : ∀ q, q ∉ ra → q ∉ rb → y q = x q) : y = exch ra rb x := by
  funext q
  by_cases ha : q ∈ ra
  · obtain ⟨i, hi, rfl⟩ := List.getElem_of_mem ha
    rw [(h1 i hi).1, (exch_get ra rb hl hn x i hi).1]
  · by_cases hb : q ∈ rb
    · obtain ⟨i, hi, rfl⟩ := List.getElem_of_mem hb
      rw [(h1 i (by omega)).2, (exch_get ra rb hl hn x i (by omega)).2]
    · rw [h2 q ha hb, exch_not_mem ra rb x q ha hb]

theorem exchW_ket (ra rb : Reg) (x : Asg) : exchW ra rb (ket x) = ket (exch ra rb x) := by
  unfold exchW ket
  rw [Finsupp.lmapDomain_apply, Finsupp.mapDomain_single]

/-! ## the circuit -/

/-- the state before the measurement, from a basis state with `q` zero -/
noncomputable def testW (q : ℕ) (ra rb : Reg) (x : Asg) : Wave :=
  (1 / 2 : ℂ) • (ket x + ket (exch ra rb x)) + (1 / 2 : ℂ) • (ket (setQ q true x) - ket (exch ra rb (setQ q true x)))

theorem exch_setQ (q : ℕ) (ra rb : Reg) (ha : q ∉ ra) (hb : q ∉ rb) (hl : ra.length = rb.length) (hn : (ra ++ rb).Nodup)
    (c : Bool) (x : Asg) : setQ q c (exch ra rb x) = exch ra rb (setQ q c x) := by
  refine exch_unique ra rb hl hn _ _ (fun i hi => ?_) fun p h1 h2 => ?_
  · have e1 : ra[i] ≠ q := fun h => ha (h ▸ List.getElem_mem _)
    have e2 : rb[i]'(by omega) ≠ q := fun h => hb (h ▸ List.getElem_mem _)
    have := exch_get ra rb hl hn x i hi
    rw [setQ_ne e1, setQ_ne e2, setQ_ne e1, setQ_ne e2]
    exact this
  · by_cases h : p = q
    · subst h; simp [setQ]
    · rw [setQ_ne h, setQ_ne h, exch_not_mem ra rb x p h1 h2]

theorem sqrt_half : (1 / Real.sqrt 2 : ℂ) * (1 / Real.sqrt 2 : ℂ) = 1 / 2 := by
  rw [← ofReal_one, ← ofReal_div, ← ofReal_mul, div_mul_div_comm, Real.mul_self_sqrt (by norm_num)]
  norm_num

theorem h_gate (q : ℕ) (x : Asg) : eachW (textbook .h) [q] (ket x) =
    (1 / Real.sqrt 2 : ℂ) • ket (setQ q false x) + ((if x q then -1 else 1) * (1 / Real.sqrt 2 : ℂ)) • ket (setQ q true x) := by
  show gateW [q] (textbook .h) (ket x) = _
  exact h_ket (fun _ => 0) q x

/-- the three gates of the swap test, from a basis state with `q` zero -/
theorem test_ket (q : ℕ) (ra rb : Reg) (ha : q ∉ ra) (hb : q ∉ rb) (hl : ra.length = rb.length) (hn : (ra ++ rb).Nodup)
    (x : Asg) (hx : x q = false) :
    lift (fun x => eachW (textbook .h) [q] (ket x)) (lift (fun x => ket (if ∀ d ∈ [q], x d = true then exch ra rb x else x))
      (eachW (textbook .h) [q] (ket x))) = testW q ra rb x := by
  rw [h_gate, setQ_self q x false hx, hx]
  simp only [map_add, map_smul, lift_ket, List.mem_singleton, forall_eq, setQ_eq, hx, if_true, Bool.false_eq_true, if_false, one_mul]
  rw [h_gate, h_gate, setQ_self q x false hx, hx, exch_not_mem ra rb _ q ha hb, setQ_eq,
    exch_setQ q ra rb ha hb hl hn, exch_setQ q ra rb ha hb hl hn]
  have e1 : setQ q false (setQ q true x) = x := by
    funext p
    by_cases h : p = q
    · subst h; rw [setQ_eq, hx]
    · rw [setQ_ne h, setQ_ne h]
  have e2 : setQ q true (setQ q true x) = setQ q true x := setQ_self q _ true (setQ_eq _ _ _)
  rw [e1, e2]
  have hs := sqrt_half
  unfold testW
  generalize (1 / Real.sqrt 2 : ℂ) = r at *
  simp only [if_true, Bool.false_eq_true, if_false, one_mul, smul_add, smul_smul]
  rw [hs, show r * (-1 * r) = -(1 / 2) by rw [← hs]; ring]
  module

/-- The swap test builds: it returns its registers and the handle of the measurement. -/
theorem test_builds (s : LocalBuilder) (q : ℕ) (ra rb : Reg) (L : List ℕ) (hr : ra ≠ []) (hl : ra.length = rb.length)
    (ho : Own s ([q] ++ (ra ++ rb) ++ L)) :
    ∃ s' seg, swapTest [q] ra rb s = .ok (([q], ra, rb), s.measurements) s' ∧ s.n ≤ s'.n ∧
      s'.measurements = s.measurements + 1 ∧ Own s' ([q] ++ (ra ++ rb) ++ L) ∧
      s'.pipeline = s.pipeline ++ seg ++ [([q], ⟨1, .meas .measurement⟩)] ∧ (∀ e ∈ seg, SegU s'.n e) ∧
      ∀ x, Clean s x → x q = false → runW rotAngle seg (ket x) = testW q ra rb x := by
  have hn3 : ([q] ++ (ra ++ rb)).Nodup := (List.nodup_append.mp ho.left).1
  obtain ⟨-, hn, hd⟩ := List.nodup_append.mp hn3
  have ha : q ∉ ra := fun h => hd q (by simp) q (by simp [h]) rfl
  have hb : q ∉ rb := fun h => hd q (by simp) q (by simp [h]) rfl
  obtain ⟨s1, a1, -, a3, a4⟩ := C31_named rotAngle .h s [q] (ra ++ rb ++ L) (by simp) (by simpa using ho)
  have a3' : Own s1 ([q] ++ (ra ++ rb ++ L)) := a3
  obtain ⟨f, c, hf⟩ := C37_swap rotAngle s1 [q] ra rb L (by simp) hr hl (by simpa using a3')
  have hfe : f = exch ra rb := by
    funext x
    exact exch_unique ra rb hl hn x (f x) (hf x).1 (hf x).2
  subst hfe
  obtain ⟨s2, b1, -, b3, b4⟩ := c
  have b3' : Own s2 ([q] ++ (ra ++ rb) ++ L) := b3
  obtain ⟨s3, d1, -, d3, d4⟩ := C31_named rotAngle .h s2 [q] (ra ++ rb ++ L) (by simp) (by simpa using b3')
  have d3' : Own s3 ([q] ++ (ra ++ rb ++ L)) := d3
  have hm : s3.measurements = s.measurements := ((a4.trans b4).trans d4).meas
  obtain ⟨seg, g1, g2, g3⟩ := ((a4.trans b4).trans d4).seg
  refine ⟨⟨s3.pipeline ++ [([q], ⟨1, .meas .measurement⟩)], s3.n, s3.zeroedQubits, s3.measurements + 1⟩, seg, ?_, ?_, ?_, ?_, ?_, g2, ?_⟩
  · have a1' : Gate.h [q] s = .ok [q] s1 := a1
    have d1' : Gate.h [q] s2 = .ok [q] s3 := d1
    unfold swapTest
    rw [bind_ok a1', bind_ok b1]
    dsimp only
    rw [bind_ok d1', ← hm]
    rfl
  · exact ((a4.trans b4).trans d4).n_le
  · simp only [hm]
  · exact ⟨d3'.pool, by simpa using d3'.nodup, by simpa using d3'.lt⟩
  · have g1' : s3.pipeline = s.pipeline ++ seg := g1
    simp only [g1']
  · intro x hx hq
    rw [(g3 x hx).1]
    exact test_ket q ra rb ha hb hl hn x hq

theorem branchW_units (ang : Rot → ℝ) (p : Pipeline) (h : ∀ e ∈ p, ∃ u, e.2.object = .unitary u) (ψ : Wave) :
    branchW ang p [] ψ = runW ang p ψ := by
  induction p generalizing ψ with
  | nil => rfl
  | cons e p ih =>
    obtain ⟨u, hu⟩ := h e (by simp)
    rw [branchW_unitary _ _ _ _ _ u hu, ih fun e' he' => h e' (by simp [he'])]
    rfl

/-- the part of the state before the measurement in which `q` is 0 or 1 -/
theorem proj_test (q : ℕ) (ra rb : Reg) (ha : q ∉ ra) (hb : q ∉ rb) (hl : ra.length = rb.length)
    (hn : (ra ++ rb).Nodup) (A : Wave →ₗ[ℂ] Wave) (ψ : Wave) (hψ : On {x | x q = false} ψ)
    (hA : ∀ x, ψ x ≠ 0 → A (ket x) = testW q ra rb x) :
    projW [q] 0 (A ψ) = (1 / 2 : ℂ) • (ψ + exchW ra rb ψ) ∧
      projW [q] 1 (A ψ) = u1 rotAngle q .X ((1 / 2 : ℂ) • (ψ - exchW ra rb ψ)) := by
  have hon : On {x | x q = false ∧ ψ x ≠ 0} ψ := on_iff.mpr fun y hy => ⟨on_iff.mp hψ y hy, Finsupp.mem_support_iff.mp hy⟩
  have v0 : ∀ x : Asg, x q = false → valQ [q] x = 0 := fun x h => by simp [valQ, h]
  have v1 : ∀ x : Asg, x q = true → valQ [q] x = 1 := fun x h => by simp [valQ, h]
  have w0 : ∀ x : Asg, x q = false → valQ [q] (exch ra rb x) = 0 := fun x h => v0 _ (by rw [exch_not_mem ra rb x q ha hb, h])
  have w1 : ∀ x : Asg, valQ [q] (exch ra rb (setQ q true x)) = 1 := fun x => v1 _ (by rw [exch_not_mem ra rb _ q ha hb, setQ_eq])
  have v2 : ∀ x : Asg, valQ [q] (setQ q true x) = 1 := fun x => v1 _ (setQ_eq _ _ _)
  have f1 : ∀ x : Asg, x q = false → flipQ q x = setQ q true x := fun x h => by rw [flipQ, h]; rfl
  have pj : ∀ m x, projL [q] m (ket x) = if valQ [q] x = m then ket x else 0 := fun m x => projW_ket [q] m x
  have hX : ∀ x, u1 rotAngle q .X (ket x) = ket (flipQ q x) := x_ket rotAngle q
  generalize u1 rotAngle q .X = X at *
  constructor
  · refine hon.agree (A := projL [q] 0 ∘ₗ A) (B := (1 / 2 : ℂ) • (LinearMap.id + exchW ra rb)) fun x hx => ?_
    show projL [q] 0 (A (ket x)) = (1 / 2 : ℂ) • (ket x + exchW ra rb (ket x))
    rw [hA x hx.2, exchW_ket]
    unfold testW
    simp only [map_add, map_sub, map_smul]
    simp only [pj, v0 x hx.1, w0 x hx.1, w1, v2]
    simp
  · refine hon.agree (A := projL [q] 1 ∘ₗ A) (B := X ∘ₗ ((1 / 2 : ℂ) • (LinearMap.id - exchW ra rb))) fun x hx => ?_
    show projL [q] 1 (A (ket x)) = X ((1 / 2 : ℂ) • (ket x - exchW ra rb (ket x)))
    rw [hA x hx.2, exchW_ket, map_smul, map_sub, hX, hX, f1 x hx.1, f1 _ (by rw [exch_not_mem ra rb x q ha hb, hx.1]),
      exch_setQ q ra rb ha hb hl hn]
    unfold testW
    simp only [map_add, map_sub, map_smul]
    simp only [pj, v0 x hx.1, w0 x hx.1, w1, v2]
    simp

theorem normW_run {n : ℕ} {ψ : Wave} (h : On (Low n) ψ) (p : Pipeline) (hp : ∀ e ∈ p, SegU n e) :
    normW (runW rotAngle p ψ) = normW ψ := by
  induction p generalizing ψ with
  | nil => rfl
  | cons e p ih =>
    rw [runW_cons, ih (h.entryLow e (hp e (by simp)).1.1.2.1) fun e' he' => hp e' (by simp [he']), normW_entry h e (hp e (by simp))]

/-- The swap test at the end of any circuit (gates and measurements) that leaves `q` and the temporaries zero. Let the
earlier measurements give `ms`, which leaves the state `ψ` (not scaled). The test then gives 0 with the probability
`|ψ + Sψ|²/4` and 1 with the probability `|ψ - Sψ|²/4`, where `S` exchanges the two registers. The measurement reports these numbers divided by `|ψ|²`. -/
theorem C80_test (s : LocalBuilder) (q : ℕ) (ra rb : Reg) (L : List ℕ) (hr : ra ≠ []) (hl : ra.length = rb.length)
    (ho : Own s ([q] ++ (ra ++ rb) ++ L)) (hp : ∀ e ∈ s.pipeline, StepOK s.n e) (it : List (Reg × ℕ))
    (hi : ∀ p ∈ it, ∀ q ∈ p.1, q < s.n) (ms : List ℕ) (hms : ms.length = measCount s.pipeline) (ψ : Wave)
    (hψ : branchW rotAngle s.pipeline ms (ket (initAsg it)) = ψ) (hz : ∀ x ∈ ψ.support, Clean s x ∧ x q = false) :
    ∃ s', swapTest [q] ra rb s = .ok (([q], ra, rb), s.measurements) s' ∧
      s'.measurements = s.measurements + 1 ∧ Own s' ([q] ++ (ra ++ rb) ++ L) ∧ (∀ e ∈ s'.pipeline, StepOK s'.n e) ∧
      measCount s'.pipeline = measCount s.pipeline + 1 ∧
      outcomeProb s' it (ms ++ [0]) = ENNReal.ofReal (normW (ψ + exchW ra rb ψ) / 4) ∧
      outcomeProb s' it (ms ++ [1]) = ENNReal.ofReal (normW (ψ - exchW ra rb ψ) / 4) ∧
      ∀ (rnds : ℕ → ℝ) (m : ℕ), (∀ k, 0 < rnds k ∧ rnds k < 1) → Outcomes s' it rnds (ms ++ [m]) → m < 2 ∧
        ∃ v l, s'.calculateStateWithInit it rnds = some (v, l) ∧ getMeasurement l ms.length =
          some (m, normW (if m = 0 then ψ + exchW ra rb ψ else ψ - exchW ra rb ψ) / (4 * normW ψ)) := by
  have hn3 : ([q] ++ (ra ++ rb)).Nodup := (List.nodup_append.mp ho.left).1
  obtain ⟨-, hn, hd⟩ := List.nodup_append.mp hn3
  have ha : q ∉ ra := fun h => hd q (by simp) q (by simp [h]) rfl
  have hb : q ∉ rb := fun h => hd q (by simp) q (by simp [h]) rfl
  obtain ⟨s', seg, h1, h2, h3, h4, h5, h6, h7⟩ := test_builds s q ra rb L hr hl ho
  have hu : ∀ e ∈ seg, ∃ u, e.2.object = .unitary u := fun e he => (h6 e he).1.2.2.imp fun u hu => hu.1
  have hq : q < s'.n := lt_of_lt_of_le (ho.lt q (by simp)) h2
  have hp' : ∀ e ∈ s'.pipeline, StepOK s'.n e := by
    intro e he
    rw [h5, List.append_assoc, List.mem_append, List.mem_append, List.mem_singleton] at he
    rcases he with he | he | rfl
    · rcases hp e he with h | ⟨c1, c2, c3⟩
      · exact Or.inl (h.mono h2)
      · exact Or.inr ⟨c1, c2, fun q hq => lt_of_lt_of_le (c3 q hq) h2⟩
    · exact Or.inl (h6 e he)
    · exact Or.inr ⟨rfl, by simp, by simpa using hq⟩
  have hmc : measCount s'.pipeline = measCount s.pipeline + 1 := by
    rw [h5, measCount_append, measCount_append, measCount_unitary seg hu]; rfl
  have hi' : ∀ p ∈ it, ∀ q ∈ p.1, q < s'.n := fun p hp q hq => lt_of_lt_of_le (hi p hp q hq) h2
  have hbr : ∀ m, branchW rotAngle s'.pipeline (ms ++ [m]) (ket (initAsg it)) = projW [q] m (runW rotAngle seg ψ) := by
    intro m
    rw [h5, List.append_assoc, branchW_append _ _ _ _ _ hms, hψ, show [m] = [] ++ [m] from rfl,
      branchW_append _ _ _ _ _ (by rw [measCount_unitary seg hu]; rfl), branchW_units _ _ hu]
    exact branchW_meas _ _ _ _ _ _ _ rfl
  have hsup : ∀ x, ψ x ≠ 0 → Clean s x ∧ x q = false := fun x hx => hz x (Finsupp.mem_support_iff.mpr hx)
  obtain ⟨p0, p1⟩ := proj_test q ra rb ha hb hl hn (runW rotAngle seg) ψ
    (on_iff.mpr fun y hy => (hz y hy).2) fun x hx => h7 x (hsup x hx).1 (hsup x hx).2
  have h14 : normSq (1 / 2 : ℂ) = 1 / 4 := by norm_num [normSq_apply]
  have n0 : normW (projW [q] 0 (runW rotAngle seg ψ)) = normW (ψ + exchW ra rb ψ) / 4 := by
    rw [p0, normW_smul, h14]; ring
  have hψl : On (Low s'.n) ψ := on_iff.mpr fun y hy i hi => (hz y hy).1 i (Or.inr (le_trans h2 hi))
  have n1 : normW (projW [q] 1 (runW rotAngle seg ψ)) = normW (ψ - exchW ra rb ψ) / 4 := by
    have hlow : On (Low s'.n) ((1 / 2 : ℂ) • (ψ - exchW ra rb ψ)) := by
      refine On.smul ?_ _
      have : On (Low s'.n) (exchW ra rb ψ) := by
        refine hψl.map _ fun x hx => ?_
        rw [exchW_ket]
        refine On.ket fun i hi => ?_
        have na : ∀ p ∈ ra ++ rb, p < s'.n := fun p hp => lt_of_lt_of_le (ho.lt p (by simp at hp ⊢; tauto)) h2
        rw [exch_not_mem ra rb x i (fun h => absurd (na i (by simp [h])) (by omega)) (fun h => absurd (na i (by simp [h])) (by omega))]
        exact hx i hi
      exact Submodule.sub_mem _ hψl this
    have := normW_entry hlow ([q], ⟨1, .unitary .X⟩) ⟨⟨⟨by simp, by simpa using hq, fun u hu => by cases hu; rfl⟩, rfl, _, rfl, by simp⟩, by simp⟩
    rw [entryW_u1] at this
    rw [p1, this, normW_smul, h14]; ring
  refine ⟨s', h1, h3, h4, hp', hmc, ?_, ?_, ?_⟩
  · rw [C76_born_rule s' it hi' hp' _ (by rw [hmc, List.length_append, hms]; rfl), hbr, n0]
  · rw [C76_born_rule s' it hi' hp' _ (by rw [hmc, List.length_append, hms]; rfl), hbr, n1]
  · intro rnds m hrn hout
    obtain ⟨v, ms', r1, r2, r3, -, -⟩ := run_all s' it hi' hp' rnds hrn
    have hrl := reportW_length rotAngle s'.pipeline ms' (ket (initAsg it)) r2
    obtain rfl := (gives_iff s' it rnds v ms' _ hrl r1 _).mp hout
    rw [hbr] at r3
    have hm2 : m < 2 := by
      by_contra h
      rw [projW_big [q] m (by rw [List.length_singleton]; omega), normW_zero] at r3
      exact lt_irrefl _ r3
    refine ⟨hm2, v, _, r1, (getMeasurement_zip _ _ hrl _ _ _).mpr ⟨by simp, ?_⟩⟩
    rw [h5, List.append_assoc, reportW_append _ _ _ _ _ hms, hψ, show [m] = [] ++ [m] from rfl,
      reportW_append _ _ _ _ _ (by rw [measCount_unitary seg hu]; rfl), branchW_units _ _ hu,
      List.getElem?_append_right (by rw [reportW_length _ _ _ _ hms]), reportW_length _ _ _ _ hms, Nat.sub_self,
      List.length_eq_zero_iff.mp (reportW_length _ seg [] ψ (by rw [measCount_unitary seg hu]; rfl)),
      List.nil_append, reportW_meas _ _ _ _ _ _ _ rfl, List.getElem?_cons_zero]
    congr 1
    simp only
    rw [normW_run hψl seg h6]
    have h01 : m = 0 ∨ m = 1 := by omega
    rcases h01 with rfl | rfl
    · rw [n0, if_pos rfl]; rw [div_div]
    · rw [n1, if_neg one_ne_zero]; rw [div_div]

/-! ## overlaps -/

theorem normW_sum {ι : Type} (T : Finset ι) (P : ι → Asg) (hP : Set.InjOn P T) (c : ι → ℂ) :
    normW (∑ k ∈ T, c k • ket (P k)) = ∑ k ∈ T, normSq (c k) := by
  have hap : ∀ y, (∑ k ∈ T, c k • ket (P k)) y = ∑ k ∈ T, if P k = y then c k else 0 := by
    intro y
    rw [Finsupp.finset_sum_apply]
    refine Finset.sum_congr rfl fun k _ => ?_
    unfold ket
    rw [Finsupp.smul_apply, Finsupp.single_apply]
    split <;> simp
  have hk : ∀ k ∈ T, (∑ k ∈ T, c k • ket (P k)) (P k) = c k := by
    intro k hk
    rw [hap, Finset.sum_eq_single k]
    · rw [if_pos rfl]
    · intro j hj hne
      rw [if_neg fun h => hne (hP hj hk h)]
    · exact fun h => absurd hk h
  unfold normW
  rw [Finsupp.sum_of_support_subset (s := T.image P)]
  · rw [Finset.sum_image hP]
    exact Finset.sum_congr rfl fun k hk' => by rw [hk k hk']
  · intro y hy
    rw [Finsupp.mem_support_iff, hap] at hy
    obtain ⟨k, h1, h2⟩ := Finset.exists_ne_zero_of_sum_ne_zero hy
    rw [Finset.mem_image]
    exact ⟨k, h1, by by_contra h; exact h2 (if_neg h)⟩
  · simp

/-- a product of a state of the register `ra` and one of the register `rb`, everything else as in `x` -/
noncomputable def prodW (ra rb : Reg) (α β : ℕ → ℂ) (x : Asg) : Wave :=
  ∑ k ∈ Finset.range (2 ^ ra.length) ×ˢ Finset.range (2 ^ rb.length), (α k.1 * β k.2) • ket (putVal ra k.1 (putVal rb k.2 x))

theorem exch_putVal (ra rb : Reg) (hl : ra.length = rb.length) (hn : (ra ++ rb).Nodup) (i j : ℕ) (x : Asg) :
    exch ra rb (putVal ra i (putVal rb j x)) = putVal ra j (putVal rb i x) := by
  obtain ⟨na, nb, hd⟩ := List.nodup_append.mp hn
  refine (exch_unique ra rb hl hn _ _ (fun k hk => ?_) fun q h1 h2 => ?_).symm
  · have h1 : rb[k]'(by omega) ∉ ra := fun h => hd _ h _ (List.getElem_mem _) rfl
    unfold putVal
    simp only [List.getElem_mem, if_true, na.idxOf_getElem, nb.idxOf_getElem, h1, if_false, and_self]
  · unfold putVal
    simp only [h1, h2, if_false]

theorem putVal_inj (ra rb : Reg) (hn : (ra ++ rb).Nodup) (x : Asg) :
    Set.InjOn (fun k : ℕ × ℕ => putVal ra k.1 (putVal rb k.2 x))
      ↑(Finset.range (2 ^ ra.length) ×ˢ Finset.range (2 ^ rb.length)) := by
  obtain ⟨na, nb, hd⟩ := List.nodup_append.mp hn
  have val : ∀ i j, i < 2 ^ ra.length → j < 2 ^ rb.length →
      valQ ra (putVal ra i (putVal rb j x)) = i ∧ valQ rb (putVal ra i (putVal rb j x)) = j := by
    intro i j hi hj
    refine ⟨valQ_putVal ra na i hi _, ?_⟩
    rw [valQ_congr rb (putVal ra i (putVal rb j x)) (putVal rb j x) fun q hq => if_neg fun h => hd q h q hq rfl]
    exact valQ_putVal rb nb j hj _
  rintro ⟨i, j⟩ h1 ⟨i', j'⟩ h2 h
  simp only [Finset.coe_product, Set.mem_prod, Finset.coe_range, Set.mem_Iio] at h1 h2
  have a := val i j h1.1 h1.2
  have b := val i' j' h2.1 h2.2
  simp only at h
  rw [h] at a
  rw [Prod.mk.injEq]
  exact ⟨a.1.symm.trans b.1, a.2.symm.trans b.2⟩

theorem normW_exch (ra rb : Reg) (hl : ra.length = rb.length) (hn : (ra ++ rb).Nodup) (α β : ℕ → ℂ) (x : Asg) (e : ℝ) (he : e * e = 1)
    (hα : ∑ i ∈ Finset.range (2 ^ ra.length), normSq (α i) = 1) (hβ : ∑ i ∈ Finset.range (2 ^ ra.length), normSq (β i) = 1) :
    normW (prodW ra rb α β x + (e : ℂ) • exchW ra rb (prodW ra rb α β x)) =
      2 + 2 * e * normSq (∑ i ∈ Finset.range (2 ^ ra.length), (starRingEnd ℂ) (α i) * β i) := by
  have hS : exchW ra rb (prodW ra rb α β x) = ∑ k ∈ Finset.range (2 ^ ra.length) ×ˢ Finset.range (2 ^ rb.length),
      (α k.2 * β k.1) • ket (putVal ra k.1 (putVal rb k.2 x)) := by
    unfold prodW
    rw [map_sum]
    simp only [map_smul, exchW_ket, exch_putVal ra rb hl hn]
    rw [← hl]
    refine Finset.sum_equiv (Equiv.prodComm ℕ ℕ) (fun k => ?_) fun k _ => rfl
    simp only [Finset.mem_product, Equiv.prodComm_apply, Prod.fst_swap, Prod.snd_swap]
    exact and_comm
  have hsum : prodW ra rb α β x + (e : ℂ) • exchW ra rb (prodW ra rb α β x) =
      ∑ k ∈ Finset.range (2 ^ ra.length) ×ˢ Finset.range (2 ^ rb.length),
        (α k.1 * β k.2 + e * (α k.2 * β k.1)) • ket (putVal ra k.1 (putVal rb k.2 x)) := by
    rw [hS, prodW, Finset.smul_sum, ← Finset.sum_add_distrib]
    exact Finset.sum_congr rfl fun k _ => by module
  rw [hsum, normW_sum _ _ (putVal_inj ra rb hn x), Finset.sum_product, ← hl]
  generalize Finset.range (2 ^ ra.length) = T at *
  have he' : (e : ℂ) * e = 1 := by exact_mod_cast he
  have hA : ∑ i ∈ T, α i * (starRingEnd ℂ) (α i) = 1 := by
    simp only [mul_conj]; exact_mod_cast hα
  have hB : ∑ i ∈ T, β i * (starRingEnd ℂ) (β i) = 1 := by
    simp only [mul_conj]; exact_mod_cast hβ
  have hC : (∑ i ∈ T, α i * (starRingEnd ℂ) (β i)) = (starRingEnd ℂ) (∑ i ∈ T, (starRingEnd ℂ) (α i) * β i) := by
    rw [map_sum]
    exact Finset.sum_congr rfl fun i _ => by simp
  apply ofReal_injective
  rw [ofReal_sum]
  have h1 : ∀ i j, ((normSq (α i * β j + e * (α j * β i)) : ℝ) : ℂ) =
      (α i * (starRingEnd ℂ) (α i)) * (β j * (starRingEnd ℂ) (β j)) +
      e * ((α i * (starRingEnd ℂ) (β i)) * ((starRingEnd ℂ) (α j) * β j)) +
      e * (((starRingEnd ℂ) (α i) * β i) * (α j * (starRingEnd ℂ) (β j))) +
      (β i * (starRingEnd ℂ) (β i)) * (α j * (starRingEnd ℂ) (α j)) := by
    intro i j
    rw [← mul_conj]
    simp only [map_add, map_mul, conj_ofReal]
    linear_combination (β i * (starRingEnd ℂ) (β i) * (α j * (starRingEnd ℂ) (α j))) * he'
  simp only [ofReal_sum, h1, Finset.sum_add_distrib, ← Finset.mul_sum, ← Finset.sum_mul]
  rw [hA, hB, hC]
  push_cast
  rw [← mul_conj]
  ring

/-- The swap test of two registers in the states `α` and `β`: it gives 1 with the probability `(1 - |⟨α|β⟩|²)/2`, and 0 with
the probability `(1 + |⟨α|β⟩|²)/2`. -/
theorem C80_overlap (s : LocalBuilder) (q : ℕ) (ra rb : Reg) (L : List ℕ) (hr : ra ≠ []) (hl : ra.length = rb.length)
    (ho : Own s ([q] ++ (ra ++ rb) ++ L)) (hp : ∀ e ∈ s.pipeline, StepOK s.n e) (hm : measCount s.pipeline = 0)
    (it : List (Reg × ℕ)) (hi : ∀ p ∈ it, ∀ q ∈ p.1, q < s.n) (α β : ℕ → ℂ) (x : Asg) (hx : Clean s x) (hq : x q = false)
    (hα : ∑ i ∈ Finset.range (2 ^ ra.length), normSq (α i) = 1) (hβ : ∑ i ∈ Finset.range (2 ^ ra.length), normSq (β i) = 1)
    (hψ : runW rotAngle s.pipeline (ket (initAsg it)) = prodW ra rb α β x) :
    ∃ s', swapTest [q] ra rb s = .ok (([q], ra, rb), s.measurements) s' ∧
      outcomeProb s' it [0] =
        ENNReal.ofReal ((1 + normSq (∑ i ∈ Finset.range (2 ^ ra.length), (starRingEnd ℂ) (α i) * β i)) / 2) ∧
      outcomeProb s' it [1] =
        ENNReal.ofReal ((1 - normSq (∑ i ∈ Finset.range (2 ^ ra.length), (starRingEnd ℂ) (α i) * β i)) / 2) := by
  have hn3 : ([q] ++ (ra ++ rb)).Nodup := (List.nodup_append.mp ho.left).1
  obtain ⟨-, hn, hd⟩ := List.nodup_append.mp hn3
  have hu : ∀ e ∈ s.pipeline, ∃ u, e.2.object = .unitary u := by
    intro e he
    cases h : e.2.object with
    | unitary u => exact ⟨u, rfl⟩
    | meas o =>
      unfold measCount at hm
      exact absurd (List.countP_eq_zero.mp hm e he) (by simp [isMeas, h])
  have hz : ∀ y ∈ (prodW ra rb α β x).support, Clean s y ∧ y q = false := by
    refine on_iff.mp (?_ : On {y | Clean s y ∧ y q = false} _)
    unfold prodW
    refine Submodule.sum_mem _ fun k _ => On.smul (On.ket ?_) _
    have hk : ∀ p, p ∉ ra ++ rb → putVal ra k.1 (putVal rb k.2 x) p = x p := fun p hp => by
      rw [List.mem_append, not_or] at hp
      unfold putVal
      rw [if_neg hp.1, if_neg hp.2]
    refine ⟨fun p hp => ?_, ?_⟩
    · rw [hk p fun hm => ?_, hx p hp]
      rcases hp with hp | hp
      · exact (List.nodup_append.mp ho.nodup).2.2 p (by simp at hm ⊢; tauto) p hp rfl
      · exact absurd (ho.lt p (by simp at hm ⊢; tauto)) (by omega)
    · rw [hk q fun hm => hd q (by simp) q hm rfl, hq]
  obtain ⟨s', h1, -, -, -, -, h2, h3, -⟩ := C80_test s q ra rb L hr hl ho hp it hi [] hm.symm _
    ((branchW_units _ _ hu _).trans hψ) hz
  refine ⟨s', h1, ?_, ?_⟩
  · have := normW_exch ra rb hl hn α β x 1 (by norm_num) hα hβ
    rw [ofReal_one, one_smul] at this
    rw [List.nil_append] at h2
    rw [h2, this]
    congr 1; ring
  · have := normW_exch ra rb hl hn α β x (-1) (by norm_num) hα hβ
    rw [ofReal_neg, ofReal_one, neg_one_smul, ← sub_eq_add_neg] at this
    rw [List.nil_append] at h3
    rw [h3, this]
    congr 1; ring

/-! ## the example -/

theorem register_run (k : ℕ) (hk : 0 < k) (s : LocalBuilder) :
    LocalBuilder.register k s = .ok (List.range' s.n k) { s with n := s.n + k } := by
  unfold LocalBuilder.register
  have : Reg.new (List.range' s.n k) = some (List.range' s.n k) := by
    unfold Reg.new
    rw [if_neg]
    simp; omega
  show (unwrapO (Reg.new (List.range' s.n k)) >>= _) s = _
  rw [this]
  rfl

/-- the builder after the three registers are made -/
theorem cswap_start (n : ℕ) (hn : 0 < n) : cswapExample n LocalBuilder.default =
    swapTest [0] (List.range' 1 n) (List.range' (1 + n) n) ⟨[], 1 + n + n, [], 0⟩ := by
  unfold cswapExample
  rw [bind_ok (register_run 1 one_pos _), bind_ok (register_run n hn _), bind_ok (register_run n hn _)]
  simp [LocalBuilder.default]

theorem cswap_own (n : ℕ) : Own ⟨[], 1 + n + n, [], 0⟩ ([0] ++ (List.range' 1 n ++ List.range' (1 + n) n) ++ []) := by
  refine ⟨by simp, ?_, ?_⟩
  · have : [0] ++ (List.range' 1 n ++ List.range' (1 + n) n) ++ [] = List.range' 0 (1 + n + n) := by
      rw [List.append_nil, List.range'_append_1, show 1 + n + n = (n + n) + 1 by omega, List.range'_succ]
      rfl
    simp only [this, List.flatten_nil, List.append_nil]
    exact List.nodup_range'
  · intro q hq
    simp only [List.flatten_nil, List.append_nil, List.mem_append, List.mem_singleton, List.mem_range'_1] at hq
    show q < 1 + n + n
    omega

theorem exch_same (ra rb : Reg) (hl : ra.length = rb.length) (hn : (ra ++ rb).Nodup) (x : Asg) :
    exch ra rb x = x ↔ valQ ra x = valQ rb x := by
  constructor
  · intro h
    apply Nat.eq_of_testBit_eq
    intro i
    rw [testBit_valQ, testBit_valQ]
    by_cases hi : i < ra.length
    · rw [dif_pos hi, dif_pos (by omega)]
      have := (exch_get ra rb hl hn x i hi).1
      rw [h] at this
      exact this
    · rw [dif_neg hi, dif_neg (by omega)]
  · intro h
    have hb : ∀ i (hi : i < ra.length), x ra[i] = x (rb[i]'(by omega)) := by
      intro i hi
      have := congrArg (fun v => v.testBit i) h
      simpa only [testBit_valQ, dif_pos hi, dif_pos (show i < rb.length by omega)] using this
    exact (exch_unique ra rb hl hn x x (fun i hi => ⟨hb i hi, (hb i hi).symm⟩) fun _ _ _ => rfl).symm

theorem normW_two (x y : Asg) (e : ℂ) (he : normSq e = 1) (h : x ≠ y) : normW (ket x + e • ket y) = 2 := by
  have := normW_sum (Finset.univ : Finset Bool) (fun b => if b then x else y)
    (by
      intro a _ b _ hab
      cases a <;> cases b <;> simp_all) (fun b => if b then 1 else e)
  simp only [Fintype.sum_bool, if_true, Bool.false_eq_true, if_false, one_smul, map_one, he] at this
  rw [this]; norm_num

/-- The example of the documentation with registers of `n` qubits that hold `a` and `b`: the program builds and returns its
registers and the handle 0. The measurement gives 1 with probability 0 if the numbers are equal, otherwise with
probability 1/2, and it reports this probability whatever numbers are drawn. -/
theorem C80_example (n : ℕ) (hn : 0 < n) (a b : ℕ) :
    ∃ s, cswapExample n LocalBuilder.default = .ok (([0], List.range' 1 n, List.range' (1 + n) n), 0) s ∧
      outcomeProb s [(List.range' 1 n, a), (List.range' (1 + n) n, b)] [0] = (if a % 2 ^ n = b % 2 ^ n then 1 else ENNReal.ofReal (1 / 2)) ∧
      outcomeProb s [(List.range' 1 n, a), (List.range' (1 + n) n, b)] [1] = (if a % 2 ^ n = b % 2 ^ n then 0 else ENNReal.ofReal (1 / 2)) ∧
      ∀ rnds : ℕ → ℝ, (∀ k, 0 < rnds k ∧ rnds k < 1) → ∃ v l m,
        s.calculateStateWithInit [(List.range' 1 n, a), (List.range' (1 + n) n, b)] rnds = some (v, l) ∧ m < 2 ∧
        getMeasurement l 0 = some (m, if a % 2 ^ n = b % 2 ^ n then 1 else 1 / 2) ∧ (a % 2 ^ n = b % 2 ^ n → m = 0) := by
  set ra := List.range' 1 n with hra
  set rb := List.range' (1 + n) n with hrb
  set it := [(ra, a), (rb, b)] with hit
  have la : ra.length = n := by rw [hra, List.length_range']
  have lb : rb.length = n := by rw [hrb, List.length_range']
  have ho : Own ⟨[], 1 + n + n, [], 0⟩ ([0] ++ (ra ++ rb) ++ []) := cswap_own n
  have hn3 : ([0] ++ (ra ++ rb)).Nodup := (List.nodup_append.mp ho.left).1
  obtain ⟨-, hnn, hd⟩ := List.nodup_append.mp hn3
  obtain ⟨na, nb, hdd⟩ := List.nodup_append.mp hnn
  have hi : ∀ p ∈ it, ∀ q ∈ p.1, q < 1 + n + n := by
    intro p hp q hq
    rw [hit, List.mem_cons, List.mem_singleton] at hp
    exact ho.lt q (by rcases hp with rfl | rfl <;> simp [hq])
  have hne : ra ≠ [] := fun h => by rw [h] at la; simp at la; omega
  have hout : ∀ q, q ∉ ra → q ∉ rb → initAsg it q = false := by
    intro q h1 h2
    unfold initAsg
    rw [decide_eq_false_iff_not]
    rintro ⟨p, hp, k, hk, -⟩
    rw [hit, List.mem_cons, List.mem_singleton] at hp
    rcases hp with rfl | rfl
    · exact h1 (List.mem_of_getElem? hk)
    · exact h2 (List.mem_of_getElem? hk)
  have hab : ∀ p ∈ it, ∀ p' ∈ it, p ≠ p' → List.Disjoint p.1 p'.1 := by
    intro p hp p' hp' hne
    rw [hit, List.mem_cons, List.mem_singleton] at hp hp'
    rcases hp with rfl | rfl <;> rcases hp' with rfl | rfl
    · exact absurd rfl hne
    · exact fun q h1 h2 => hdd q h1 q h2 rfl
    · exact fun q h1 h2 => hdd q h2 q h1 rfl
    · exact absurd rfl hne
  have va : valQ ra (initAsg it) = a % 2 ^ n := by
    rw [valQ_init ra na a it (by simp [hit]) fun p hp hpn => hab (ra, a) (by simp [hit]) p hp (Ne.symm hpn), la]
  have vb : valQ rb (initAsg it) = b % 2 ^ n := by
    rw [valQ_init rb nb b it (by simp [hit]) fun p hp hpn => hab (rb, b) (by simp [hit]) p hp (Ne.symm hpn), lb]
  have hsame := exch_same ra rb (la.trans lb.symm) hnn (initAsg it)
  rw [va, vb] at hsame
  have hcl : Clean ⟨[], 1 + n + n, [], 0⟩ (initAsg it) := by
    intro q hq
    simp only [List.flatten_nil, List.not_mem_nil, false_or] at hq
    exact hout q (fun h => absurd (ho.lt q (by simp [h])) (by simpa using hq)) (fun h => absurd (ho.lt q (by simp [h])) (by simpa using hq))
  have h0 : initAsg it 0 = false :=
    hout 0 (fun h => hd 0 (by simp) 0 (by simp [h]) rfl) (fun h => hd 0 (by simp) 0 (by simp [h]) rfl)
  obtain ⟨s, h1, -, h3, h4, h5, h6, h7, h8⟩ := C80_test ⟨[], 1 + n + n, [], 0⟩ 0 ra rb [] hne (la.trans lb.symm) ho (by simp) it hi [] rfl
    (ket (initAsg it)) rfl (on_iff.mp (On.ket (S := {x | Clean _ x ∧ x 0 = false}) ⟨hcl, h0⟩))
  rw [List.nil_append, exchW_ket] at h6 h7
  have e0 : normW (ket (initAsg it) + ket (exch ra rb (initAsg it))) = if a % 2 ^ n = b % 2 ^ n then 4 else 2 := by
    split
    · next h =>
      rw [hsame.mpr h, ← two_smul ℂ, normW_smul, normW_ket]; norm_num [normSq_apply]
    · next h =>
      have := normW_two (initAsg it) _ 1 (by simp) fun h' => h (hsame.mp h'.symm)
      rwa [one_smul] at this
  have e1 : normW (ket (initAsg it) - ket (exch ra rb (initAsg it))) = if a % 2 ^ n = b % 2 ^ n then 0 else 2 := by
    split
    · next h => rw [hsame.mpr h, sub_self, normW_zero]
    · next h =>
      have := normW_two (initAsg it) _ (-1) (by simp) fun h' => h (hsame.mp h'.symm)
      rwa [neg_one_smul, ← sub_eq_add_neg] at this
  refine ⟨s, by rw [cswap_start n hn]; exact h1, ?_, ?_, ?_⟩
  · rw [h6, e0]; split <;> norm_num
  · rw [h7, e1]; split <;> norm_num
  · intro rnds hr
    have hi' : ∀ p ∈ it, ∀ q ∈ p.1, q < s.n := by
      intro p hp q hq
      rw [hit, List.mem_cons, List.mem_singleton] at hp
      exact h3.lt q (by rcases hp with rfl | rfl <;> simp [hq])
    obtain ⟨v, ms, r1, r2, r3, -, -⟩ := run_all s it hi' h4 rnds hr
    have hrl := reportW_length rotAngle s.pipeline ms (ket (initAsg it)) r2
    have hms : ms.length = 1 := r2.trans h5
    obtain ⟨m, rfl⟩ := List.length_eq_one_iff.mp hms
    obtain ⟨g1, v', l, g2, g3⟩ := h8 rnds m hr ((gives_iff s it rnds v [m] _ hrl r1 _).mpr rfl)
    have hm0 : a % 2 ^ n = b % 2 ^ n → m = 0 := by
      intro h
      by_contra hm
      have hm1 : m = 1 := by omega
      subst hm1
      rw [C76_born_rule s it hi' h4 [1] r2, e1, if_pos h, zero_div, ENNReal.ofReal_zero, ENNReal.ofReal_eq_zero] at h7
      exact absurd r3 (not_lt.mpr h7)
    refine ⟨v', l, m, g2, g1, ?_, hm0⟩
    rw [List.length_nil, normW_ket, mul_one, exchW_ket] at g3
    rw [g3]
    congr 2
    by_cases hab' : a % 2 ^ n = b % 2 ^ n
    · rw [if_pos (hm0 hab'), e0, if_pos hab', if_pos hab']; norm_num
    · rw [if_neg hab']
      split
      · rw [e0, if_neg hab']; norm_num
      · rw [e1, if_neg hab']; norm_num

/-- the documented values: registers of three qubits with 0b000 and 0b001 -/
example : ∃ s, cswapExample 3 LocalBuilder.default = .ok (([0], [1, 2, 3], [4, 5, 6]), 0) s ∧
    outcomeProb s [([1, 2, 3], 0b000), ([4, 5, 6], 0b001)] [1] = ENNReal.ofReal (1 / 2) := by
  obtain ⟨s, h1, -, h3, -⟩ := C80_example 3 (by omega) 0b000 0b001
  exact ⟨s, h1, by rw [if_neg (by decide)] at h3; exact h3⟩

/-- comparing (|0⟩ + |1⟩)/√2 with |0⟩ gives 1 with probability 1/4 -/
example : ∃ s', swapTest [0] [1] [2] ⟨[([1], ⟨1, .unitary .H⟩)], 3, [], 0⟩ = .ok (([0], [1], [2]), 0) s' ∧
    outcomeProb s' [] [1] = ENNReal.ofReal (1 / 4) := by
  have hs : normSq (1 / Real.sqrt 2 : ℂ) = 1 / 2 := by
    rw [← ofReal_one, ← ofReal_div, normSq_ofReal, div_mul_div_comm, Real.mul_self_sqrt (by norm_num), one_mul]
  have hz : ∀ q, initAsg [] q = false := fun q => rfl
  obtain ⟨s', h1, -, h3⟩ := C80_overlap ⟨[([1], ⟨1, .unitary .H⟩)], 3, [], 0⟩ 0 [1] [2] [] (by simp) rfl
    ⟨by simp, by decide, by decide⟩
    (by
      intro e he
      rw [List.mem_singleton] at he
      subst he
      exact Or.inl ⟨⟨⟨by simp, by simp, fun u hu => by cases hu; rfl⟩, rfl, _, rfl, by simp⟩, by simp⟩)
    rfl [] (by simp) (fun _ => 1 / Real.sqrt 2) (fun j => if j = 0 then 1 else 0) (initAsg []) (fun q _ => hz q) (hz 0)
    (by simp only [hs]; norm_num) (by simp [Finset.sum_range_succ])
    (by
      have e := h_ket (ang := rotAngle) 1 (initAsg [])
      rw [setQ_self 1 _ false (hz 1), hz 1] at e
      have e2 : putVal [1] 0 (putVal [2] 0 (initAsg [])) = initAsg [] := by
        funext q; unfold putVal; split <;> [skip; split] <;> simp [hz]
      have e3 : putVal [1] 1 (putVal [2] 0 (initAsg [])) = setQ 1 true (initAsg []) := by
        funext q
        by_cases h : q = 1
        · subst h; simp [putVal, setQ]
        · rw [setQ_ne h]; unfold putVal; split <;> [simp_all; split] <;> simp [hz]
      show u1 rotAngle 1 .H (ket (initAsg [])) = _
      rw [e]
      unfold prodW
      simp [Finset.sum_product, Finset.sum_range_succ, e2, e3])
  refine ⟨s', h1, ?_⟩
  rw [h3]
  have : ∑ i ∈ Finset.range (2 ^ [1].length), (starRingEnd ℂ) (1 / Real.sqrt 2 : ℂ) * (if i = 0 then (1 : ℂ) else 0) = 1 / Real.sqrt 2 := by
    simp [Finset.sum_range_succ]
  rw [this, hs]
  norm_num

end Verif.Props
