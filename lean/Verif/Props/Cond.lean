import Verif.Proofs.Nest
import Verif.Proofs.Cond3
import Verif.Proofs.CondGP

/-!
# Properties C35–C38: conditioned gates and conditioned builders

`ctlW cr W` (`Spec/Cond.lean`) applies `W` to the basis states in which all qubits of `cr` are 1 and leaves the others.
-/

namespace Verif.Props
open Complex Classical Rooted

/-! ## C35 -/

/-- the gate objects of C35 with their textbook matrices -/
inductive Phaselike : UObj → (ℕ → ℕ → ℂ) → Prop
  | x : Phaselike .X (Named.mat .x)
  | z : Phaselike .Z (Named.mat .z)
  | s : Phaselike .S (Named.mat .s)
  | t : Phaselike .T (Named.mat .t)

/-- C35 as stated. -/
def C35_claim : Prop :=
  ∀ (ang : Rot → ℝ) (s : LocalBuilder) (cr r : Reg) (L : List ℕ), cr ≠ [] → r ≠ [] → Own s (cr ++ r ++ L) →
    (∀ u mat, Phaselike u mat →
      Does ang (LocalBuilder.tryCond cr r ⟨1, .unitary u⟩) s (cr, r) (cr ++ r ++ L) (ctlW cr (eachW mat r))) ∧
    ∀ a b, r = [a, b] → Does ang (LocalBuilder.tryCond cr r ⟨2, .unitary .CNOT⟩) s (cr, r) (cr ++ r ++ L)
      (fun x => ket (if (∀ c ∈ cr, x c = true) ∧ x a = true then flipQ b x else x))

/-- X, Z, S and T on one qubit: the controlled gate, for any number of condition qubits. -/
theorem C35_one_target_partial (ang : Rot → ℝ) (s : LocalBuilder) (cr : Reg) (q : ℕ) (L : List ℕ) (hc : cr ≠ [])
    (ho : Own s (cr ++ [q] ++ L)) (u : UObj) (mat : ℕ → ℕ → ℂ) (hu : Phaselike u mat) :
    Does ang (LocalBuilder.tryCond cr [q] ⟨1, .unitary u⟩) s (cr, [q]) (cr ++ [q] ++ L) (ctlW cr (gateW [q] mat)) := by
  cases hu
  · exact (good_X q).cond s cr L hc ho
  · exact (good_Z q).cond s cr L hc ho
  · exact condS_does ang cr L q s hc ho 1
  · exact condT_does ang cr L q s hc ho 1

/-- CNOT: as claimed. -/
theorem C35_cnot (ang : Rot → ℝ) (s : LocalBuilder) (cr : Reg) (a b : ℕ) (L : List ℕ) (hc : cr ≠ [])
    (ho : Own s (cr ++ [a, b] ++ L)) :
    Does ang (LocalBuilder.tryCond cr [a, b] ⟨2, .unitary .CNOT⟩) s (cr, [a, b]) (cr ++ [a, b] ++ L)
      (fun x => ket (if (∀ c ∈ cr, x c = true) ∧ x a = true then flipQ b x else x)) := by
  have hab : a ≠ b := by
    have := (List.nodup_append.mp (List.nodup_append.mp ho.left).1).2.1
    simpa using this
  refine (condCnot_does ang cr L a b s hc ho 2).congrU fun x _ => ?_
  unfold ctlW
  rw [cnot_ket ang a b hab]
  by_cases h : ∀ c ∈ cr, x c = true
  · rw [if_pos h]
    by_cases h2 : x a = true
    · rw [if_pos h2, if_pos ⟨h, h2⟩]
    · rw [if_neg h2, if_neg fun h3 => h2 h3.2]
  · rw [if_neg h, if_neg fun h3 => h h3.1]

/-- X and Z on a register under a single condition qubit: the controlled gates. -/
theorem C35_one_condition_partial (ang : Rot → ℝ) (s : LocalBuilder) (c : ℕ) (r : Reg) (L : List ℕ) (hr : r ≠ [])
    (ho : Own s ([c] ++ r ++ L)) :
    Does ang (LocalBuilder.tryCond [c] r ⟨1, .unitary .X⟩) s ([c], r) ([c] ++ r ++ L) (ctlW [c] (eachW (Named.mat .x) r)) ∧
    Does ang (LocalBuilder.tryCond [c] r ⟨1, .unitary .Z⟩) s ([c], r) ([c] ++ r ++ L) (ctlW [c] (eachW (Named.mat .z) r)) := by
  have hp : tofPhase ([c] : List ℕ).length r.length = 1 := by unfold tofPhase; simp
  refine ⟨(condX_does ang [c] r L s (by simp) ho 1 hr).congrU fun x _ => ?_,
    (condZ_does ang [c] r L s (by simp) ho 1 hr).congrU fun x _ => ?_⟩
  · rw [hp, one_smul]; rfl
  · rw [hp, one_smul]; rfl

/-- X and Z on a register of `k` qubits under at least two conditions: the controlled gates up to the phase
`(-i)^(k-1)` on the states in which all conditions hold. -/
theorem C35_more_conditions_partial (ang : Rot → ℝ) (s : LocalBuilder) (cr r : Reg) (L : List ℕ) (h2 : 2 ≤ cr.length) (hr : r ≠ [])
    (ho : Own s (cr ++ r ++ L)) :
    Does ang (LocalBuilder.tryCond cr r ⟨1, .unitary .X⟩) s (cr, r) (cr ++ r ++ L)
      (ctlW cr ((-I) ^ (r.length - 1) • eachW (Named.mat .x) r)) ∧
    Does ang (LocalBuilder.tryCond cr r ⟨1, .unitary .Z⟩) s (cr, r) (cr ++ r ++ L)
      (ctlW cr ((-I) ^ (r.length - 1) • eachW (Named.mat .z) r)) := by
  have hc : cr ≠ [] := by rintro rfl; simp at h2
  have hp : tofPhase cr.length r.length = (-I) ^ (r.length - 1) := by
    unfold tofPhase
    rw [if_neg (by omega)]
  refine ⟨(condX_does ang cr r L s hc ho 1 hr).congrU fun x _ => ?_, (condZ_does ang cr r L s hc ho 1 hr).congrU fun x _ => ?_⟩
  · rw [hp]; rfl
  · rw [hp]; rfl

/-- S and T on a register of two or more qubits: the phase is applied only if all qubits of both registers are 1, and
the registers come back split in another place. -/
theorem C35_register_partial (ang : Rot → ℝ) (s : LocalBuilder) (cr r : Reg) (q : ℕ) (L : List ℕ) (hc : cr ≠ [])
    (ho : Own s (cr ++ (r ++ [q]) ++ L)) :
    Does ang (LocalBuilder.tryCond cr (r ++ [q]) ⟨1, .unitary .S⟩) s (cr ++ r, [q]) (cr ++ (r ++ [q]) ++ L)
      (fun x => (if ∀ c ∈ cr ++ (r ++ [q]), x c = true then I else 1 : ℂ) • ket x) ∧
    Does ang (LocalBuilder.tryCond cr (r ++ [q]) ⟨1, .unitary .T⟩) s (cr ++ r, [q]) (cr ++ (r ++ [q]) ++ L)
      (fun x => (if ∀ c ∈ cr ++ (r ++ [q]), x c = true then exp (Real.pi / 4 * I) else 1 : ℂ) • ket x) :=
  ⟨condPhase_many (u := .S) rfl rfl (by simp) (fun t => s_emits [t] (by simp) (by simp)) cr r q L s hc ho,
    condPhase_many (u := .T) rfl rfl (by simp) (fun t => t_emits [t] (by simp) (by simp)) cr r q L s hc ho⟩

/-- three qubits -/
def threeQubits : LocalBuilder := ⟨[], 3, [], 0⟩

theorem threeQubits_own : Own threeQubits ([0] ++ ([1] ++ [2]) ++ []) := ⟨by simp [threeQubits], by decide, by decide⟩

/-- A conditioned S on two qubits does not even give back the registers it got. -/
theorem C35_refuted : ¬ C35_claim := by
  intro h
  obtain ⟨s1, a1, -⟩ := (h (fun _ => 0) threeQubits [0] ([1] ++ [2]) [] (by simp) (by simp) threeQubits_own).1 .S _ .s
  obtain ⟨s2, b1, -⟩ := (C35_register_partial (fun _ => 0) threeQubits [0] [1] 2 [] (by simp) threeQubits_own).1
  rw [a1] at b1
  injection b1 with b2 b3
  simp at b2

example (ang : Rot → ℝ) : Does ang (LocalBuilder.tryCond [1, 0, 3] [2] ⟨1, .unitary .T⟩) fiveQubits ([1, 0, 3], [2]) ([1, 0, 3] ++ [2] ++ [])
    (ctlW [1, 0, 3] (gateW [2] (Named.mat .t))) :=
  C35_one_target_partial ang fiveQubits [1, 0, 3] 2 [] (by simp) ⟨by simp [fiveQubits], by decide, by decide⟩ _ _ .t

example (ang : Rot → ℝ) :=
  C35_cnot ang fiveQubits [1, 0] 2 3 [] (by simp) fiveQubits_own

example (ang : Rot → ℝ) := C35_one_condition_partial ang fiveQubits 1 [0, 2, 3] [] (by simp) ⟨by simp [fiveQubits], by decide, by decide⟩

example (ang : Rot → ℝ) := C35_more_conditions_partial ang fiveQubits [1, 0] [2, 3] [] (by simp) (by simp) fiveQubits_own

/-! ## C36 -/

/-- the circuit `p` run on `|init⟩` and then the controlled phase -/
noncomputable def ctlPhase (cr : Reg) (θ : ℝ) : Wave →ₗ[ℂ] Wave :=
  Finsupp.linearCombination ℂ fun x => (if ∀ c ∈ cr, x c = true then exp (θ * I) else 1 : ℂ) • ket x

/-- what is claimed for an object `u` on one qubit -/
def C36_object (u : UObj) : Prop :=
  ∀ (s : LocalBuilder) (cr : Reg) (q : ℕ) (L : List ℕ), cr ≠ [] → Own s (cr ++ [q] ++ L) →
    Does rotAngle (LocalBuilder.tryCond cr [q] ⟨1, .unitary u⟩) s (cr, [q]) (cr ++ [q] ++ L)
      (ctlW cr (gateW [q] (uMat rotAngle 1 u)))

/-- what is claimed for the global phase: the calculated state carries the phase where the conditions hold. (The
global phase acts only in the calculation of the state, so this is about `calculateStateWithInit`.) -/
def C36_phase (ρ : Rot) : Prop :=
  ∀ (s : LocalBuilder) (cr r : Reg) (L : List ℕ), cr ≠ [] → Own s (cr ++ r ++ L) → (∀ e ∈ s.pipeline, SegOK s.n e) →
    ∃ s', LocalBuilder.tryCond cr r ⟨1, .unitary (.GlobalPhase ρ)⟩ s = .ok (cr, r) s' ∧
      ∀ (it : List (Reg × ℕ)) (rnds : ℕ → ℝ), (∀ p ∈ it, ∀ q ∈ p.1, q < s'.n) →
        (∀ y ∈ (runW rotAngle s.pipeline (ket (initAsg it))).support, Clean s y) →
        ∃ v, s'.calculateStateWithInit it rnds = some (v, []) ∧
          Rep s'.n v (ctlPhase cr (rotAngle ρ) (runW rotAngle s.pipeline (ket (initAsg it))))

/-- C36 as stated. -/
def C36_claim : Prop := C36_object .Y ∧ C36_object .H ∧ (∀ ρ, C36_object (.Rz ρ)) ∧ ∀ ρ, C36_phase ρ

/-- Conditioned Y: the controlled `-Y`. -/
theorem C36_y_partial (s : LocalBuilder) (cr : Reg) (q : ℕ) (L : List ℕ) (hc : cr ≠ []) (ho : Own s (cr ++ [q] ++ L)) :
    Does rotAngle (LocalBuilder.tryCond cr [q] ⟨1, .unitary .Y⟩) s (cr, [q]) (cr ++ [q] ++ L)
      (ctlW cr (-gateW [q] (Named.mat .y))) :=
  condY_does rotAngle cr L q s hc ho 1

/-- Conditioned H: controlled, but with another matrix (angles of 1/4 in place of π/4). -/
theorem C36_h_partial (s : LocalBuilder) (cr : Reg) (q : ℕ) (L : List ℕ) (hc : cr ≠ []) (ho : Own s (cr ++ [q] ++ L)) :
    Does rotAngle (LocalBuilder.tryCond cr [q] ⟨1, .unitary .H⟩) s (cr, [q]) (cr ++ [q] ++ L)
      (ctlW cr (gateW [q] (mat2 (sin (1 / 4)) (cos (1 / 4)) (cos (1 / 4)) (-sin (1 / 4))))) :=
  condH_does cr L q s hc ho 1

/-- Conditioned Rz: a phase on every state, `e^{iθ/2}` if all qubits of both registers are 1 and `e^{-iθ/2}` otherwise. -/
theorem C36_rz_partial (s : LocalBuilder) (cr r : Reg) (L : List ℕ) (ρ : Rot) (hc : cr ≠ []) (hr : r ≠ [])
    (ho : Own s (cr ++ r ++ L)) :
    Does rotAngle (LocalBuilder.tryCond cr r ⟨1, .unitary (.Rz ρ)⟩) s (cr, r) (cr ++ r ++ L)
      (fun x => exp ((if ∀ c ∈ cr ++ r, x c = true then rotAngle ρ / 2 else -(rotAngle ρ / 2)) * I) • ket x) :=
  condRz_does cr r L s hc hr ho 1 ρ

/-- Conditioned global phase: the calculated state is the one before, whether or not the conditions hold. -/
theorem C36_global_phase_partial (s : LocalBuilder) (cr r : Reg) (L : List ℕ) (ρ : Rot) (hc : cr ≠ []) (ho : Own s (cr ++ r ++ L))
    (hs : ∀ e ∈ s.pipeline, SegOK s.n e) :
    ∃ s', LocalBuilder.tryCond cr r ⟨1, .unitary (.GlobalPhase ρ)⟩ s = .ok (cr, r) s' ∧ s.n ≤ s'.n ∧
      ∀ (it : List (Reg × ℕ)) (rnds : ℕ → ℝ), (∀ p ∈ it, ∀ q ∈ p.1, q < s'.n) →
        (∀ y ∈ (runW rotAngle s.pipeline (ket (initAsg it))).support, Clean s y) →
        ∃ v, s'.calculateStateWithInit it rnds = some (v, []) ∧
          Rep s'.n v (runW rotAngle s.pipeline (ket (initAsg it))) := by
  obtain ⟨s', seg, seg', t, ρ1, ρ2, h1, h2, h3, h4, h5, h6⟩ :=
    condGP_circuit cr r (r ++ L) s hc (by rw [← List.append_assoc]; exact ho) 1 ρ
  refine ⟨s', h1, h2, fun it rnds hi hcl => ?_⟩
  obtain ⟨v, v1, v2⟩ := condGP_calculate s' s.pipeline seg seg' t ρ1 ρ2 h3 (fun e he => (hs e he).mono h2) h4 h5 it hi rnds
  refine ⟨v, v1, ?_⟩
  have : runW rotAngle seg' (runW rotAngle seg (runW rotAngle s.pipeline (ket (initAsg it)))) =
      runW rotAngle s.pipeline (ket (initAsg it)) := by
    have hon : On {y | Clean s y} (runW rotAngle s.pipeline (ket (initAsg it))) := on_iff.mpr hcl
    exact hon.agree (A := runW rotAngle seg' ∘ₗ runW rotAngle seg) (B := LinearMap.id) fun y hy => h6 rotAngle y hy
  rw [this] at v2
  exact v2

/-- two qubits -/
def twoQubits : LocalBuilder := ⟨[], 2, [], 0⟩

theorem twoQubits_own : Own twoQubits ([0] ++ [1] ++ []) := ⟨by simp [twoQubits], by decide, by decide⟩

/-- the basis state with a 1 in qubit 0 only -/
def firstOne : Asg := setQ 0 true fun _ => false

theorem firstOne_clean : Clean twoQubits firstOne := by
  rintro q (hq | hq)
  · simp [twoQubits] at hq
  · unfold firstOne
    exact Function.update_of_ne (by simp only [twoQubits] at hq; omega) _ _

theorem amp (q : ℕ) (x : Asg) (h : x q = false) (m : ℕ → ℕ → ℂ) : gateW [q] m (ket x) (setQ q true x) = m 1 0 := by
  rw [gate1_ket, h]
  simp only [Bool.toNat_false, Finsupp.add_apply, Finsupp.smul_apply, ket_apply]
  rw [if_neg]
  · simp
  · intro h
    have := congrFun h q
    simp at this

theorem ctl_firstOne (W : Wave →ₗ[ℂ] Wave) : ctlW [0] W firstOne = W (ket firstOne) := by
  unfold ctlW
  rw [if_pos (by simp [firstOne])]

/-- Y is refuted. -/
theorem C36_y_refuted : ¬ C36_object .Y := by
  intro h
  have e := does_unique (h twoQubits [0] 1 [] (by simp) twoQubits_own) (C36_y_partial twoQubits [0] 1 [] (by simp) twoQubits_own) _
    firstOne_clean
  rw [ctl_firstOne, ctl_firstOne] at e
  have e2 := DFunLike.congr_fun e (setQ 1 true firstOne)
  rw [LinearMap.neg_apply, Finsupp.neg_apply, amp 1 firstOne rfl, amp 1 firstOne rfl] at e2
  have e3 : (I : ℂ) = -I := e2
  have := congrArg Complex.im e3
  norm_num at this

/-- H is refuted. -/
theorem C36_h_refuted : ¬ C36_object .H := by
  intro h
  have e := does_unique (h twoQubits [0] 1 [] (by simp) twoQubits_own) (C36_h_partial twoQubits [0] 1 [] (by simp) twoQubits_own) _
    firstOne_clean
  rw [ctl_firstOne, ctl_firstOne] at e
  have e2 := DFunLike.congr_fun e (setQ 1 true firstOne)
  rw [amp 1 firstOne rfl, amp 1 firstOne rfl] at e2
  have e3 : ((1 / Real.sqrt 2 : ℝ) : ℂ) = ((Real.cos (1 / 4) : ℝ) : ℂ) := by
    push_cast
    exact e2
  have e4 : 1 / Real.sqrt 2 = Real.cos (1 / 4) := by exact_mod_cast e3
  have h5 := Real.one_sub_sq_div_two_le_cos (x := 1 / 4)
  have h6 : (1 / Real.sqrt 2) ^ 2 = 1 / 2 := by rw [div_pow, Real.sq_sqrt (by norm_num)]; norm_num
  rw [e4] at h6
  nlinarith

/-- Rz is refuted. -/
theorem C36_rz_refuted : ¬ C36_object (.Rz (.floating Real.pi)) := by
  intro h
  have e := does_unique (h twoQubits [0] 1 [] (by simp) twoQubits_own) (C36_rz_partial twoQubits [0] [1] [] _ (by simp) (by simp) twoQubits_own)
    (fun _ => false) (fun _ _ => rfl)
  unfold ctlW at e
  rw [if_neg (by simp), if_neg (by simp only [Bool.false_eq_true, imp_false, not_forall, not_not]; exact ⟨0, by simp⟩)] at e
  have e2 := DFunLike.congr_fun e (fun _ => false)
  rw [Finsupp.smul_apply, ket_apply, if_pos rfl, smul_eq_mul, mul_one] at e2
  have e3 : (1 : ℂ) = exp (-(Real.pi / 2 * I)) := by
    rw [e2]; congr 1; unfold rotAngle; push_cast; ring
  rw [Complex.exp_neg, exp_pi_div_two_mul_I, inv_I] at e3
  have := congrArg Complex.re e3
  simp at this

/-- The global phase is refuted. -/
theorem C36_global_phase_refuted : ¬ C36_phase (.floating Real.pi) := by
  intro h
  obtain ⟨s', h1, h2⟩ := h twoQubits [0] [1] [] (by simp) twoQubits_own (by simp [twoQubits])
  obtain ⟨s2, k1, k0, k2⟩ := C36_global_phase_partial twoQubits [0] [1] [] (.floating Real.pi) (by simp) twoQubits_own (by simp [twoQubits])
  obtain rfl : s' = s2 := by
    have := h1.symm.trans k1
    injection this
  have hi : ∀ p ∈ ([([0], 1)] : List (Reg × ℕ)), ∀ q ∈ p.1, q < s'.n := by
    have : 2 ≤ s'.n := k0
    simp; omega
  have hinit : initAsg [([0], 1)] = firstOne := by
    funext q
    unfold initAsg firstOne
    by_cases hq : q = 0
    · subst hq
      rw [decide_eq_true ⟨_, List.mem_singleton.mpr rfl, 0, rfl, rfl⟩]
      simp
    · rw [show setQ 0 true (fun _ => false) q = false from Function.update_of_ne hq _ _]
      apply decide_eq_false
      rintro ⟨p, hp, k, hk, -⟩
      rw [List.mem_singleton] at hp
      subst hp
      cases k with
      | zero => simp at hk; exact hq hk.symm
      | succ k => simp at hk
  have hrun : runW rotAngle twoQubits.pipeline (ket (initAsg [([0], 1)])) = ket firstOne := by rw [hinit]; rfl
  have hcl : ∀ y ∈ (runW rotAngle twoQubits.pipeline (ket (initAsg [([0], 1)]))).support, Clean twoQubits y := by
    rw [hrun]
    exact on_iff.mp (On.ket (S := {y | Clean twoQubits y}) firstOne_clean)
  obtain ⟨v, v1, v2⟩ := h2 _ (fun _ => 0) hi hcl
  obtain ⟨w, w1, w2⟩ := k2 _ (fun _ => 0) hi hcl
  obtain rfl : v = w := by
    have := v1.symm.trans w1
    simpa using this
  rw [hrun] at v2 w2
  obtain ⟨i, hi1, hi2, -, -⟩ := calculate_eq s' [([0], 1)] hi (fun _ => 0)
  have a1 := v2.2 i hi1
  have a2 := w2.2 i hi1
  rw [hi2, hinit] at a1 a2
  rw [a1] at a2
  have a3 := Option.some.inj a2
  have a4 : ctlPhase [0] (rotAngle (.floating Real.pi)) (ket firstOne) =
      (if ∀ c ∈ [0], firstOne c = true then exp (rotAngle (.floating Real.pi) * I) else 1 : ℂ) • ket firstOne := by
    refine (lift_ket _ _).trans ?_
    congr
  rw [a4, if_pos (by simp [firstOne]), Finsupp.smul_apply, ket_apply, if_pos rfl, smul_eq_mul, mul_one] at a3
  have a5 : exp (Real.pi * I) = 1 := a3
  rw [exp_pi_mul_I] at a5
  norm_num at a5

theorem C36_refuted : ¬ C36_claim := fun h => C36_y_refuted h.1

example := C36_h_partial fiveQubits [1, 0, 3] 2 [] (by simp) ⟨by simp [fiveQubits], by decide, by decide⟩
example (ρ : Rot) := C36_rz_partial fiveQubits [1, 0] [2, 3] [] ρ (by simp) (by simp) fiveQubits_own
example (ρ : Rot) := C36_global_phase_partial fiveQubits [1, 0] [2, 3] [] ρ (by simp) fiveQubits_own (by simp [fiveQubits])

/-- The global phase methods add one element on the whole register, with the angle given: `θ`, `q` times π, and for
`apply_global_phase_pi_by` with `m ≠ 0` the fraction `1 / m` of π. -/
theorem C36_phase_methods (s : LocalBuilder) (r : Reg) (θ : ℝ) (q : ℚ) (m : ℤ) (hm : m ≠ 0) :
    let adds (x : M LocalBuilder Reg) (ρ : Rot) := x s = .ok r { s with pipeline := s.pipeline ++ [(r, ⟨r.length, .unitary (.GlobalPhase ρ)⟩)] }
    adds (LocalBuilder.applyGlobalPhase r θ) (.floating θ) ∧ adds (LocalBuilder.applyGlobalPhaseRatio r q) (.piRational q) ∧
    adds (LocalBuilder.applyGlobalPhasePiBy r m) (.piRational (1 / m)) := by
  have hq : ∀ q, Emits (LocalBuilder.applyGlobalPhaseRatio r q) r [(r, ⟨r.length, .unitary (.GlobalPhase (.piRational q))⟩)] :=
    fun q => (applyCO_reg_emits r _).unwrap
  refine ⟨globalPhase_emits r θ s, hq q s, ?_⟩
  have h1 : ratio1 m s = (.ok (1 / (m : ℚ)) s : EStateM.Result Fail LocalBuilder ℚ) := by
    unfold ratio1
    rw [if_neg hm]
    rfl
  show (do let q ← ratio1 m; LocalBuilder.applyGlobalPhaseRatio r q : M LocalBuilder Reg) s = _
  rw [bind_ok h1]
  exact hq _ s

example := C36_phase_methods fiveQubits [1, 0] (1 / 3) (2 / 7) (-4) (by decide)

/-! ## C37 -/

/-- C37 as stated, for gates on one qubit: the named gates and the rotations (with the matrices the methods have on a
plain builder, see C34); CNOT; exchange of registers. -/
def C37_claim : Prop :=
  ∀ (s : LocalBuilder) (cr : Reg) (L : List ℕ), cr ≠ [] →
    (∀ q, Own s (cr ++ [q] ++ L) →
      (∀ g : Named, Does rotAngle (Conditioned.conditioned cr (g.runOn [q])) s ([q], cr) (cr ++ [q] ++ L) (ctlW cr (gateW [q] g.mat))) ∧
      ∀ θ, Does rotAngle (Conditioned.conditioned cr (Rotations.rz [q] θ)) s ([q], cr) (cr ++ [q] ++ L) (ctlW cr (gateW [q] (rzMat θ))) ∧
        Does rotAngle (Conditioned.conditioned cr (Rotations.rx [q] θ)) s ([q], cr) (cr ++ [q] ++ L) (ctlW cr (gateW [q] (rxMat θ))) ∧
        Does rotAngle (Conditioned.conditioned cr (Rotations.ry [q] θ)) s ([q], cr) (cr ++ [q] ++ L) (ctlW cr (gateW [q] (ryMat (-θ))))) ∧
    (∀ c r, r ≠ [] → Own s (cr ++ (c :: r) ++ L) →
      Does rotAngle (Conditioned.conditioned cr (cnot [c] r)) s (([c], r), cr) (cr ++ (c :: r) ++ L)
        (fun x => ket (if (∀ d ∈ cr, x d = true) ∧ x c = true then flipAll r x else x)))

/-- the conditioned builder over a `LocalBuilder` -/
theorem local_ctl (s : LocalBuilder) (cr : Reg) (hc : cr ≠ []) : ctl (⟨s, some cr⟩ : Conditioned LocalBuilder) = some [cr] :=
  conditioned_ctl (p := s) (ps := []) rfl hc

/-- The named gates other than Y and H are conditioned. -/
theorem C37_named_partial (ang : Rot → ℝ) (s : LocalBuilder) (cr : Reg) (q : ℕ) (L : List ℕ) (hc : cr ≠ []) (ho : Own s (cr ++ [q] ++ L))
    (g : Named) (hy : g ≠ .y) (hh : g ≠ .h) :
    Does ang (Conditioned.conditioned cr (g.runOn [q])) s ([q], cr) (cr ++ [q] ++ L) (ctlW cr (gateW [q] g.mat)) := by
  have hl := local_ctl s cr hc
  have := sim_named (ang := ang) (L := L) (q := q) hl g hy hh (by rw [List.flatten_singleton]; exact ho)
  rw [List.flatten_singleton] at this
  exact Does.conditioned rfl hc this

/-- CNOT is conditioned. -/
theorem C37_cnot (ang : Rot → ℝ) (s : LocalBuilder) (cr : Reg) (c : ℕ) (r L : List ℕ) (hc : cr ≠ []) (hr : r ≠ [])
    (ho : Own s (cr ++ (c :: r) ++ L)) :
    Does ang (Conditioned.conditioned cr (cnot [c] r)) s (([c], r), cr) (cr ++ (c :: r) ++ L)
      (fun x => ket (if (∀ d ∈ cr, x d = true) ∧ x c = true then flipAll r x else x)) := by
  have hl := local_ctl s cr hc
  have := sim_cnot (ang := ang) (L := L) hl hr (by rw [List.flatten_singleton]; exact ho)
  rw [List.flatten_singleton] at this
  exact Does.conditioned rfl hc this

/-- The exchange of two registers is conditioned. -/
theorem C37_swap (ang : Rot → ℝ) (s : LocalBuilder) (cr ra rb : Reg) (L : List ℕ) (hc : cr ≠ []) (hr : ra ≠ []) (hl : ra.length = rb.length)
    (ho : Own s (cr ++ (ra ++ rb) ++ L)) :
    ∃ f : Asg → Asg, Does ang (Conditioned.conditioned cr (swap ra rb)) s ((ra, rb), cr) (cr ++ (ra ++ rb) ++ L)
        (fun x => ket (if ∀ d ∈ cr, x d = true then f x else x)) ∧
      ∀ x, (∀ i (h : i < ra.length), f x ra[i] = x (rb[i]'(by omega)) ∧ f x (rb[i]'(by omega)) = x ra[i]) ∧
        ∀ q, q ∉ ra → q ∉ rb → f x q = x q := by
  have hct := local_ctl s cr hc
  have hn : (ra ++ rb).Nodup := (List.nodup_append.mp (List.nodup_append.mp ho.left).1).2.1
  have := sim_swap (ang := ang) (L := L) hct hr hl (by rw [List.flatten_singleton]; exact ho)
  rw [List.flatten_singleton] at this
  exact ⟨swapR ra rb, Does.conditioned rfl hc this, fun x => ⟨fun i hi => swapR_get ra rb hl hn x i hi, fun q => swapR_not_mem ra rb x q⟩⟩

/-- The rotation methods ignore the condition: on any builder, each does what it does without the condition. -/
theorem C37_rotations_partial {β : Type} [Conditionable β] (cr r : Reg) (θ : ℝ) (q : ℚ) (m : ℤ) :
    let same := fun (f : M (Conditioned β) Reg) (g : M β Reg) => Conditioned.conditioned cr f = (do let a ← g; pure (a, cr))
    same (Rotations.rz r θ) (Rotations.rz r θ) ∧ same (Rotations.rx r θ) (Rotations.rx r θ) ∧ same (Rotations.ry r θ) (Rotations.ry r θ) ∧
    same (Rotations.rzRatio r q) (Rotations.rzRatio r q) ∧ same (Rotations.rxRatio r q) (Rotations.rxRatio r q) ∧
    same (Rotations.ryRatio r q) (Rotations.ryRatio r q) ∧
    same (Rotations.rzPiBy r m) (Rotations.rzPiBy r m) ∧ same (Rotations.rxPiBy r m) (Rotations.rxPiBy r m) ∧
    same (Rotations.ryPiBy r m) (Rotations.ryPiBy r m) := by
  have key : ∀ g : M β Reg, Conditioned.conditioned cr (Conditioned.onParent g) = (do let a ← g; pure (a, cr)) := by
    intro g
    funext s
    unfold Conditioned.conditioned Conditioned.onParent
    cases h : g s with
    | ok a s' => rw [bind_ok h]; simp only [h]; rfl
    | error e s' => rw [bind_err h]
  intro same
  exact ⟨key _, key _, key _, key _, key _, key _, key _, key _, key _⟩

/-- A rotation acts although the condition does not hold. -/
theorem C37_refuted : ¬ C37_claim := by
  intro h
  have h1 := (((h twoQubits [0] [] (by simp)).1 1 twoQubits_own).2 Real.pi).2.1
  have h2 := (C34_one_qubit_partial twoQubits 1 [0] Real.pi 0 1 ⟨by simp [twoQubits], by decide, by decide⟩ (by simp)).2.1
  have h3 : Does rotAngle (Conditioned.conditioned [0] (Rotations.rx [1] Real.pi)) twoQubits ([1], [0]) (1 :: [0])
      (fun x => gateW [1] (rxMat Real.pi) (ket x)) := by
    rw [(C37_rotations_partial (β := LocalBuilder) [0] [1] Real.pi 0 1).2.1]
    refine (Does.bind (f := fun a => pure (a, [0])) h2 fun s' _ o' => Does.pure o' _).congrU fun x _ => ?_
    rw [lift_ket_id]; rfl
  have e := does_unique h1 h3 (fun _ => false) (fun _ _ => rfl)
  unfold ctlW at e
  rw [if_neg (by simp)] at e
  have e2 := DFunLike.congr_fun e (setQ 1 true fun _ => false)
  rw [amp 1 _ rfl, ket_apply, if_neg] at e2
  · unfold rxMat mat2 at e2
    simp only [one_ne_zero, if_false, if_true] at e2
    have : sin ((Real.pi : ℂ) / 2) = 1 := by rw [Complex.sin_pi_div_two]
    rw [this] at e2
    simp at e2
  · intro h
    have := congrFun h 1
    simp at this

example (ang : Rot → ℝ) := C37_named_partial ang fiveQubits [1, 0, 3] 2 [] (by simp) ⟨by simp [fiveQubits], by decide, by decide⟩
  .tDagger (by simp) (by simp)
example (ang : Rot → ℝ) := C37_cnot ang fiveQubits [1, 0] 2 [3] [] (by simp) (by simp) fiveQubits_own
example (ang : Rot → ℝ) := C37_swap ang ⟨[], 6, [[5]], 0⟩ [4] [1, 0] [2, 3] [] (by simp) (by simp) rfl
  ⟨by simp, by decide, by decide⟩

/-! ## C38 -/

/-- C38 as stated: a sequence `l` of gates on qubits of `Q`, inside the conditions `crs` (innermost first). -/
def C38_claim : Prop :=
  ∀ (s : LocalBuilder) (crs : List Reg) (l : List Step) (Q L : List ℕ), (∀ c ∈ crs, c ≠ []) → (∀ st ∈ l, st.In Q) →
    Own s (crs.flatten ++ Q ++ L) →
    Does rotAngle (under crs (l.forM Step.run)) s ((), crs) (crs.flatten ++ Q ++ L) (ctlW crs.flatten (stepsW l))

/-- Nested conditions are conjunctions, for sequences of gates other than Y and H, at any depth; each `dissolve`
returns the register passed. -/
theorem C38_nested_partial (ang : Rot → ℝ) (s : LocalBuilder) (crs : List Reg) (l : List Step) (Q L : List ℕ) (hc : ∀ c ∈ crs, c ≠ [])
    (hi : ∀ st ∈ l, st.In Q) (hp : ∀ st ∈ l, st.Plain) (ho : Own s (crs.flatten ++ Q ++ L)) :
    Does ang (under crs (l.forM Step.run)) s ((), crs) (crs.flatten ++ Q ++ L) (ctlW crs.flatten (stepsW l)) :=
  under_does crs _ hc (sim_steps l hi hp (ctl_stack crs s hc) (by rw [root_stack]; exact ho))

/-- Any gate object, whatever it does: inside the nested conditions `crs` it does what it does under the single condition
register with all their qubits; each `dissolve` returns the register passed. (With `C35_*`, `C36_*` this gives the effect
of every object at any depth.) -/
theorem C38_conjunction {s b : LocalBuilder} (crs : List Reg) (r r' : Reg) (co : CObj) (h0 : crs ≠ []) (hc : ∀ c ∈ crs, c ≠ [])
    (hn : crs.flatten.Nodup) (h : LocalBuilder.tryCond crs.flatten r co s = .ok (crs.flatten, r') b) :
    under crs (CircuitBuilder.applyCO r co) s = .ok (r', crs) b := by
  have h1 := Sim.applyCO (β := NB crs.length) (s := stack crs s) (r := r) (r' := r') (co := co) (b := b) (ctl_stack crs s hc) h0 hn
    (by rw [root_stack]; exact h)
  exact under_acts crs _ hc h1

/-- Y under one condition. -/
theorem C38_refuted : ¬ C38_claim := by
  intro h
  have h1 := h twoQubits [[0]] [.one .y 1] [1] [] (by simp) (by simp [Step.In]) twoQubits_own
  have h2 := C36_y_partial twoQubits [0] 1 [] (by simp) twoQubits_own
  obtain ⟨b, b1, b2⟩ := h2
  have h4 : under [[0]] ([Step.one .y 1].forM Step.run) twoQubits = .ok ((), [[0]]) b := by
    have h5 := Sim.applyCO (β := NB 1) (s := stack [[0]] twoQubits) (r := [1]) (r' := [1]) (co := ⟨1, .unitary .Y⟩) (b := b)
      (ctl_stack [[0]] twoQubits (by simp)) (by simp) (by simp) b1
    obtain ⟨t, t1, t2, t3⟩ := h5
    refine under_acts [[0]] _ (by simp) ⟨t, ?_, t2, t3⟩
    show ((Step.one .y 1).run >>= fun _ => pure ()) (stack [[0]] twoQubits) = _
    have h6 : (Named.runOn .y [1] : M (NB 1) Reg) (stack [[0]] twoQubits) = .ok [1] t := by
      show gate _ _ _ = _
      unfold gate
      rw [bind_ok (get_run _)]
      exact unwrapM_ok t1
    have h7 : (Step.run (.one .y 1) : M (NB 1) Unit) (stack [[0]] twoQubits) = .ok () t := by
      exact bind_ok (f := fun _ => pure ()) h6
    rw [bind_ok h7]
    rfl
  have e := does_unique h1 ⟨b, h4, rfl, b2.2⟩ firstOne firstOne_clean
  have e0 : ctlW ([[0]] : List Reg).flatten (stepsW [.one .y 1]) firstOne = stepsW [.one .y 1] (ket firstOne) := ctl_firstOne _
  rw [ctl_firstOne, e0] at e
  have e2 := DFunLike.congr_fun e (setQ 1 true firstOne)
  rw [LinearMap.neg_apply, Finsupp.neg_apply, amp 1 firstOne rfl] at e2
  have e3 : gateW [1] (Named.mat .y) (ket firstOne) (setQ 1 true firstOne) = -(Named.mat .y 1 0) := e2
  rw [amp 1 firstOne rfl] at e3
  have e4 : (I : ℂ) = -I := e3
  have := congrArg Complex.im e4
  norm_num at this

example (ang : Rot → ℝ) : Does ang (under [[0, 1], [2], [5]] ([Step.one .t 3, .cnot 3 4, .one .sDagger 4].forM Step.run)) ⟨[], 7, [[6]], 0⟩
    ((), [[0, 1], [2], [5]]) ([0, 1, 2, 5] ++ [3, 4] ++ []) (ctlW [0, 1, 2, 5] (stepsW [.one .t 3, .cnot 3 4, .one .sDagger 4])) :=
  C38_nested_partial ang _ [[0, 1], [2], [5]] _ [3, 4] [] (by simp) (by simp [Step.In]) (by simp [Step.Plain])
    ⟨by simp, by decide, by decide⟩

end Verif.Props
