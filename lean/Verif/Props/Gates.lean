import Verif.Proofs.Pool
import Verif.Proofs.Grow
import Verif.Proofs.Calc
import Mathlib.Analysis.SpecialFunctions.Trigonometric.Bounds

/-!
# Properties C31–C34: gates, Toffoli, temporaries, rotations

The statements use `Does ang m s a L U` (`Spec/Clean.lean`): the method `m` called on builder `s` succeeds with
result `a`; the caller holds the qubits `L` afterwards; the circuit elements added send every basis state `|x⟩` with
clean temporaries to `U x`, with clean temporaries again.
-/

namespace Verif.Props
open Complex Classical

/-! ## C31 -/

/-- textbook matrices of the named gates -/
noncomputable def textbook : Named → ℕ → ℕ → ℂ
  | .x => mat2 0 1 1 0
  | .y => mat2 0 (-I) I 0
  | .z => mat2 1 0 0 (-1)
  | .h => mat2 (1 / Real.sqrt 2) (1 / Real.sqrt 2) (1 / Real.sqrt 2) (-(1 / Real.sqrt 2))
  | .s => mat2 1 0 0 I
  | .t => mat2 1 0 0 (exp (Real.pi / 4 * I))
  | .sDagger => mat2 1 0 0 (-I)
  | .tDagger => mat2 1 0 0 (exp (-(Real.pi / 4) * I))

theorem zs_mat (r : Reg) (hn : r.Nodup) (ψ : Wave) :
    eachW (mat2 1 0 0 I) r (eachW (mat2 1 0 0 (-1)) r ψ) = eachW (mat2 1 0 0 (-I)) r ψ := by
  rw [eachW_comp r hn]
  congr 3 <;> ring

theorem zst_mat (r : Reg) (hn : r.Nodup) (ψ : Wave) :
    eachW (mat2 1 0 0 (exp (Real.pi / 4 * I))) r (eachW (mat2 1 0 0 (-I)) r ψ) =
      eachW (mat2 1 0 0 (exp (-(Real.pi / 4) * I))) r ψ := by
  rw [eachW_comp r hn]
  have h : (-I : ℂ) = exp (-(Real.pi / 2) * I) := by
    rw [neg_mul, Complex.exp_neg, exp_pi_div_two_mul_I]; simp
  have h2 : exp (Real.pi / 4 * I) * -I = exp (-(Real.pi / 4) * I) := by
    rw [h, ← Complex.exp_add]; congr 1; ring
  congr 3
  · ring
  · ring
  · ring
  · rw [h2]; ring

/-- Each named gate applies its textbook matrix to every qubit of the register. -/
theorem C31_named (ang : Rot → ℝ) (g : Named) (s : LocalBuilder) (r : Reg) (L : List ℕ) (hr : r ≠ [])
    (ho : Own s (r ++ L)) : Does ang (g.run r) s r (r ++ L) (fun x => eachW (textbook g) r (ket x)) := by
  have hn : r.Nodup := (List.nodup_append.mp ho.left).1
  have se : ∀ u : UObj, u.Shape 1 → ((∀ ρ, u ≠ .GlobalPhase ρ) ∧ ∀ d, u ≠ .MAT d) → ∀ e ∈ each r u, SegU s.n e ∧ ∀ q ∈ e.1, q ∈ r ++ L :=
    fun u hu hg => segOK_each ho r (fun q hq => by simp [hq]) u hu hg
  cases g
  · exact ((x_emits r hr hn).does ang ho (se _ rfl (by simp))).congrU fun x _ => each_eachW ang r .X _
  · exact ((y_emits r hr hn).does ang ho (se _ rfl (by simp))).congrU fun x _ => each_eachW ang r .Y _
  · exact ((z_emits r hr hn).does ang ho (se _ rfl (by simp))).congrU fun x _ => each_eachW ang r .Z _
  · exact ((h_emits r hr hn).does ang ho (se _ rfl (by simp))).congrU fun x _ => each_eachW ang r .H _
  · exact ((s_emits r hr hn).does ang ho (se _ rfl (by simp))).congrU fun x _ => each_eachW ang r .S _
  · exact ((t_emits r hr hn).does ang ho (se _ rfl (by simp))).congrU fun x _ => each_eachW ang r .T _
  · refine ((sDagger_emits r hr hn).does ang ho (segOK_append (se .Z rfl (by simp)) (se .S rfl (by simp)))).congrU fun x _ => ?_
    rw [runW_append, each_eachW, each_eachW]
    exact zs_mat r hn _
  · refine ((tDagger_emits r hr hn).does ang ho (segOK_append (segOK_append (se .Z rfl (by simp)) (se .S rfl (by simp)))
      (se .T rfl (by simp)))).congrU fun x _ => ?_
    rw [runW_append, runW_append, each_eachW, each_eachW, each_eachW]
    show eachW (mat2 _ _ _ _) r (eachW (mat2 1 0 0 I) r (eachW (mat2 1 0 0 (-1)) r _)) = _
    rw [zs_mat r hn, zst_mat r hn]
    rfl

/-- The pairs of gates that undo each other. -/
theorem C31_undo (r : Reg) (hn : r.Nodup) (ψ : Wave) :
    (eachW (textbook .sDagger) r (eachW (textbook .s) r ψ) = ψ ∧ eachW (textbook .s) r (eachW (textbook .sDagger) r ψ) = ψ) ∧
    (eachW (textbook .tDagger) r (eachW (textbook .t) r ψ) = ψ ∧ eachW (textbook .t) r (eachW (textbook .tDagger) r ψ) = ψ) ∧
    (eachW (textbook .x) r (eachW (textbook .x) r ψ) = ψ ∧ eachW (textbook .y) r (eachW (textbook .y) r ψ) = ψ ∧
      eachW (textbook .z) r (eachW (textbook .z) r ψ) = ψ ∧ eachW (textbook .h) r (eachW (textbook .h) r ψ) = ψ) := by
  have hI : I * I = -1 := I_mul_I
  have he : exp (-(Real.pi / 4) * I) * exp (Real.pi / 4 * I) = 1 := by
    rw [← Complex.exp_add]; simp
  have key : ∀ a b c d a' b' c' d' : ℂ, a * a' + b * c' = 1 → a * b' + b * d' = 0 → c * a' + d * c' = 0 → c * b' + d * d' = 1 →
      eachW (mat2 a b c d) r (eachW (mat2 a' b' c' d') r ψ) = ψ := by
    intro a b c d a' b' c' d' h1 h2 h3 h4
    rw [eachW_comp r hn, h1, h2, h3, h4, eachW_one]
  refine ⟨⟨key _ _ _ _ _ _ _ _ ?_ ?_ ?_ ?_, key _ _ _ _ _ _ _ _ ?_ ?_ ?_ ?_⟩,
    ⟨key _ _ _ _ _ _ _ _ ?_ ?_ ?_ ?_, key _ _ _ _ _ _ _ _ ?_ ?_ ?_ ?_⟩,
    key _ _ _ _ _ _ _ _ ?_ ?_ ?_ ?_, key _ _ _ _ _ _ _ _ ?_ ?_ ?_ ?_, key _ _ _ _ _ _ _ _ ?_ ?_ ?_ ?_,
    key _ _ _ _ _ _ _ _ ?_ ?_ ?_ ?_⟩
  all_goals first
    | ring1
    | linear_combination -hI
    | linear_combination he
    | linear_combination 2 * sqrt2_sq

/-- The dagger methods undo the methods: calling one after the other leaves every state alone. -/
theorem C31_dagger (ang : Rot → ℝ) (s : LocalBuilder) (r : Reg) (L : List ℕ) (hr : r ≠ []) (ho : Own s (r ++ L)) :
    Does ang (do let r ← Gate.s r; sDagger r) s r (r ++ L) ket ∧ Does ang (do let r ← Gate.t r; tDagger r) s r (r ++ L) ket := by
  have hn : r.Nodup := (List.nodup_append.mp ho.left).1
  constructor
  · refine (Does.bind (C31_named ang .s s r L hr ho) fun s' _ ho' => C31_named ang .sDagger s' r L hr ho').congrU fun x _ => ?_
    have : lift (fun x => eachW (textbook .sDagger) r (ket x)) = eachW (textbook .sDagger) r := wave_ext fun y => lift_ket _ _
    rw [this, (C31_undo r hn _).1.1]
  · refine (Does.bind (C31_named ang .t s r L hr ho) fun s' _ ho' => C31_named ang .tDagger s' r L hr ho').congrU fun x _ => ?_
    have : lift (fun x => eachW (textbook .tDagger) r (ket x)) = eachW (textbook .tDagger) r := wave_ext fun y => lift_ket _ _
    rw [this, (C31_undo r hn _).2.1.1]

/-- `cnot` flips every target qubit iff the control is 1. -/
theorem C31_cnot (ang : Rot → ℝ) (s : LocalBuilder) (c : ℕ) (r : Reg) (L : List ℕ) (hr : r ≠ [])
    (ho : Own s (c :: r ++ L)) :
    Does ang (cnot [c] r) s ([c], r) (c :: r ++ L) (fun x => ket (if x c then flipAll r x else x)) := by
  have hn : (c :: r).Nodup := (List.nodup_append.mp ho.left).1
  exact ((cnot_emits c r hr hn).does ang ho (segOK_cnots ho c r (List.nodup_cons.mp hn).1
    (fun q hq => List.mem_append_left _ hq))).congrU fun x _ => cnots_ket ang c r hn x

/-- `swap` exchanges the values of the two registers and leaves all other qubits. -/
theorem C31_swap (ang : Rot → ℝ) (s : LocalBuilder) (ra rb : Reg) (L : List ℕ) (hl : ra.length = rb.length) (hr : ra ≠ [])
    (ho : Own s (ra ++ rb ++ L)) :
    ∃ f : Asg → Asg, Does ang (swap ra rb) s (ra, rb) (ra ++ rb ++ L) (fun x => ket (f x)) ∧
      ∀ x, (∀ i (h : i < ra.length), f x ra[i] = x (rb[i]'(by omega)) ∧ f x (rb[i]'(by omega)) = x ra[i]) ∧
        ∀ q, q ∉ ra → q ∉ rb → f x q = x q := by
  have hn : (ra ++ rb).Nodup := (List.nodup_append.mp ho.left).1
  refine ⟨swapR ra rb, ?_, fun x => ⟨fun i hi => swapR_get ra rb hl hn x i hi, fun q => swapR_not_mem ra rb x q⟩⟩
  exact ((swap_emits ra rb hl hr hn).does ang ho (segOK_swap ho ra rb hn fun q hq => List.mem_append_left _ hq)).congrU
    fun x _ => swap_ket ang ra rb hl hn x

/-- four qubits held as two registers, one more in the pool -/
def fiveQubits : LocalBuilder := ⟨[], 5, [[4]], 0⟩

theorem fiveQubits_own : Own fiveQubits ([1, 0] ++ [2, 3] ++ []) := ⟨by simp [fiveQubits], by decide, by decide⟩

example (ang : Rot → ℝ) : Does ang (Named.run .tDagger [1, 0]) fiveQubits [1, 0] ([1, 0] ++ ([2, 3] ++ []))
    (fun x => eachW (mat2 1 0 0 (exp (-(Real.pi / 4) * I))) [1, 0] (ket x)) :=
  C31_named ang .tDagger fiveQubits [1, 0] _ (by simp) fiveQubits_own

example (ang : Rot → ℝ) : ∃ f : Asg → Asg, Does ang (swap [1, 0] [2, 3]) fiveQubits ([1, 0], [2, 3]) ([1, 0] ++ [2, 3] ++ [])
    (fun x => ket (f x)) :=
  (C31_swap ang fiveQubits [1, 0] [2, 3] [] rfl (by simp) fiveQubits_own).imp fun _ h => h.1

/-! ## C32 -/

/-- C32 as stated: whatever the sizes, `toffoli` flips the target register iff all controls are 1. -/
def C32_claim : Prop :=
  ∀ (ang : Rot → ℝ) (s : LocalBuilder) (cr r : Reg) (L : List ℕ), cr ≠ [] → r ≠ [] → Own s (cr ++ r ++ L) →
    Does ang (toffoli cr r) s (cr, r) (cr ++ r ++ L) (fun x => ket (if ∀ c ∈ cr, x c = true then flipAll r x else x))

/-- What `toffoli` does for all numbers of controls and targets: with two or more controls the flipped states get the
factor `(-i)^(m-1)` for `m` target qubits. -/
theorem C32_toffoli_partial (ang : Rot → ℝ) (s : LocalBuilder) (cr r : Reg) (L : List ℕ) (hc : cr ≠ []) (hr : r ≠ [])
    (ho : Own s (cr ++ r ++ L)) :
    Does ang (toffoli cr r) s (cr, r) (cr ++ r ++ L) (fun x =>
      if ∀ c ∈ cr, x c = true then (if cr.length = 1 then (1 : ℂ) else (-I) ^ (r.length - 1)) • ket (flipAll r x) else ket x) :=
  toffoli_does ang cr r L s hc hr ho

/-- C32 holds for one target qubit, and for one control. -/
theorem C32_single_partial (ang : Rot → ℝ) (s : LocalBuilder) (cr r : Reg) (L : List ℕ) (hc : cr ≠ []) (hr : r ≠ [])
    (h1 : r.length = 1 ∨ cr.length = 1) (ho : Own s (cr ++ r ++ L)) :
    Does ang (toffoli cr r) s (cr, r) (cr ++ r ++ L) (fun x => ket (if ∀ c ∈ cr, x c = true then flipAll r x else x)) := by
  refine (C32_toffoli_partial ang s cr r L hc hr ho).congrU fun x _ => ?_
  rcases h1 with h1 | h1
  · rw [h1]; split <;> simp
  · rw [if_pos h1]; split <;> simp

/-- C32 fails for two controls and two targets: the flipped state comes with the factor `-i`. -/
theorem C32_refuted : ¬ C32_claim := by
  intro h
  obtain ⟨s1, a1, -, -, a4⟩ := h (fun _ => 0) fiveQubits [1, 0] [2, 3] [] (by simp) (by simp) fiveQubits_own
  obtain ⟨s2, b1, -, -, b4⟩ := C32_toffoli_partial (fun _ => 0) fiveQubits [1, 0] [2, 3] [] (by simp) (by simp) fiveQubits_own
  have hs : s1 = s2 := by
    have := a1.symm.trans b1
    injection this
  subst hs
  obtain ⟨seg, p1, -, p3⟩ := a4.seg
  obtain ⟨seg', q1, -, q3⟩ := b4.seg
  have hseg : seg = seg' := List.append_cancel_left (p1.symm.trans q1)
  subst hseg
  let x : Asg := fun q => decide (q < 2)
  have hx : Clean fiveQubits x := by
    intro q hq
    simp [fiveQubits, Rooted.root] at hq
    simp only [x, decide_eq_false_iff_not]
    omega
  have e := (p3 x hx).1.symm.trans (q3 x hx).1
  have hall : ∀ c ∈ ([1, 0] : List ℕ), x c = true := by simp [x]
  simp only [if_pos hall] at e
  have e2 := DFunLike.congr_fun e (flipAll [2, 3] x)
  rw [Finsupp.smul_apply, ket_apply, if_pos rfl] at e2
  simp at e2
  have := congrArg Complex.im e2
  simp at this

example (ang : Rot → ℝ) : ∃ U, Does ang (toffoli [1, 0, 2] [3]) fiveQubits ([1, 0, 2], [3]) ([1, 0, 2] ++ [3] ++ []) U :=
  ⟨_, C32_single_partial ang fiveQubits [1, 0, 2] [3] [] (by simp) (by simp) (Or.inl rfl) ⟨by simp [fiveQubits], by decide, by decide⟩⟩

/-! ## C33 -/

/-- A temporary handed out in any history is none of the qubits the program owns, and it is 0 in every basis state with
clean temporaries. -/
theorem C33_make_temp_no_repeat (s : LocalBuilder) (live : List Reg) (h : Hist Call.NoRepeat s live) :
    ∃ t s', LocalBuilder.makeTempQubit s = .ok [t] s' ∧ t ∉ live.flatten ∧ (t ∈ s.zeroedQubits.flatten ∨ t = s.n) ∧
      t ∉ s'.zeroedQubits.flatten ∧ ∀ x, Clean s x → x t = false ∧ Clean s' x := by
  obtain ⟨t, s', h1, h2, h3, h4, h5, h6⟩ := makeTemp_local h.own.1
  refine ⟨t, s', h1, (List.nodup_cons.mp h2.left).1, ?_, h2.not_pool (by simp), fun x hx => ⟨(h6 x hx).2, (h6 x hx).1⟩⟩
  have := h2.mem_lt (q := t) (by simp)
  by_cases hp : t ∈ s.zeroedQubits.flatten
  · exact Or.inl hp
  · right
    by_contra hne
    -- a state with only qubit `t` set is clean unless `t` is in the pool or fresh
    have hlt : t < s.n := by
      by_contra hge
      have hn' : s'.n ≤ s.n + 1 := by
        unfold LocalBuilder.makeTempQubit at h1
        rw [bind_ok (get_run s)] at h1
        have hq' : (qubit : M LocalBuilder Reg) s = .ok [s.n] { s with n := s.n + 1 } := rfl
        cases hgl : s.zeroedQubits.getLast? with
        | some r =>
          rw [hgl] at h1
          cases h1
          exact Nat.le_succ _
        | none =>
          rw [hgl] at h1
          simp only at h1
          rw [hq'] at h1
          cases h1
          exact le_refl _
      omega
    have hc : Clean s (fun q => decide (q = t)) := by
      intro q hq
      simp only [decide_eq_false_iff_not]
      rintro rfl
      rcases hq with hq | hq
      · exact hp hq
      · omega
    have := (h6 _ hc).2
    simp at this

/-- `toffoli` in any history: the temporaries are clean again in every state reached, the pool shares no qubit with
the registers the program owns, everything that was in the pool is still there, and anything new in the pool is a
fresh qubit. -/
theorem C33_toffoli_no_repeat (ang : Rot → ℝ) (s : LocalBuilder) (live rest : List Reg) (cr r : Reg) (h : Hist Call.NoRepeat s live)
    (hp : live.Perm (cr :: r :: rest)) :
    ∃ s' seg, toffoli cr r s = .ok (cr, r) s' ∧ s'.pipeline = s.pipeline ++ seg ∧
      (∀ x, Clean s x → ∀ y ∈ (runW ang seg (ket x)).support, Clean s' y) ∧
      (∀ q ∈ live.flatten, q ∉ s'.zeroedQubits.flatten) ∧
      (∀ q ∈ s.zeroedQubits.flatten, q ∈ s'.zeroedQubits.flatten) ∧
      (∀ q ∈ s'.zeroedQubits.flatten, q ∈ s.zeroedQubits.flatten ∨ s.n ≤ q) := by
  obtain ⟨own, hne⟩ := h.own
  have own' : Own s (cr ++ r ++ rest.flatten) := by
    have := own.perm hp.flatten
    simpa using this
  have hcr : cr ≠ [] := hne cr (hp.mem_iff.mpr (by simp))
  have hr : r ≠ [] := hne r (hp.mem_iff.mpr (by simp))
  obtain ⟨M, o1, o2⟩ := own_all own'
  rw [List.append_assoc] at o1 o2
  obtain ⟨s', e1, -, e3, e4⟩ := toffoli_does ang cr r (rest.flatten ++ M) s hcr hr o1
  obtain ⟨seg, p1, -, p3⟩ := e4.seg
  have e3' : Own s' (cr ++ r ++ (rest.flatten ++ M)) := e3
  refine ⟨s', seg, e1, p1, ?_, ?_, ?_, ?_⟩
  · intro x hx y hy
    rw [(p3 x hx).1] at hy
    exact (p3 x hx).2 y hy
  · intro q hq
    apply e3'.not_pool
    have := hp.flatten.mem_iff.mp hq
    simp only [List.flatten_cons, List.mem_append] at this ⊢
    tauto
  · intro q hq
    exact toffoliF_kept cr.length cr r _ s s' (le_refl _) hcr hr o1 e1 q (Or.inl hq)
  · intro q hq
    by_contra hcon
    simp only [not_or, not_le] at hcon
    rcases o2 q hcon.2 with h2 | h2
    · exact e3'.not_pool h2 hq
    · exact hcon.1 h2

/-- a history with three control qubits and one target; `toffoli` there needs a temporary -/
example : ∃ s, Hist Call.NoRepeat s [[0, 1, 2], [3]] := by
  refine ⟨_, Hist.ok (rest := []) (.split [0, 1, 2, 3] [0, 1, 2]) (Hist.ok (.register 4) .start trivial (List.Perm.refl _) rfl)
    (by simp [Call.NoRepeat]) (List.Perm.refl _) rfl⟩

/-! ## C34 -/

/-- C34 as stated (`rotAngle` is the angle used by the calculation of the state, see C30). -/
def C34_claim : Prop :=
  ∀ (s : LocalBuilder) (r : Reg) (L : List ℕ) (θ : ℝ) (q : ℚ) (m : ℤ), r ≠ [] → Own s (r ++ L) → m ≠ 0 →
    let rot := fun (f : M LocalBuilder Reg) (mat : ℕ → ℕ → ℂ) => Does rotAngle f s r (r ++ L) (fun x => eachW mat r (ket x))
    rot (Rotations.rz r θ) (rzMat θ) ∧ rot (Rotations.rx r θ) (rxMat θ) ∧ rot (Rotations.ry r θ) (ryMat θ) ∧
    rot (Rotations.rzRatio r q) (rzMat (Real.pi * q)) ∧ rot (Rotations.rxRatio r q) (rxMat (Real.pi * q)) ∧
    rot (Rotations.ryRatio r q) (ryMat (Real.pi * q)) ∧
    rot (Rotations.rzPiBy r m) (rzMat (Real.pi / m)) ∧ rot (Rotations.rxPiBy r m) (rxMat (Real.pi / m)) ∧
    rot (Rotations.ryPiBy r m) (ryMat (Real.pi / m))

/-- What is proved: on one qubit `rz` and `rx` rotate by the given angle, `ry` by its negative; the ratio and pi_by
variants rotate by the ratio in radians, without the factor π. -/
theorem C34_one_qubit_partial (s : LocalBuilder) (p : ℕ) (L : List ℕ) (θ : ℝ) (q : ℚ) (m : ℤ) (ho : Own s (p :: L)) (hm : m ≠ 0) :
    let rot := fun (f : M LocalBuilder Reg) (mat : ℕ → ℕ → ℂ) => Does rotAngle f s [p] (p :: L) (fun x => gateW [p] mat (ket x))
    rot (Rotations.rz [p] θ) (rzMat θ) ∧ rot (Rotations.rx [p] θ) (rxMat θ) ∧ rot (Rotations.ry [p] θ) (ryMat (-θ)) ∧
    rot (Rotations.rzRatio [p] q) (rzMat q) ∧ rot (Rotations.rxRatio [p] q) (rxMat q) ∧
    rot (Rotations.ryRatio [p] q) (ryMat q) ∧
    rot (Rotations.rzPiBy [p] m) (rzMat (1 / m)) ∧ rot (Rotations.rxPiBy [p] m) (rxMat (1 / m)) ∧
    rot (Rotations.ryPiBy [p] m) (ryMat (1 / m)) := by
  intro rot
  have hne : ([p] : Reg) ≠ [] := by simp
  have hnd : ([p] : Reg).Nodup := by simp
  have hin : ∀ q ∈ [p], q ∈ p :: L := by simp
  have se : ∀ u : UObj, u.Shape 1 → ((∀ ρ, u ≠ .GlobalPhase ρ) ∧ ∀ d, u ≠ .MAT d) → ∀ e ∈ each [p] u, SegU s.n e ∧ ∀ q ∈ e.1, q ∈ p :: L :=
    fun u hu hg => segOK_each ho [p] hin u hu hg
  have sr : ∀ ρ : Rot, ∀ e ∈ [(([p], ⟨1, .unitary (.Rz ρ)⟩) : List ℕ × CObj)], SegU s.n e ∧ ∀ q ∈ e.1, q ∈ p :: L :=
    fun ρ => segOK_one ho [p] hnd hin (.Rz ρ) rfl (by simp) 1 rfl
  have rz : ∀ θ : ℝ, rot (LocalBuilder.rz [p] θ) (rzMat θ) := fun θ => (rz_emits [p] θ).does rotAngle ho (sr _)
  have rx : ∀ θ : ℝ, rot (do let r ← Gate.h [p]; let r ← LocalBuilder.rz r θ; Gate.h r) (rxMat θ) := fun θ => by
    refine ((rx_emits [p] hne hnd _ _ (rz_emits [p] θ)).does rotAngle ho (segOK_append (se .H rfl (by simp))
      (segOK_append (sr _) (se .H rfl (by simp))))).congrU fun x _ => ?_
    exact h_rz_h rotAngle p θ (ket x)
  have ry : rot (Rotations.ry [p] θ) (ryMat (-θ)) := by
    have em : Emits (LocalBuilder.rz [p] (-θ)) [p] [([p], ⟨1, .unitary (.Rz (.floating (-θ)))⟩)] := rz_emits [p] (-θ)
    refine ((ry_emits [p] hne hnd (fun r => LocalBuilder.rz r (-θ)) _ em).does rotAngle ho (segOK_append (segOK_append (se .Z rfl (by simp))
      (se .S rfl (by simp))) (segOK_append (se .H rfl (by simp)) (segOK_append (sr _) (segOK_append (se .H rfl (by simp))
      (se .S rfl (by simp))))))).congrU fun x _ => ?_
    show u1 rotAngle p .S (u1 rotAngle p .H (gateW [p] (rzMat (-θ)) (u1 rotAngle p .H (u1 rotAngle p .S (u1 rotAngle p .Z (ket x)))))) = _
    rw [h_rz_h]
    exact s_rx_sd rotAngle p θ (ket x)
  have ryR : ∀ q : ℚ, rot (Rotations.ryRatio [p] q) (ryMat q) := fun q => by
    have em : Emits (LocalBuilder.rzRatio [p] (-q)) [p] [([p], ⟨1, .unitary (.Rz (.floating ((-q : ℚ) : ℝ)))⟩)] := rzRatio_emits [p] (-q)
    refine ((ryRatio_emits [p] hne hnd (fun r => LocalBuilder.rzRatio r (-q)) _ em).does rotAngle ho (segOK_append (se .S rfl (by simp))
      (segOK_append (se .H rfl (by simp)) (segOK_append (sr _) (segOK_append (se .H rfl (by simp))
      (segOK_append (se .Z rfl (by simp)) (se .S rfl (by simp)))))))).congrU fun x _ => ?_
    show u1 rotAngle p .S (u1 rotAngle p .Z (u1 rotAngle p .H (gateW [p] (rzMat (rotAngle (.floating ((-q : ℚ) : ℝ)))) (u1 rotAngle p .H (u1 rotAngle p .S (ket x)))))) = _
    rw [h_rz_h]
    have := sd_rx_s rotAngle p q (ket x)
    rw [← Rat.cast_neg] at this
    exact this
  have hr1 : ∀ s : LocalBuilder, (ratio1 m : M LocalBuilder ℚ) s = .ok (1 / (m : ℚ)) s := fun s => by
    unfold ratio1; rw [if_neg hm]; rfl
  have hcast : (((1 / (m : ℚ)) : ℚ) : ℝ) = 1 / m := by push_cast; rfl
  have viaRatio : ∀ (f : Reg → ℚ → M LocalBuilder Reg) (mat : ℕ → ℕ → ℂ), rot (f [p] (1 / (m : ℚ))) mat →
      rot (piByDefault f [p] m) mat := by
    rintro f mat ⟨s', h1, h2⟩
    refine ⟨s', ?_, h2⟩
    unfold piByDefault
    rw [bind_ok (hr1 s)]
    exact h1
  refine ⟨rz θ, rx θ, ry, rz q, rx q, ryR q, ?_, ?_, ?_⟩
  · have := (rzPiBy_emits [p] m hm).does rotAngle ho (sr _)
    rw [← hcast]
    exact this
  · apply viaRatio
    rw [← hcast]
    exact rx _
  · apply viaRatio
    rw [← hcast]
    exact ryR _

/-- two descriptions of the same call agree on clean states -/
theorem does_unique {α : Type} {ang : Rot → ℝ} {m : M LocalBuilder α} {s : LocalBuilder} {a b : α} {L L' : List ℕ}
    {U V : Asg → Wave} (h : Does ang m s a L U) (h' : Does ang m s b L' V) (x : Asg) (hx : Clean s x) : U x = V x := by
  obtain ⟨s1, a1, -, -, a4⟩ := h
  obtain ⟨s2, b1, -, -, b4⟩ := h'
  have hs : s1 = s2 := by
    have := a1.symm.trans b1
    injection this
  subst hs
  obtain ⟨seg, p1, -, p3⟩ := a4.seg
  obtain ⟨seg', q1, -, q3⟩ := b4.seg
  have hseg : seg = seg' := List.append_cancel_left (p1.symm.trans q1)
  subst hseg
  exact (p3 x hx).1.symm.trans (q3 x hx).1

/-- one qubit -/
def oneQubit : LocalBuilder := ⟨[], 1, [], 0⟩

theorem oneQubit_own : Own oneQubit (0 :: []) := ⟨by simp [oneQubit], by simp [oneQubit], by simp [oneQubit]⟩

theorem oneQubit_zero : Clean oneQubit (fun _ => false) := fun _ _ => rfl

theorem gate_amp (m : ℕ → ℕ → ℂ) : gateW [0] m (ket fun _ => false) (setQ 0 true fun _ => false) = m 1 0 := by
  rw [gate1_ket]
  simp only [Bool.toNat_false, Finsupp.add_apply, Finsupp.smul_apply, ket_apply]
  rw [if_neg]
  · simp
  · intro h
    have := congrFun h 0
    simp at this

/-- `ry` rotates the wrong way round. -/
theorem C34_ry_refuted (θ : ℝ) (hθ : Real.sin (θ / 2) ≠ 0) :
    ¬ Does rotAngle (Rotations.ry [0] θ) oneQubit [0] [0] (fun x => eachW (ryMat θ) [0] (ket x)) := by
  intro h
  have h2 := (C34_one_qubit_partial oneQubit 0 [] θ 0 1 oneQubit_own (by simp)).2.2.1
  have e := does_unique h h2 _ oneQubit_zero
  have e2 := DFunLike.congr_fun e (setQ 0 true fun _ => false)
  change gateW [0] _ _ _ = _ at e2
  rw [gate_amp, gate_amp] at e2
  simp only [ryMat, mat2, if_true, if_neg one_ne_zero] at e2
  have h3 : sin (((-θ : ℝ) : ℂ) / 2) = -sin (θ / 2) := by push_cast; rw [neg_div, Complex.sin_neg]
  rw [h3] at e2
  have h4 : sin ((θ : ℂ) / 2) = 0 := by linear_combination (1 / 2) * e2
  apply hθ
  have h5 : ((Real.sin (θ / 2) : ℝ) : ℂ) = 0 := by push_cast; exact h4
  exact_mod_cast h5

/-- `rx_ratio` with ratio 1 does not rotate by π (a rotation by π takes |0⟩ to a multiple of |1⟩; by 1 radian it does
not); it is the missing factor π. -/
theorem C34_ratio_refuted :
    ¬ Does rotAngle (Rotations.rxRatio [0] 1) oneQubit [0] [0] (fun x => eachW (rxMat (Real.pi * (1 : ℚ))) [0] (ket x)) := by
  intro h
  have h2 := (C34_one_qubit_partial oneQubit 0 [] 0 1 1 oneQubit_own (by simp)).2.2.2.2.1
  have e := does_unique h h2 _ oneQubit_zero
  have e2 := DFunLike.congr_fun e (setQ 0 true fun _ => false)
  change gateW [0] _ _ _ = _ at e2
  rw [gate_amp, gate_amp] at e2
  simp only [rxMat, mat2, if_true, if_neg one_ne_zero] at e2
  have e3 : ((Real.sin (Real.pi / 2) : ℝ) : ℂ) = ((Real.sin (1 / 2) : ℝ) : ℂ) := by
    have := mul_left_cancel₀ (by simp : (-I : ℂ) ≠ 0) e2
    push_cast at this ⊢
    simpa using this
  have e4 : Real.sin (Real.pi / 2) = Real.sin (1 / 2) := by exact_mod_cast e3
  rw [Real.sin_pi_div_two] at e4
  have := Real.sin_lt (x := 1 / 2) (by norm_num)
  linarith

/-- The same for `rx_pi_by(1)`. -/
theorem C34_pi_by_refuted :
    ¬ Does rotAngle (Rotations.rxPiBy [0] 1) oneQubit [0] [0] (fun x => eachW (rxMat (Real.pi / (1 : ℤ))) [0] (ket x)) := by
  intro h
  have h2 := (C34_one_qubit_partial oneQubit 0 [] 0 1 1 oneQubit_own (by simp)).2.2.2.2.2.2.2.1
  have e := does_unique h h2 _ oneQubit_zero
  have e2 := DFunLike.congr_fun e (setQ 0 true fun _ => false)
  change gateW [0] _ _ _ = _ at e2
  rw [gate_amp, gate_amp] at e2
  simp only [rxMat, mat2, if_true, if_neg one_ne_zero] at e2
  have e3 : ((Real.sin (Real.pi / 2) : ℝ) : ℂ) = ((Real.sin (1 / 2) : ℝ) : ℂ) := by
    have := mul_left_cancel₀ (by simp : (-I : ℂ) ≠ 0) e2
    push_cast at this ⊢
    simpa using this
  have e4 : Real.sin (Real.pi / 2) = Real.sin (1 / 2) := by exact_mod_cast e3
  rw [Real.sin_pi_div_two] at e4
  have := Real.sin_lt (x := 1 / 2) (by norm_num)
  linarith

/-- A rotation of a register of two qubits is accepted, and calculating the state then panics. -/
theorem C34_register_refuted (θ : ℝ) (rnds : ℕ → ℝ) :
    ∃ s', (Rotations.rz [0, 1] θ : M LocalBuilder Reg) ⟨[], 2, [], 0⟩ = .ok [0, 1] s' ∧ s'.calculateState rnds = none := by
  refine ⟨_, rfl, ?_⟩
  unfold LocalBuilder.calculateState LocalBuilder.calculateStateWithInit
  have : ∀ st, calcFold 2 rnds [([0, 1], ⟨2, .unitary (.Rz (.floating θ))⟩)] st = none := fun st => rfl
  simp [initialIndex, this]

theorem C34_refuted : ¬ C34_claim := by
  intro h
  exact C34_ratio_refuted (h oneQubit [0] [] 0 1 1 (by simp) oneQubit_own (by simp)).2.2.2.2.1

end Verif.Props
