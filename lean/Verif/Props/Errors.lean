import Verif.Props.AddMod

/-!
# Properties C54 and C60: errors

C54: the documented errors. C60: refuted; a conditioned builder loses its condition register when a call fails.
-/

namespace Verif.Props
open Classical RegOps CircuitBuilder Rooted

/-! ## C54 -/

/-- `cnot` with more than one control qubit is an error in every builder, and the builder is unchanged -/
theorem C54_cnot {k : ℕ} (s : NB k) (cr r : Reg) (h : 1 < cr.length) : cnot cr r s = .error .error s := by
  unfold cnot
  rw [if_pos h]
  rfl

/-- `swap` of registers of different sizes -/
theorem C54_swap {k : ℕ} (s : NB k) (ra rb : Reg) (h : ra.length ≠ rb.length) : swap ra rb s = .error .error s := by
  unfold swap
  rw [if_neg h]
  rfl

/-- `basic_toffoli` with a number of controls other than two -/
theorem C54_basic_toffoli {k : ℕ} (s : NB k) (cr r : Reg) (h : cr.length ≠ 2) : basicToffoli cr r s = .error .error s := by
  unfold basicToffoli
  rw [if_neg h]
  rfl

/-- `rz_pi_by(0)` -/
theorem C54_rz_pi_by {k : ℕ} (s : NB k) (r : Reg) : Rotations.rzPiBy r 0 s = .error .error s := by
  induction k with
  | zero => rfl
  | succ k ih =>
    have := ih (Conditioned.parent (β := NB k) s)
    show Conditioned.onParent (β := NB k) (Rotations.rzPiBy r 0) s = _
    unfold Conditioned.onParent
    rw [this]
    rfl

/-- In contrast, `rx_pi_by(0)`, `ry_pi_by(0)` and `apply_global_phase_pi_by(0)` panic. -/
theorem C54_other_pi_by {k : ℕ} (s : NB k) (b : LocalBuilder) (r : Reg) :
    Rotations.rxPiBy r 0 s = .error .panic s ∧ Rotations.ryPiBy r 0 s = .error .panic s ∧
    LocalBuilder.applyGlobalPhasePiBy r 0 b = .error .panic b := by
  refine ⟨?_, ?_, rfl⟩
  · induction k with
    | zero => rfl
    | succ k ih =>
      have := ih (Conditioned.parent (β := NB k) s)
      show Conditioned.onParent (β := NB k) (Rotations.rxPiBy r 0) s = _
      unfold Conditioned.onParent
      rw [this]
      rfl
  · induction k with
    | zero => rfl
    | succ k ih =>
      have := ih (Conditioned.parent (β := NB k) s)
      show Conditioned.onParent (β := NB k) (Rotations.ryPiBy r 0) s = _
      unfold Conditioned.onParent
      rw [this]
      rfl

/-- `qudit(0)` and `try_register(0)` return `None` and leave every builder as it is; for `n > 0` they return the next `n` qubits, in order. -/
theorem C54_qudit {k : ℕ} (s : NB k) :
    qudit 0 s = .ok none s ∧ tryRegister 0 s = .ok none s ∧
    ∀ n, 0 < n → ∃ s' : NB k, qudit n s = .ok (some (List.range' (nQubits s) n)) s' ∧
      tryRegister n s = .ok (some (List.range' (nQubits s) n)) s' ∧
      root s' = { root s with n := (root s).n + n } ∧ nQubits s' = nQubits s + n := by
  refine ⟨rfl, rfl, fun n hn => ?_⟩
  have h : ∃ s' : NB k, register n s = .ok (List.range' (nQubits s) n) s' ∧ root s' = { root s with n := (root s).n + n } ∧
      nQubits s' = nQubits s + n := by
    induction k with
    | zero =>
      obtain ⟨n, rfl⟩ : ∃ m, n = m + 1 := ⟨n - 1, by omega⟩
      exact ⟨_, rfl, rfl, rfl⟩
    | succ k ih =>
      obtain ⟨p', h1, h2, h3⟩ := ih (Conditioned.parent (β := NB k) s)
      exact ⟨(⟨p', Conditioned.cr (β := NB k) s⟩ : Conditioned (NB k)), Conditioned.onParent_ok (s := s) h1, h2, h3⟩
  obtain ⟨s', h1, h2, h3⟩ := h
  have h4 : qudit n s = .ok (some (List.range' (nQubits s) n)) s' := by
    unfold qudit
    rw [if_neg (by omega), bind_ok h1]
    rfl
  exact ⟨s', h4, h4, h2, h3⟩

example : qudit 0 (⟨sevenQubits, some [3]⟩ : Conditioned LocalBuilder) = .ok none ⟨sevenQubits, some [3]⟩ := (C54_qudit (k := 1) _).1

theorem tryCond_meas {k : ℕ} (cs : List Reg) (s : NB k) (hs : ctl s = some cs) (cr r : Reg) (n : ℕ) (t : MObj) (hc : cr ≠ []) :
    ∃ s', Conditionable.tryCond cr r ⟨n, .meas t⟩ s = .error .error s' ∧ root s' = root s := by
  induction k generalizing cs cr with
  | zero => exact ⟨s, rfl, rfl⟩
  | succ k ih =>
    obtain ⟨ccr, ps, e1, e2, e3, rfl⟩ := ctl_conditioned (β := NB k) hs
    obtain ⟨p', h1, h2⟩ := ih ps (Conditioned.parent (β := NB k) s) e3 (cr ++ ccr) (by simp [hc])
    refine ⟨(⟨p', none⟩ : Conditioned (NB k)), ?_, h2⟩
    show (do
      let ccr ← Conditioned.takeCr
      let cr' ← RegOps.mergeTwo cr ccr
      let (cr', r) ← Conditioned.onParent (Conditionable.tryCond cr' r ⟨n, .meas t⟩)
      match ← RegOps.splitRel cr' (List.range cr.length) with
      | .split cr ccr => do
        Conditioned.putCr ccr
        pure (cr, r)
      | .selected _ => throw .panic
      | .unselected _ => throw .panic : M (Conditioned (NB k)) (Reg × Reg)) s = _
    rw [bind_ok (Conditioned.takeCr_ok e1), LawfulReg.mergeTwo_eq _ _ (by simp [hc]), pure_bind]
    refine bind_err (β := Conditioned (NB k)) ?_
    unfold Conditioned.onParent
    simp only
    rw [h1]

theorem applyCO_conditioned {β : Type} [Conditionable β] (s : Conditioned β) (cr r : Reg) (c : CObj) (hcr : s.cr = some cr) :
    applyCO r c s = (do
      let (cr, r) ← Conditioned.onParent (Conditionable.tryCond cr r c)
      Conditioned.putCr cr
      pure r : M (Conditioned β) Reg) { s with cr := none } := bind_ok (Conditioned.takeCr_ok hcr)

theorem under_error {α : Type} (crs : List Reg) (m : M (NB crs.length) α) (b b' : LocalBuilder) (e : Fail)
    (h : ∃ s', m (stack crs b) = .error e s' ∧ root s' = b') : under crs m b = .error e b' := by
  induction crs generalizing α with
  | nil =>
    obtain ⟨s', h1, h2⟩ := h
    obtain rfl : s' = b' := h2
    exact bind_err (β := LocalBuilder) (x := m) h1
  | cons c cs ih =>
    obtain ⟨s', h1, h2⟩ := h
    refine bind_err (β := LocalBuilder) (ih (Conditioned.conditioned (β := NB cs.length) c m) ⟨Conditioned.parent (β := NB cs.length) s', ?_, h2⟩)
    unfold Conditioned.conditioned
    have h1' : m (⟨stack cs b, some c⟩ : Conditioned (NB cs.length)) = .error e s' := h1
    rw [h1']

/-- A measurement inside any conditions is an error, and nothing is added to the circuit. -/
theorem C54_condition_measurement (s : LocalBuilder) (crs : List Reg) (r : Reg) (n : ℕ) (t : MObj) (hne : crs ≠ []) (hc : ∀ c ∈ crs, c ≠ []) :
    under crs (applyCO r ⟨n, .meas t⟩) s = .error .error s := by
  refine under_error crs _ s s _ ?_
  match crs, hne with
  | c :: cs, _ =>
    obtain ⟨p', h1, h2⟩ := tryCond_meas cs (stack cs s) (ctl_stack cs s fun d hd => hc d (by simp [hd])) c r n t (hc c (by simp))
    refine ⟨(⟨p', none⟩ : Conditioned (NB cs.length)), ?_, h2.trans (root_stack cs s)⟩
    have h3 : Conditioned.onParent (Conditionable.tryCond c r ⟨n, .meas t⟩) (⟨stack cs s, none⟩ : Conditioned (NB cs.length))
        = .error .error ⟨p', none⟩ := by
      unfold Conditioned.onParent
      simp only
      rw [h1]
    have h4 : applyCO r ⟨n, .meas t⟩ (⟨stack cs s, some c⟩ : Conditioned (NB cs.length)) = .error .error ⟨p', none⟩ := by
      rw [applyCO_conditioned (β := NB cs.length) _ c r _ rfl]
      exact bind_err (β := Conditioned (NB cs.length)) h3
    exact h4

/-- Applying the inverse of a subcircuit with a measurement is an error in every builder, and the builder is unchanged. -/
theorem C54_invert_measurement {k : ℕ} (s : NB k) (n : ℕ) (sc : Pipeline) (r : Reg) (h : ∀ e ∈ sc, EntryOK n e ∧ e.2.n = e.1.length)
    (hm : ∃ e ∈ sc, ∃ t, e.2.object = .meas t) : applyInverted sc r s = .error .error s := by
  unfold applyInverted
  rw [invertSub_meas n sc h hm]
  rfl

example : cnot [0, 1] [2] (sevenQubits : NB 0) = .error .error sevenQubits := C54_cnot (k := 0) sevenQubits [0, 1] [2] (by simp)
example : swap [0, 1] [2] (⟨sevenQubits, some [3]⟩ : Conditioned LocalBuilder) = .error .error ⟨sevenQubits, some [3]⟩ :=
  C54_swap (k := 1) (⟨sevenQubits, some [3]⟩ : Conditioned LocalBuilder) [0, 1] [2] (by simp)
example : basicToffoli [0, 1, 3] [2] (sevenQubits : NB 0) = .error .error sevenQubits := C54_basic_toffoli (k := 0) sevenQubits _ _ (by simp)
example : under [[0], [1, 2]] (applyCO [3, 4] ⟨2, .meas .measurement⟩) sevenQubits = .error .error sevenQubits :=
  C54_condition_measurement sevenQubits [[0], [1, 2]] [3, 4] 2 .measurement (by simp) (by simp)
example : applyInverted (bell ++ [([1], ⟨1, .meas .measurement⟩)]) [0, 1] (sevenQubits : NB 0) = .error .error sevenQubits := by
  refine C54_invert_measurement (k := 0) sevenQubits 2 _ _ ?_ ⟨([1], ⟨1, .meas .measurement⟩), by simp, _, rfl⟩
  intro e he
  rcases List.mem_append.mp he with he | he
  · exact ⟨(bell_ok e he).1.1, (bell_ok e he).1.2.1⟩
  · rw [List.mem_singleton] at he
    subst he
    exact ⟨⟨by simp, by simp, fun u hu => by cases hu⟩, rfl⟩

/-! ## C60 -/

/-- C60: a conditioned builder still has its condition register after a call that returned an error -/
def C60_claim : Prop :=
  ∀ (s : LocalBuilder) (cr r : Reg) (c : CObj) (s' : Conditioned LocalBuilder),
    applyCO r c (⟨s, some cr⟩ : Conditioned LocalBuilder) = .error .error s' → s'.cr = some cr

/-- After any error of `apply_circuit_object` on a conditioned builder the condition register is gone. -/
theorem C60_lost {β : Type} [Conditionable β] (s s' : Conditioned β) (r : Reg) (c : CObj) (e : Fail) (h : applyCO r c s = .error e s') :
    s'.cr = none := by
  cases hcr : s.cr with
  | none =>
    have h1 : Conditioned.takeCr s = .error .panic ({ s with cr := none } : Conditioned β) := by
      unfold Conditioned.takeCr
      show unwrapO s.cr { s with cr := none } = _
      rw [hcr]; rfl
    have h2 : applyCO r c s = .error .panic ({ s with cr := none } : Conditioned β) := bind_err (β := Conditioned β) h1
    rw [h2] at h
    injection h with h3 h4
    rw [← h4]
  | some cr =>
    have h2 := applyCO_conditioned s cr r c hcr
    rw [h2] at h
    cases h3 : Conditionable.tryCond cr r c s.parent with
    | ok p b =>
      have h4 : Conditioned.onParent (Conditionable.tryCond cr r c) { s with cr := none } = .ok p (⟨b, none⟩ : Conditioned β) :=
        Conditioned.onParent_ok (s := { s with cr := none }) h3
      rw [bind_ok h4] at h
      cases h
    | error e' b =>
      have h4 : Conditioned.onParent (Conditionable.tryCond cr r c) { s with cr := none } = .error e' (⟨b, none⟩ : Conditioned β) := by
        unfold Conditioned.onParent
        simp only
        rw [h3]
      rw [bind_err (β := Conditioned β) h4] at h
      injection h with h5 h6
      rw [← h6]

/-- From then on every gate panics, and so does `dissolve`, whatever is done in between. -/
theorem C60_unusable {β : Type} [Conditionable β] (s : Conditioned β) (hs : s.cr = none) (r : Reg) (c : CObj) :
    applyCO r c s = .error .panic s := by
  have h1 : Conditioned.takeCr s = .error .panic s := by
    unfold Conditioned.takeCr
    show unwrapO s.cr { s with cr := none } = _
    rw [hs]
    obtain ⟨p, cr⟩ := s
    cases hs
    rfl
  exact bind_err (β := Conditioned β) h1

/-- a caller who handles the error of `m` and goes on -/
def ignoring {β α : Type} (m : M β α) : M β Unit := fun s => match m s with
  | .ok _ s' => .ok () s'
  | .error _ s' => .ok () s'

/-- Handling the error does not help: the conditioned block as a whole panics. -/
theorem C60_dissolve_panics {β : Type} [Conditionable β] (b b' : β) (cr r : Reg) (c : CObj) (s' : Conditioned β)
    (h : applyCO r c (⟨b, some cr⟩ : Conditioned β) = .error .error s') (hb : s'.parent = b') :
    Conditioned.conditioned cr (ignoring (applyCO r c)) b = .error .panic b' := by
  have h1 : ignoring (applyCO r c) (⟨b, some cr⟩ : Conditioned β) = .ok () s' := by
    unfold ignoring
    rw [h]
  unfold Conditioned.conditioned
  rw [h1]
  simp only [C60_lost _ _ r c _ h, hb]

theorem C60_refuted : ¬ C60_claim := by
  intro h
  have h1 := h sevenQubits [0] [1] ⟨1, .meas .measurement⟩ ⟨sevenQubits, none⟩ rfl
  cases h1

/-- Proved part of C60: the errors found before a gate is applied (C54) leave the builder as it was. -/
theorem C60_partial {k : ℕ} (s : NB k) (a b : Reg) :
    (1 < a.length → cnot a b s = .error .error s) ∧ (a.length ≠ b.length → swap a b s = .error .error s) ∧
    (a.length ≠ 2 → basicToffoli a b s = .error .error s) ∧ Rotations.rzPiBy a 0 s = .error .error s :=
  ⟨C54_cnot s a b, C54_swap s a b, C54_basic_toffoli s a b, C54_rz_pi_by s a⟩

example := C60_lost (β := LocalBuilder) ⟨sevenQubits, some [0]⟩ ⟨sevenQubits, none⟩ [1] ⟨1, .meas .measurement⟩ .error rfl
example := C60_unusable (β := LocalBuilder) ⟨sevenQubits, none⟩ rfl [1] ⟨1, .unitary .X⟩
example := C60_dissolve_panics (β := LocalBuilder) sevenQubits sevenQubits [0] [1] ⟨1, .meas .measurement⟩ ⟨sevenQubits, none⟩ rfl rfl

end Verif.Props
