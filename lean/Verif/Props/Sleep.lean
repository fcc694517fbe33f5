import Verif.Proofs.Asleep
import Verif.Props.Client
import Verif.Props.Steady
import Verif.Props.Cond

/-!
# Property C104: nothing happens inside a condition that is not met

Whatever a function does through a conditioned builder — gates, subcircuits, inverted functions, arithmetic, further conditions,
`program!` — the circuit it adds leaves every state alone in which one of the qubits of the conditions is 0.
-/

namespace Verif.Props
open Rooted Ledger Complex

theorem sleep_core {G : Submonoid ℂ} (hG : ∀ co cos, invertObject co = .ok cos → Calms G co → ∀ c ∈ cos, Calms G c)
    {P : Method → Prop} {I : Prop} {ok : CObj → Prop} (hI : I → ∀ co, Calms G co) (hP : ∀ m, P m → m.Dozes ∧ ∀ c ∈ m.given, Calms G c)
    {k : ℕ} {f : List Reg → M (NB k) (List Reg)} (hf : Steady P I ok k f) {s s' : NB k} {rs rest out : List Reg}
    (h : Sound k s (rs ++ rest)) (hc : (NB.conds k s).length = k) (he : f rs s = .ok out s') :
    Rests G (Verif.Idle (NB.conds k s)) (root s) (root s') := by
  letI := Stock.all
  have hl : Holds s (rs ++ rest) := (holds_iff k s _).mpr ⟨h, fun _ _ => trivial⟩
  have hs : Sleeps G s s' := ((hf.dozes hG hI hP (fun _ _ => trivial) rs s rest hl).1 _ _ he).2.2
  exact hs _ ((NB.ctl_conds k s _).mpr ⟨rfl, hc, fun c hc => h.nonempty c (List.mem_append_left _ hc)⟩)

/-- C104: a function of a program, called inside any number of conditions and having returned, adds a circuit that changes no state in
which some qubit of the conditions is 0 but by one phase, and leaves the pool of temporaries clean. -/
theorem C104_asleep {ok : CObj → Prop} {k : ℕ} {f : List Reg → M (NB k) (List Reg)} (hf : Steady Method.Dozes True ok k f) (s : NB k)
    (rs rest : List Reg) (h : Sound k s (rs ++ rest)) (hc : (NB.conds k s).length = k) (out : List Reg) (s' : NB k) (he : f rs s = .ok out s') :
    ∃ seg, (root s').pipeline = (root s).pipeline ++ seg ∧ ((∀ e ∈ seg, Textbook e) → ∃ c : ℂ, ‖c‖ = 1 ∧
      ∀ x, Clean (root s) x → (∃ q ∈ (NB.conds k s).flatten, x q = false) → runW rotAngle seg (ket x) = c • ket x ∧ Clean (root s') x) := by
  obtain ⟨seg, h1, h2⟩ := sleep_core (G := Submonoid.unitSphere ℂ) (fun _ _ _ _ c _ => calms_sphere c) (fun _ => calms_sphere)
    (fun m hm => ⟨hm, fun c _ => calms_sphere c⟩) hf h hc he
  refine ⟨seg, h1, fun ht => ?_⟩
  obtain ⟨c, hc, h3⟩ := h2 ht
  exact ⟨c, mem_sphere_zero_iff_norm.mp hc, fun x hx hq => h3 x (idle_iff.mpr hq) hx⟩

/-- C104: without rotations about z given to it, and without inverted functions of its own, not even by a phase. -/
theorem C104_exactly {ok : CObj → Prop} {k : ℕ} {f : List Reg → M (NB k) (List Reg)}
    (hf : Steady (fun m => m.Dozes ∧ ∀ c ∈ m.given, NoRz c) False ok k f) (s : NB k)
    (rs rest : List Reg) (h : Sound k s (rs ++ rest)) (hc : (NB.conds k s).length = k) (out : List Reg) (s' : NB k) (he : f rs s = .ok out s') :
    ∃ seg, (root s').pipeline = (root s).pipeline ++ seg ∧ ((∀ e ∈ seg, Textbook e) →
      ∀ x, Clean (root s) x → (∃ q ∈ (NB.conds k s).flatten, x q = false) → runW rotAngle seg (ket x) = ket x ∧ Clean (root s') x) := by
  obtain ⟨seg, h1, h2⟩ := sleep_core (G := ⊥) (fun co cos hi hc => calms_bot_invert hi hc) (fun h => h.elim)
    (fun m hm => ⟨hm.1, fun c hc => calms_of (hm.2 c hc)⟩) hf h hc he
  refine ⟨seg, h1, fun ht x hx hq => ?_⟩
  obtain ⟨c, hc, h3⟩ := h2 ht
  obtain ⟨h4, h5⟩ := h3 x (idle_iff.mpr hq) hx
  rw [Submonoid.mem_bot.mp hc, one_smul] at h4
  exact ⟨h4, h5⟩

/-- C104: nor does it change a superposition of such states. -/
theorem C104_superposition {ok : CObj → Prop} {k : ℕ} {f : List Reg → M (NB k) (List Reg)} (hf : Steady Method.Dozes True ok k f) (s : NB k)
    (rs rest : List Reg) (h : Sound k s (rs ++ rest)) (hc : (NB.conds k s).length = k) (out : List Reg) (s' : NB k) (he : f rs s = .ok out s') :
    ∃ seg, (root s').pipeline = (root s).pipeline ++ seg ∧ ((∀ e ∈ seg, Textbook e) → ∃ c : ℂ, ‖c‖ = 1 ∧
      ∀ ψ : Wave, (∀ x ∈ ψ.support, Clean (root s) x ∧ ∃ q ∈ (NB.conds k s).flatten, x q = false) → runW rotAngle seg ψ = c • ψ) := by
  obtain ⟨seg, h1, h2⟩ := C104_asleep hf s rs rest h hc out s' he
  refine ⟨seg, h1, fun ht => ?_⟩
  obtain ⟨c, hc, h3⟩ := h2 ht
  refine ⟨c, hc, fun ψ hψ => ?_⟩
  conv_lhs => rw [← Finsupp.sum_single ψ]
  conv_rhs => rw [← Finsupp.sum_single ψ]
  unfold Finsupp.sum
  rw [map_sum, Finset.smul_sum]
  refine Finset.sum_congr rfl fun x hx => ?_
  have := (h3 x (hψ x hx).1 (hψ x hx).2).1
  have e : Finsupp.single x (ψ x) = ψ x • ket x := by simp [ket]
  rw [e, map_smul, this, smul_comm]

/-! ## examples -/

/-- eight allocated qubits, one of them in the pool, inside a condition on two qubits -/
noncomputable def drowsy : Conditioned LocalBuilder := ⟨⟨[], 8, [[7]], 0⟩, some [4, 5]⟩

theorem drowsy_sound : Sound 1 drowsy ([[0], [1], [2, 3]] ++ []) := ⟨⟨by decide, by decide, by decide⟩, by decide, by intro e he; cases he⟩

/-- addition and its inverse inside a condition on two qubits: all hypotheses hold and the call returns -/
example : (Steady (fun m => m.Dozes ∧ ∀ c ∈ m.given, NoRz c) False NotMeas 1 fun rs => Method.run .add rs >>= Method.run .addInv) ∧
    Sound 1 drowsy ([[0], [1], [2, 3]] ++ []) ∧ (NB.conds 1 drowsy).length = 1 ∧
    ∃ s', (Method.run .add [[0], [1], [2, 3]] >>= Method.run .addInv : M (NB 1) (List Reg)) drowsy = .ok [[0], [1], [2, 3]] s' := by
  refine ⟨.seq (.method _ ⟨trivial, by simp [Method.given, Method.objects]⟩ trivial (by simp [Method.objects]))
    (.method _ ⟨trivial, by simp [Method.given, Method.objects]⟩ trivial (by simp [Method.objects])), drowsy_sound, rfl, ?_⟩
  obtain ⟨s1, e1, c1, o1, -⟩ := circ_quiet (β := NB 1) (cs := [[4, 5]]) .add [[0], [1], [2, 3]] (by simp) ⟨rfl, rfl⟩ drowsy [] rfl drowsy_sound.own
  obtain ⟨s2, e2, -⟩ := circ_quiet (β := NB 1) (cs := [[4, 5]]) .addInv [[0], [1], [2, 3]] (by simp) ⟨rfl, rfl⟩ s1 [] (c1.trans rfl) o1
  exact ⟨s2, (bind_ok e1).trans e2⟩

/-- Rz(π) on one qubit inside a condition on another: all hypotheses of `C104_asleep` hold, and the phase is not 1, so that the restriction in
`C104_exactly` is needed -/
theorem C104_phase_counterexample : Steady Method.Dozes True NotMeas 1 (Method.run (.object ⟨1, .unitary (.Rz (.floating Real.pi))⟩)) ∧
    Sound 1 shallow ([[1]] ++ [[2]]) ∧ (NB.conds 1 shallow).length = 1 ∧
    ∃ s' : NB 1, Method.run (.object ⟨1, .unitary (.Rz (.floating Real.pi))⟩) [[1]] shallow = .ok [[1]] s' ∧
      (∀ e ∈ (root s').pipeline, Textbook e) ∧ Clean (root shallow) (fun _ => false) ∧
      runW rotAngle (root s').pipeline (ket fun _ => false) = (-I) • ket fun _ => false := by
  refine ⟨.method _ trivial trivial (by simp [Method.objects, NotMeas]), shallow_sound _ (.inr rfl), rfl, ?_⟩
  obtain ⟨s', h1, -, -, -, -, seg, h2, h3, h4⟩ := C36_rz_partial (⟨[], 3, [], 0⟩ : LocalBuilder) [0] [1] [2] (.floating Real.pi) (by simp) (by simp) ⟨by decide, by decide, by decide⟩
  refine ⟨(⟨s', some [0]⟩ : Conditioned LocalBuilder), ?_, ?_, fun _ _ => rfl, ?_⟩
  · exact bind_ok (f := fun r => (pure [r] : M (Conditioned LocalBuilder) (List Reg))) (conditioned_applyCO_ok (β := LocalBuilder) h1)
  · intro e he
    obtain ⟨⟨⟨-, -, h5⟩, -, u, h6, h7⟩, -⟩ := h3 e (by rw [← List.nil_append seg]; exact h2 ▸ he)
    exact ⟨fun ρ hρ => h5 _ hρ, fun ρ hρ => h7 ρ (by rw [h6] at hρ; simpa using hρ), by rw [h6]; simp⟩
  · have h5 := (h4 (fun _ => false) fun _ _ => rfl).1
    have e : (root (⟨s', some [0]⟩ : Conditioned LocalBuilder)).pipeline = seg := h2.trans (List.nil_append seg)
    rw [if_neg (fun h => by simpa using h 0 (by simp))] at h5
    have h6 : exp (((-(rotAngle (.floating Real.pi) / 2) : ℝ) : ℂ) * I) = -I := by
      have e2 : ((-(rotAngle (.floating Real.pi) / 2) : ℝ) : ℂ) * I = -(Real.pi / 2 * I) := by unfold rotAngle; push_cast; ring
      rw [e2, Complex.exp_neg, exp_pi_div_two_mul_I, inv_I]
    rw [h6] at h5
    exact (congrArg (fun p => runW rotAngle p (ket fun _ => false)) e).trans h5

/-- Giving back a temporary had to be left out: whatever state it is in goes to the pool. -/
theorem C104_returnTemp_counterexample : ∃ (s s' : NB 1) (x : Asg), Sound 1 s ([[0]] ++ []) ∧ (NB.conds 1 s).length = 1 ∧
    Method.run .returnTemp [[0]] s = .ok [] s' ∧ Clean (root s) x ∧ (∃ q ∈ (NB.conds 1 s).flatten, x q = false) ∧ ¬ Clean (root s') x :=
  ⟨drowsy, (⟨⟨[], 8, [[7], [0]], 0⟩, some [4, 5]⟩ : Conditioned LocalBuilder), fun q => q == 0,
    ⟨⟨by decide, by decide, by decide⟩, by decide, by intro e he; cases he⟩, rfl, rfl, by
      rintro q (h | h)
      · have h : q ∈ [7] := h
        have : q = 7 := by simpa using h
        simp [this]
      · have : 8 ≤ q := h
        simp; omega,
    ⟨4, by decide, rfl⟩, fun h => by
      have := h 0 (.inl (show 0 ∈ [7, 0] by simp))
      cases this⟩

end Verif.Props
