import Verif.Model.Cond
import Verif.Spec.Cond
import Verif.Proofs.Gates2
import Verif.Proofs.Toffoli
import Verif.Proofs.Grow

/-! # Conditioned gates of `LocalBuilder` -/

namespace Verif
open Classical Complex RegOps Rooted TempBuilder

variable {ang : Rot → ℝ}

theorem lift_smul (U : Asg → Wave) (c : ℂ) (ψ : Wave) : lift U (c • ψ) = c • lift U ψ := map_smul _ _ _
theorem lift_add (U : Asg → Wave) (φ ψ : Wave) : lift U (φ + ψ) = lift U φ + lift U ψ := map_add _ _ _

/-- a linear map as the extension of its values on basis states -/
theorem lift_linear (A : Wave →ₗ[ℂ] Wave) : lift (fun x => A (ket x)) = A := wave_ext fun _ => lift_ket _ _

/-- use of a temporary qubit: whatever qubit `t` is handed out, `f` leaves it 0 -/
theorem temp_does {γ : Type} {f : Reg → M LocalBuilder (γ × Reg)} {s : LocalBuilder} {L L' : List ℕ} {a : γ}
    {U : Asg → Wave} (ho : Own s L)
    (h : ∀ t s1, Own s1 (t :: L) → ∃ V, Does ang (f [t]) s1 (a, [t]) (t :: L') V ∧
      ∀ x, x t = false → V x = U x ∧ On {y | y t = false} (U x)) :
    Does ang (do let t ← makeTempQubit; let p ← f t; returnTemp p.2; pure p.1) s a L' U := by
  obtain ⟨t, s1, e1, o1, p1, n1, m1, k1⟩ := makeTemp_local ho
  have v1 : Evolves ang s s1 ket := ⟨n1, m1, [], by rw [p1]; simp, by simp, fun x hx =>
    ⟨rfl, on_iff.mp (On.ket (S := {y | Clean s1 y}) (k1 x hx).1)⟩⟩
  obtain ⟨V, ⟨s2, e2, -, o2, v2⟩, hV⟩ := h t s1 o1
  obtain ⟨s3, e3, o3, p3, n3, m3, k3⟩ := returnTemp_local t o2
  have v12 : Evolves ang s s2 U := (v1.trans v2).congr fun x hx => by
    rw [lift_ket]; exact (hV x (k1 x hx).2).1
  refine ⟨s3, ?_, rfl, o3, ?_⟩
  · have e1' : (makeTempQubit : M LocalBuilder Reg) s = .ok [t] s1 := e1
    have e3' : (returnTemp [t] : M LocalBuilder Unit) s2 = .ok () s3 := e3
    rw [bind_ok e1', bind_ok e2, bind_ok e3']
    rfl
  · obtain ⟨seg, q1, q2, q3⟩ := v12.seg
    refine ⟨by rw [show (root s3).n = s2.n from n3]; exact v12.n_le, m3.trans v12.meas, seg, p3.trans q1, ?_, ?_⟩
    · intro e he; exact (q2 e he).mono (le_of_eq n3.symm)
    · intro x hx
      obtain ⟨w1, w2⟩ := q3 x hx
      exact ⟨w1, fun y hy => k3 y (w2 y hy) (on_iff.mp (hV x (k1 x hx).2).2 y hy)⟩

/-- a diagonal gate on a temporary that holds the conjunction of the controls `K` -/
theorem phaseTemp_does {g : Reg → M LocalBuilder Reg} {φ : Bool → ℂ} {K L : List ℕ} {s : LocalBuilder} (hK : K ≠ [])
    (ho : Own s (K ++ L))
    (hg : ∀ t s1, Own s1 (t :: (K ++ L)) → Does ang (g [t]) s1 [t] (t :: (K ++ L)) fun x => φ (x t) • ket x) :
    Does ang (do
      let tq ← makeTempQubit
      let (cr, tq) ← toffoli K tq
      let tq ← g tq
      let (cr, tq) ← toffoli cr tq
      returnTemp tq
      pure cr) s K (K ++ L) fun x => φ (decide (∀ c ∈ K, x c = true)) • ket x := by
  have := temp_does (ang := ang) (s := s) (L := K ++ L) (L' := K ++ L) (a := K) (f := fun tq => do
      let (cr, tq) ← toffoli K tq
      let tq ← g tq
      toffoli cr tq) (U := fun x => φ (decide (∀ c ∈ K, x c = true)) • ket x) ho ?_
  · simpa only [bind_assoc, pure_bind] using this
  · intro t s1 o1
    have ht : t ∉ K := by
      have := o1.left; simp at this; tauto
    have perm : (t :: (K ++ L)).Perm (K ++ [t] ++ L) := by
      rw [List.append_assoc]; exact List.perm_middle.symm
    refine ⟨_, Does.bind ((toffoli_does ang K [t] L s1 hK (by simp) (o1.perm perm))) fun s2 _ o2 =>
      Does.bind (hg t s2 (o2.perm perm.symm)) fun s3 _ o3 => (toffoli_does ang K [t] L s3 hK (by simp) (o3.perm perm)).congr
        rfl perm.symm (fun _ _ => rfl), ?_⟩
    intro x hx
    refine ⟨?_, (On.ket hx).smul _⟩
    rw [tofU_one, lift_ket]
    simp only [lift_smul, lift_ket]
    rw [tofU_one]
    by_cases h : ∀ c ∈ K, x c = true
    · have h2 : ∀ c ∈ K, flipQ t x c = true := by
        intro c hc
        rw [flipQ_of_ne]
        · exact h c hc
        · rintro rfl; exact ht hc
      rw [if_pos h, if_pos h2, flipQ_self, hx, flipQ_flipQ, decide_eq_true h]
      rfl
    · rw [if_neg h, if_neg h, hx, decide_eq_false h]

/-- a diagonal gate on one qubit -/
theorem diag_does {g : Reg → M LocalBuilder Reg} {u : UObj} {φ : Bool → ℂ} (hs : u.Shape 1) (hgp : (∀ ρ, u ≠ .GlobalPhase ρ) ∧ ∀ d, u ≠ .MAT d)
    (he : ∀ t, Emits (g [t]) [t] (each [t] u)) (hd : ∀ t x, u1 ang t u (ket x) = φ (x t) • ket x) {t : ℕ} {L : List ℕ}
    {s : LocalBuilder} (ho : Own s (t :: L)) : Does ang (g [t]) s [t] (t :: L) fun x => φ (x t) • ket x := by
  refine ((he t).does ang ho (segOK_each ho [t] (by simp) u hs hgp)).congrU fun x _ => ?_
  rw [each_single]
  exact hd t x

theorem condPhase_does {g : Reg → M LocalBuilder Reg} {u : UObj} {a : ℂ} (hu : uMat ang 1 u = mat2 1 0 0 a)
    (hs : u.Shape 1) (hgp : (∀ ρ, u ≠ .GlobalPhase ρ) ∧ ∀ d, u ≠ .MAT d) (he : ∀ t, Emits (g [t]) [t] (each [t] u)) (cr : Reg) (q : ℕ)
    (L : List ℕ) (s : LocalBuilder) (hc : cr ≠ []) (ho : Own s (cr ++ [q] ++ L)) :
    Does ang (LocalBuilder.condPhase g cr [q]) s (cr, [q]) (cr ++ [q] ++ L) (ctlW cr (u1 ang q u)) := by
  have hnd : (cr ++ [q]).Nodup := (List.nodup_append.mp ho.left).1
  have h1 := phaseTemp_does (ang := ang) (g := g) (φ := fun v => if v then a else 1) (K := cr ++ [q]) (L := L) (s := s)
    (by simp) ho (fun t s1 o1 => diag_does (φ := fun v => if v then a else 1) hs hgp he (fun t x => by
      show gateW [t] (uMat ang 1 u) _ = _
      rw [hu, phase_ket]) o1)
  have h2 := Does.bind (f := fun cr => do
      let (cr, r) ← splitLast cr
      let r ← unwrapO r
      pure (cr, r)) (c := (cr, [q])) (L2 := cr ++ [q] ++ L) (V := ket) h1 (by
    intro s' _ o'
    rw [splitLast_eq cr q hnd hc]
    exact Does.pure o' _)
  refine Does.congrU ?_ ?_ (U := fun x => lift ket ((if decide (∀ c ∈ cr ++ [q], x c = true) then a else 1 : ℂ) • ket x))
  · unfold LocalBuilder.condPhase
    rw [LawfulReg.mergeTwo_eq _ _ (by simp)]
    simpa only [bind_assoc, pure_bind] using h2
  · intro x _
    rw [lift_smul, lift_ket]
    unfold ctlW
    rw [show u1 ang q u (ket x) = _ from (congrArg (fun m => gateW [q] m (ket x)) hu).trans (phase_ket q a x)]
    by_cases h : ∀ c ∈ cr, x c = true
    · rw [if_pos h]
      congr 1
      by_cases hq : x q = true
      · rw [if_pos, if_pos hq]
        simp only [List.mem_append, List.mem_singleton, decide_eq_true_eq]
        rintro c (hc | rfl)
        · exact h c hc
        · exact hq
      · rw [if_neg, if_neg hq]
        simp only [List.mem_append, List.mem_singleton, decide_eq_true_eq]
        intro hh; exact hq (hh q (Or.inr rfl))
    · rw [if_neg h, if_neg, one_smul]
      simp only [List.mem_append, List.mem_singleton, decide_eq_true_eq]
      intro hh; exact h fun c hc => hh c (Or.inl hc)

end Verif
