import Verif.Proofs.Sim2
import Verif.Proofs.Calc3

/-! # A conditioned global phase -/

namespace Verif
open Classical Complex RegOps CircuitBuilder Rooted TempBuilder

/-- the circuit elements added by a conditioned global phase: a Toffoli onto a temporary, a rotation of half the angle
and an unconditioned global phase, and the Toffoli again -/
theorem condGP_circuit (cr r L : List ℕ) (s : LocalBuilder) (hc : cr ≠ []) (ho : Own s (cr ++ L)) (n : ℕ) (ρ : Rot) :
    ∃ s' seg seg' t ρ1 ρ2, LocalBuilder.tryCond cr r ⟨n, .unitary (.GlobalPhase ρ)⟩ s = .ok (cr, r) s' ∧ s.n ≤ s'.n ∧
      s'.pipeline = s.pipeline ++ seg ++ [([t], ⟨1, .unitary (.Rz ρ1)⟩), ([t], ⟨1, .unitary (.GlobalPhase ρ2)⟩)] ++ seg' ∧
      (∀ e ∈ seg ++ seg', SegOK s'.n e) ∧ t < s'.n ∧
      ∀ (ang : Rot → ℝ) (x : Asg), Clean s x → runW ang seg' (runW ang seg (ket x)) = ket x := by
  obtain ⟨t, s1, e1, o1, p1, n1, m1, k1⟩ := makeTemp_local ho
  have ht : t ∉ cr := by
    have := o1.left; simp at this; tauto
  have perm : (t :: (cr ++ L)).Perm (cr ++ [t] ++ L) := by
    rw [List.append_assoc]; exact List.perm_middle.symm
  obtain ⟨s2, e2, -, o2, v2⟩ := toffoli_does (fun _ => 0) cr [t] L s1 hc (by simp) (o1.perm perm)
  have o2' : Own s2 (cr ++ [t] ++ L) := o2
  let g : Reg → M LocalBuilder Reg := fun tq => match ρ with
      | .floating theta => do
        let tq ← LocalBuilder.rz tq (theta * (1 / 2))
        LocalBuilder.applyGlobalPhase tq (theta * (1 / 2))
      | .piRational q => do
        let tq ← LocalBuilder.rzRatio tq (q / 2)
        LocalBuilder.applyGlobalPhaseRatio tq (q / 2)
  obtain ⟨ρ1, ρ2, hg⟩ : ∃ ρ1 ρ2, Emits (g [t]) [t] ([([t], ⟨1, .unitary (.Rz ρ1)⟩)] ++ [([t], ⟨1, .unitary (.GlobalPhase ρ2)⟩)]) := by
    cases ρ with
    | floating θ => exact ⟨_, _, Emits.bind (rz_emits [t] _) (globalPhase_emits [t] _)⟩
    | piRational q =>
      exact ⟨_, .piRational (q / 2), Emits.bind (rzRatio_emits [t] _)
        (Emits.unwrap (applyCO_reg_emits [t] (.unitary (.GlobalPhase (.piRational (q / 2))))))⟩
  have e3 := hg s2
  generalize hp3 : s2.pipeline ++ ([([t], ⟨1, .unitary (.Rz ρ1)⟩)] ++ [([t], ⟨1, .unitary (.GlobalPhase ρ2)⟩)]) = p3 at e3
  have o3 : Own { s2 with pipeline := p3 } (cr ++ [t] ++ L) := o2'.pipe _
  obtain ⟨s4, e4, -, o4, v4⟩ := toffoli_does (fun _ => 0) cr [t] L { s2 with pipeline := p3 } hc (by simp) o3
  have o4' : Own s4 (cr ++ [t] ++ L) := o4
  obtain ⟨s5, e5, o5, p5, n5, m5, k5⟩ := returnTemp_local t (o4'.perm perm.symm)
  obtain ⟨seg, a1, a2, -⟩ := v2.seg
  obtain ⟨seg', b1, b2, -⟩ := v4.seg
  have n2 : s1.n ≤ s2.n := v2.n_le
  have n4 : s2.n ≤ s4.n := v4.n_le
  refine ⟨s5, seg, seg', t, ρ1, ρ2, ?_, ?_, ?_, ?_, ?_, ?_⟩
  · have e1' : (makeTempQubit : M LocalBuilder Reg) s = .ok [t] s1 := e1
    have e5' : (returnTemp [t] : M LocalBuilder Unit) s4 = .ok () s5 := e5
    unfold LocalBuilder.tryCond
    simp only
    rw [bind_ok e1', bind_ok e2]
    simp only
    cases ρ <;>
    · simp only
      rw [← bind_assoc, bind_ok (show g [t] s2 = .ok [t] { s2 with pipeline := p3 } from e3), bind_ok e4]
      simp only
      rw [bind_ok e5']
      rfl
  · rw [n5]; exact le_trans n1 (le_trans n2 n4)
  · rw [p5, show s4.pipeline = p3 ++ seg' from b1, ← hp3, show s2.pipeline = s1.pipeline ++ seg from a1, p1]
    simp
  · intro e he
    rcases List.mem_append.mp he with he | he
    · exact (a2 e he).1.mono (by rw [n5]; exact n4)
    · exact (b2 e he).1.mono (by rw [n5]; exact le_refl _)
  · rw [n5]
    exact o4'.mem_lt (by simp)
  · intro ang x hx
    obtain ⟨s2', e2', -, -, v2'⟩ := toffoli_does ang cr [t] L s1 hc (by simp) (o1.perm perm)
    obtain ⟨s4', e4', -, -, v4'⟩ := toffoli_does ang cr [t] L { s2 with pipeline := p3 } hc (by simp) o3
    obtain rfl : s2 = s2' := by have := e2.symm.trans e2'; injection this
    obtain rfl : s4 = s4' := by have := e4.symm.trans e4'; injection this
    obtain ⟨sg, c1, -, c3⟩ := v2'.seg
    obtain ⟨sg', d1, -, d3⟩ := v4'.seg
    obtain rfl : seg = sg := List.append_cancel_left (a1.symm.trans c1)
    obtain rfl : seg' = sg' := List.append_cancel_left (b1.symm.trans d1)
    obtain ⟨hx1, hxt⟩ := k1 x hx
    obtain ⟨c4, c5⟩ := c3 x hx1
    rw [c4, tofU_one]
    have hcl : Clean { s2 with pipeline := p3 } (if ∀ c ∈ cr, x c = true then flipQ t x else x) := by
      have := c5
      rw [tofU_one] at this
      exact this _ (by simp [ket])
    rw [(d3 _ hcl).1, tofU_one]
    by_cases h : ∀ c ∈ cr, x c = true
    · have h2 : ∀ c ∈ cr, flipQ t x c = true := by
        intro c hc'
        rw [flipQ_of_ne]
        · exact h c hc'
        · rintro rfl; exact ht hc'
      rw [if_pos h, if_pos h2, flipQ_flipQ]
    · rw [if_neg h, if_neg h]

/-- in a calculation, the global phase takes back the rotation before it -/
theorem condGP_calculate (b : LocalBuilder) (p seg seg' : Pipeline) (t : ℕ) (ρ1 ρ2 : Rot)
    (hb : b.pipeline = p ++ seg ++ [([t], ⟨1, .unitary (.Rz ρ1)⟩), ([t], ⟨1, .unitary (.GlobalPhase ρ2)⟩)] ++ seg')
    (hp : ∀ e ∈ p, SegOK b.n e) (hs : ∀ e ∈ seg ++ seg', SegOK b.n e) (ht : t < b.n)
    (it : List (Reg × ℕ)) (hi : ∀ p ∈ it, ∀ q ∈ p.1, q < b.n) (rnds : ℕ → ℝ) :
    ∃ v, b.calculateStateWithInit it rnds = some (v, []) ∧
      Rep b.n v (runW rotAngle seg' (runW rotAngle seg (runW rotAngle p (ket (initAsg it))))) := by
  obtain ⟨i, h2, h3, h1, -⟩ := calculate_eq b it hi rnds
  have r0 : Rep b.n (calcInit b.n i).state (ket (initAsg it)) := by
    rw [← h3]
    unfold calcInit
    rw [Nat.one_shiftLeft]
    exact rep_ket b.n i h2
  obtain ⟨st1, f1, g1, a1, m1⟩ := calcFold_unitary b.n rnds (p ++ seg) (by
    intro e he
    rcases List.mem_append.mp he with he | he
    · exact hp e he
    · exact hs e (by simp [he])) (calcInit b.n i) _ r0 (by unfold calcInit; simp [Nat.one_shiftLeft])
  have hrz : SegOK b.n ([t], ⟨1, .unitary (.Rz ρ1)⟩) :=
    ⟨⟨by simp, by simpa using ht, fun u hu => by cases hu; rfl⟩, rfl, _, rfl, by simp⟩
  obtain ⟨op, q1, q2⟩ := unitaryOp_ok [t] (.Rz ρ1) rfl (by simp)
  obtain ⟨w, w1, w2⟩ := applyOp_rep b.n [t] _ op q2 (by simp) (by simpa using ht) st1.state st1.arena _ g1 a1
  obtain ⟨st3, f3, g3, a3, m3⟩ := calcFold_unitary b.n rnds seg' (fun e he => hs e (by simp [he]))
    { state := st1.state, arena := w, measurements := st1.measurements } _ g1 w2.1
  refine ⟨st3.state, ?_, ?_⟩
  · have : st3.measurements = [] := by rw [m3]; exact m1
    rw [← this]
    refine calculate_of_fold b it rnds i h1 h2 st3 ?_
    rw [hb, calcFold_append, calcFold_append, f1, Option.bind_some, calcFold_cons]
    have e1 : calcStep b.n rnds st1 ([t], ⟨1, .unitary (.Rz ρ1)⟩) =
        some { state := w, arena := st1.state, measurements := st1.measurements } := by
      unfold calcStep
      simp only [q1, w1]
      rfl
    rw [e1, Option.bind_some, calcFold_cons]
    have e2 : calcStep b.n rnds { state := w, arena := st1.state, measurements := st1.measurements }
        ([t], ⟨1, .unitary (.GlobalPhase ρ2)⟩) =
        some { state := st1.state, arena := w, measurements := st1.measurements } := rfl
    rw [e2, Option.bind_some]
    exact f3
  · rw [runW_append] at g3
    exact g3

end Verif
