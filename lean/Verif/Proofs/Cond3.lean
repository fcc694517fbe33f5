import Verif.Proofs.Cond2

/-! # Conditioned phases and rotations -/

namespace Verif
open Classical Complex RegOps Rooted TempBuilder

variable {ang : Rot → ℝ}

theorem lift_ket_id : lift ket = LinearMap.id := wave_ext fun x => lift_ket _ _

/-- `S` and `T` on a register of several qubits: the phase is only applied if all its qubits are 1, and all but the last
qubit end up in the condition register -/
theorem condPhase_many {g : Reg → M LocalBuilder Reg} {u : UObj} {a : ℂ} (hu : uMat ang 1 u = mat2 1 0 0 a)
    (hs : u.Shape 1) (hgp : (∀ ρ, u ≠ .GlobalPhase ρ) ∧ ∀ d, u ≠ .MAT d) (he : ∀ t, Emits (g [t]) [t] (each [t] u)) (cr r : Reg) (q : ℕ)
    (L : List ℕ) (s : LocalBuilder) (hc : cr ≠ []) (ho : Own s (cr ++ (r ++ [q]) ++ L)) :
    Does ang (LocalBuilder.condPhase g cr (r ++ [q])) s (cr ++ r, [q]) (cr ++ (r ++ [q]) ++ L)
      (fun x => (if ∀ c ∈ cr ++ (r ++ [q]), x c = true then a else 1 : ℂ) • ket x) := by
  have hnd : ((cr ++ r) ++ [q]).Nodup := by
    have := (List.nodup_append.mp ho.left).1
    simpa using this
  have h1 := phaseTemp_does (ang := ang) (g := g) (φ := fun v => if v then a else 1) (K := cr ++ (r ++ [q])) (L := L) (s := s)
    (by simp) ho (fun t s1 o1 => diag_does (φ := fun v => if v then a else 1) hs hgp he (fun t x => by
      show gateW [t] (uMat ang 1 u) _ = _
      rw [hu, phase_ket]) o1)
  have h2 := Does.bind (f := fun cr => do
      let (cr, r) ← splitLast cr
      let r ← unwrapO r
      pure (cr, r)) (c := (cr ++ r, [q])) (L2 := cr ++ (r ++ [q]) ++ L) (V := ket) h1 (by
    intro s' _ o'
    rw [show cr ++ (r ++ [q]) = (cr ++ r) ++ [q] by simp, splitLast_eq (cr ++ r) q hnd (by simp [hc])]
    exact Does.pure (by simpa using o') _)
  refine Does.congrU (U := fun x => lift ket ((if decide (∀ c ∈ cr ++ (r ++ [q]), x c = true) then a else 1 : ℂ) • ket x)) ?_ ?_
  · unfold LocalBuilder.condPhase
    rw [LawfulReg.mergeTwo_eq _ _ (by simp)]
    simpa only [bind_assoc, pure_bind] using h2
  · intro x _
    rw [lift_ket_id, LinearMap.id_apply]
    simp only [decide_eq_true_eq]

/-- the angle a conditioned rotation uses -/
theorem condRz_does (cr r L : List ℕ) (s : LocalBuilder) (hc : cr ≠ []) (hr : r ≠ []) (ho : Own s (cr ++ r ++ L)) (n : ℕ)
    (ρ : Rot) : Does rotAngle (LocalBuilder.tryCond cr r ⟨n, .unitary (.Rz ρ)⟩) s (cr, r) (cr ++ r ++ L)
      (fun x => exp ((if ∀ c ∈ cr ++ r, x c = true then rotAngle ρ / 2 else -(rotAngle ρ / 2)) * I) • ket x) := by
  have hnd : (cr ++ r).Nodup := (List.nodup_append.mp ho.left).1
  let g : Reg → M LocalBuilder Reg := fun tq => match ρ with
      | .floating theta => LocalBuilder.rz tq theta
      | .piRational q => LocalBuilder.rzRatio tq q
  have hg : ∀ t s1, Own s1 (t :: (cr ++ r ++ L)) → Does rotAngle (g [t]) s1 [t] (t :: (cr ++ r ++ L)) fun x =>
      exp ((if x t then rotAngle ρ / 2 else -(rotAngle ρ / 2)) * I) • ket x := by
    intro t s1 o1
    have em : Emits (g [t]) [t] [([t], ⟨1, .unitary (.Rz (.floating (rotAngle ρ)))⟩)] := by
      cases ρ with
      | floating θ => exact rz_emits [t] θ
      | piRational q => exact rzRatio_emits [t] q
    refine (em.does rotAngle o1 (segOK_one o1 [t] (by simp) (by simp) (.Rz _) rfl (by simp) 1 rfl)).congrU fun x _ => ?_
    show gateW [t] (rzMat (rotAngle (.floating (rotAngle ρ)))) (ket x) = _
    rw [show rotAngle (.floating (rotAngle ρ)) = rotAngle ρ from rfl]
    unfold rzMat
    rw [gate1_ket, (mat2_toNat _ _ _ _ _).1, (mat2_toNat _ _ _ _ _).2]
    cases h : x t
    · simp [setQ_self t x false h]
    · simp [setQ_self t x true h]
  have h1 := phaseTemp_does (ang := rotAngle) (g := g)
    (φ := fun v => exp ((if v then rotAngle ρ / 2 else -(rotAngle ρ / 2)) * I)) (K := cr ++ r) (L := L) (s := s)
    (by simp [hc]) ho hg
  have h2 := Does.bind (f := fun K => do
      match ← RegOps.splitRel K (List.range cr.length) with
      | .split cr r => pure (cr, r)
      | .selected _ => throw .panic
      | .unselected _ => throw .panic) (c := (cr, r)) (L2 := cr ++ r ++ L) (V := ket) h1 (by
    intro s' _ o'
    rw [LawfulReg.splitRel_eq, splitE_prefix cr r hnd hc hr]
    exact Does.pure o' _)
  refine Does.congrU ?_ ?_ (U := fun x => lift ket (exp ((if decide (∀ c ∈ cr ++ r, x c = true) then
    rotAngle ρ / 2 else -(rotAngle ρ / 2)) * I) • ket x))
  · unfold LocalBuilder.tryCond
    simp only
    rw [LawfulReg.mergeTwo_eq _ _ (by simp [hc])]
    cases ρ <;> (simp only [bind_assoc, pure_bind] at h2 ⊢; exact h2)
  · intro x _
    rw [lift_ket_id, LinearMap.id_apply]
    simp only [decide_eq_true_eq]

end Verif
