import Verif.Proofs.Does

/-! # `toffoli` with any number of controls -/

namespace Verif
open Classical Complex RegOps Rooted

variable (ang : Rot → ℝ)

/-- the scalar by which `toffoli` multiplies the flipped states -/
noncomputable def tofPhase (nc nt : ℕ) : ℂ := if nc = 1 then 1 else (-I) ^ (nt - 1)

/-- the action of `toffoli` on basis states -/
noncomputable def tofU (cr r : List ℕ) (x : Asg) : Wave :=
  if ∀ c ∈ cr, x c = true then tofPhase cr.length r.length • ket (flipAll r x) else ket x

theorem tofU_one (cr : List ℕ) (t : ℕ) (x : Asg) :
    tofU cr [t] x = ket (if ∀ c ∈ cr, x c = true then flipQ t x else x) := by
  unfold tofU tofPhase
  split <;> simp [flipAll_single]

theorem toffoliF_does (k : ℕ) : ∀ (cr r L : List ℕ) (s : LocalBuilder), cr.length ≤ k → cr ≠ [] → r ≠ [] →
    Own s (cr ++ r ++ L) → Does ang (toffoliF (β := LocalBuilder) (k + 1) cr r) s (cr, r) (cr ++ r ++ L) (tofU cr r) := by
  induction k with
  | zero => intro cr r L s h hne; exact absurd (List.length_eq_zero_iff.mp (Nat.le_zero.mp h)) hne
  | succ k ih =>
    intro cr r L s hk hcr hr ho
    have hnd : (cr ++ r).Nodup := (List.nodup_append.mp ho.left).1
    match cr, hcr with
    | [c], _ =>
      rw [toffoliF, if_pos (by rfl)]
      refine ((cnot_emits c r hr hnd).does ang ho (segOK_cnots ho c r (List.nodup_cons.mp hnd).1 ?_)).congrU ?_
      · intro q hq; simp at hq ⊢; tauto
      · intro x _
        rw [cnots_ket ang c r hnd]
        unfold tofU tofPhase
        cases h : x c <;> simp [h]
    | [a, b], _ =>
      rw [toffoliF, if_neg (by simp), if_pos (by rfl)]
      refine ((basicToffoli_emits a b r hr hnd).does ang ho (segOK_toffoli ho a b r hnd ?_)).congrU ?_
      · intro q hq; simp at hq ⊢; tauto
      · intro x _
        rw [basicToffoli_ket ang a b r hr hnd]
        unfold tofU tofPhase
        cases h : x a <;> cases h' : x b <;> simp [h, h']
    | a :: b :: c :: cs, _ =>
      rw [toffoliF, if_neg (by simp), if_neg (by simp), LawfulReg.splitRel_eq]
      have hsp : splitE (a :: b :: c :: cs) [0, 1] = .ok (.split [a, b] (c :: cs)) :=
        splitE_prefix [a, b] (c :: cs) (List.nodup_append.mp hnd).1 (by simp) (by simp)
      rw [hsp]
      simp only [liftE_ok, pure_bind]
      obtain ⟨t, s1, e1, o1, p1, n1, m1, k1⟩ := makeTemp_local ho
      have v1 : Evolves ang s s1 ket := ⟨n1, m1, [], by rw [p1]; simp, by simp, fun x hx =>
        ⟨rfl, on_iff.mp (On.ket (S := {y | Clean s1 y}) (k1 x hx).1)⟩⟩
      -- first Toffoli, onto the temporary
      have perm1 : (t :: (a :: b :: c :: cs ++ r ++ L)).Perm ([a, b] ++ [t] ++ (c :: cs ++ r ++ L)) := by
        simp only [List.cons_append, List.nil_append]
        exact (List.Perm.swap a t _).trans (List.Perm.cons a (List.Perm.swap b t _))
      obtain ⟨s2, e2, -, o2, v2⟩ := ih [a, b] [t] (c :: cs ++ r ++ L) s1
        (by simp at hk ⊢; omega) (by simp) (by simp) (o1.perm perm1)
      -- second one, with the temporary as a control
      have perm2 : ([a, b] ++ [t] ++ (c :: cs ++ r ++ L)).Perm (((c :: cs) ++ [t]) ++ r ++ ([a, b] ++ L)) := by
        have q1 : ([a, b] ++ [t] ++ (c :: cs ++ r ++ L)).Perm ((c :: cs ++ r ++ L) ++ ([a, b] ++ [t])) :=
          List.perm_append_comm
        refine q1.trans ?_
        simp only [List.append_assoc]
        apply List.Perm.append_left
        -- r ++ (L ++ ([a,b] ++ [t])) ~ [t] ++ (r ++ ([a,b] ++ L))
        have q2 : (r ++ (L ++ ([a, b] ++ [t]))).Perm ((r ++ (L ++ [a, b])) ++ [t]) := by
          simp
        refine q2.trans (List.perm_append_comm.trans ?_)
        apply List.Perm.append_left
        apply List.Perm.append_left
        exact List.perm_append_comm
      obtain ⟨s3, e3, -, o3, v3⟩ := ih ((c :: cs) ++ [t]) r ([a, b] ++ L) s2
        (by simp at hk ⊢; omega) (by simp) hr (o2.perm perm2)
      obtain ⟨s4, e4, -, o4, v4⟩ := ih [a, b] [t] (c :: cs ++ r ++ L) s3
        (by simp at hk ⊢; omega) (by simp) (by simp) (o3.perm perm2.symm)
      obtain ⟨s5, e5, o5, p5, n5, m5, k5⟩ := returnTemp_local t (o4.perm perm1.symm)
      have hctn : ((c :: cs) ++ [t]).Nodup := by
        have := (o2.perm perm2).left
        exact (List.nodup_append.mp (List.nodup_append.mp this).1).1
      have hnd1 : (t :: (a :: b :: c :: cs ++ r ++ L)).Nodup := o1.left
      have hta : t ≠ a ∧ t ≠ b := by simp at hnd1; tauto
      have htc : t ∉ c :: cs := by simp at hnd1 ⊢; tauto
      have htr : t ∉ r := by simp at hnd1 ⊢; tauto
      have har : a ∉ r := by simp at hnd1; tauto
      have hbr : b ∉ r := by simp at hnd1; tauto
      -- the state just before the temporary is returned
      have v14 := ((v1.trans v2).trans v3).trans v4
      have htot : ∀ x, Clean s x →
          lift (tofU [a, b] [t]) (lift (tofU ((c :: cs) ++ [t]) r) (lift (tofU [a, b] [t]) (ket x))) =
            tofU (a :: b :: c :: cs) r x := by
        intro x hx
        have ht0 := (k1 x hx).2
        rw [lift_ket, tofU_one, lift_ket]
        by_cases hab : x a = true ∧ x b = true
        · have h1 : ∀ c ∈ [a, b], x c = true := by simp [hab]
          rw [if_pos h1]
          have h2 : (∀ d ∈ (c :: cs) ++ [t], flipQ t x d = true) ↔ ∀ d ∈ a :: b :: c :: cs, x d = true := by
            constructor
            · intro h d hd
              simp only [List.mem_cons] at hd
              rcases hd with rfl | rfl | hd
              · exact hab.1
              · exact hab.2
              · have hd' : d ∈ c :: cs := by simpa using hd
                have := h d (by simp at hd' ⊢; tauto)
                rwa [flipQ_of_ne] at this
                rintro rfl; exact htc hd'
            · intro h d hd
              rcases List.mem_append.mp hd with hd1 | hd1
              · rw [flipQ_of_ne]
                · exact h d (by simp at hd1 ⊢; tauto)
                · rintro rfl; exact htc hd1
              · simp at hd1; subst hd1; rw [flipQ_self, ht0]; rfl
          have h3 : ∀ y : Asg, y a = x a → y b = x b → lift (tofU [a, b] [t]) (ket y) = ket (flipQ t y) := by
            intro y ya yb
            rw [lift_ket, tofU_one, if_pos]
            intro d hd
            simp at hd
            rcases hd with rfl | rfl
            · rw [ya]; exact hab.1
            · rw [yb]; exact hab.2
          by_cases hall : ∀ d ∈ a :: b :: c :: cs, x d = true
          · rw [show tofU ((c :: cs) ++ [t]) r (flipQ t x) = _ from if_pos (h2.mpr hall),
              show tofU (a :: b :: c :: cs) r x = _ from if_pos hall, map_smul, h3]
            · have : flipQ t (flipAll r (flipQ t x)) = flipAll r x := by
                funext p
                by_cases hp : p = t
                · subst hp; simp [flipQ, flipAll, htr]
                · simp [flipQ, flipAll, hp]
              rw [this]
              unfold tofPhase
              simp
            · rw [flipAll_not_mem _ _ _ har, flipQ_of_ne _ _ (Ne.symm hta.1)]
            · rw [flipAll_not_mem _ _ _ hbr, flipQ_of_ne _ _ (Ne.symm hta.2)]
          · rw [show tofU ((c :: cs) ++ [t]) r (flipQ t x) = _ from if_neg (fun h => hall (h2.mp h)),
              show tofU (a :: b :: c :: cs) r x = _ from if_neg hall]
            have := h3 (flipQ t x) (flipQ_of_ne _ _ (Ne.symm hta.1) _) (flipQ_of_ne _ _ (Ne.symm hta.2) _)
            rw [flipQ_flipQ] at this
            exact this
        · have h1 : ¬ ∀ c ∈ [a, b], x c = true := by simpa using hab
          rw [if_neg h1]
          have h2 : ¬ ∀ d ∈ (c :: cs) ++ [t], x d = true := by
            intro h
            have := h t (by simp)
            rw [ht0] at this; exact absurd this (by simp)
          have h3 : ¬ ∀ d ∈ a :: b :: c :: cs, x d = true := by
            intro h; exact hab ⟨h a (by simp), h b (by simp)⟩
          rw [show tofU ((c :: cs) ++ [t]) r x = _ from if_neg h2,
            show tofU (a :: b :: c :: cs) r x = _ from if_neg h3, lift_ket, tofU_one, if_neg h1]
      have v14' : Evolves ang s s4 (tofU (a :: b :: c :: cs) r) := v14.congr htot
      have v15 : Evolves ang s s5 (tofU (a :: b :: c :: cs) r) := by
        obtain ⟨seg, q1, q2, q3⟩ := v14'.seg
        refine ⟨by rw [n5]; exact v14'.n_le, m5.trans v14'.meas, seg, p5.trans q1, ?_, ?_⟩
        · intro e he; exact (q2 e he).mono (le_of_eq n5.symm)
        · intro x hx
          obtain ⟨w1, w2⟩ := q3 x hx
          refine ⟨w1, ?_⟩
          intro y hy
          refine k5 y (w2 y hy) ?_
          -- the temporary is 0 in every state reached
          have hx0 := (k1 x hx).2
          have : On {y | y t = false} (tofU (a :: b :: c :: cs) r x) := by
            unfold tofU
            split
            · exact (On.ket (by show flipAll r x t = false; rw [flipAll_not_mem _ _ _ htr]; exact hx0)).smul _
            · exact On.ket hx0
          exact on_iff.mp this y hy
      refine ⟨s5, ?_, rfl, o5, v15⟩
      have e1' : (TempBuilder.makeTempQubit : M LocalBuilder Reg) s = .ok [t] s1 := e1
      have e5' : (TempBuilder.returnTemp [t] : M LocalBuilder Unit) s4 = .ok () s5 := e5
      rw [bind_ok e1', bind_ok (unwrapM_ok e2)]
      simp only
      rw [LawfulReg.mergeTwo_eq _ _ (by simp), pure_bind, bind_ok (unwrapM_ok e3)]
      simp only
      rw [splitLast_eq (c :: cs) t hctn (by simp)]
      simp only [pure_bind, unwrapO_some]
      rw [bind_ok (unwrapM_ok e4)]
      simp only
      rw [bind_ok e5', LawfulReg.mergeTwo_eq _ _ (by simp)]
      rfl

theorem toffoli_does (cr r L : List ℕ) (s : LocalBuilder) (hcr : cr ≠ []) (hr : r ≠ []) (ho : Own s (cr ++ r ++ L)) :
    Does ang (toffoli (β := LocalBuilder) cr r) s (cr, r) (cr ++ r ++ L) (tofU cr r) :=
  toffoliF_does ang cr.length cr r L s (le_refl _) hcr hr ho

end Verif
