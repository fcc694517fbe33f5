import Verif.Proofs.Classical
import Verif.Proofs.Rename
import Verif.Proofs.Calc2

/-! # Lines conditioned on a value -/

namespace Verif
open Classical RegOps CircuitBuilder Rooted

/-- negating with a mask makes exactly the mask's value all ones -/
theorem negMask_all (r : Reg) (hn : r.Nodup) (m : ℕ) (x : Asg) :
    (∀ c ∈ r, negMask r m x c = true) ↔ valQ r x = m % 2 ^ r.length := by
  constructor
  · intro h
    apply Nat.eq_of_testBit_eq
    intro i
    rw [testBit_valQ, Nat.testBit_mod_two_pow]
    by_cases hi : i < r.length
    · have := h r[i] (List.getElem_mem hi)
      unfold negMask at this
      rw [hn.idxOf_getElem] at this
      simp only [List.getElem_mem, true_and] at this
      simp only [hi, dif_pos, decide_true, Bool.true_and]
      cases hm : m.testBit i <;> simp_all
    · simp [hi]
  · intro h c hc
    have hi := List.idxOf_lt_length_of_mem hc
    have := congrArg (fun v => v.testBit (r.idxOf c)) h
    rw [testBit_valQ, Nat.testBit_mod_two_pow, dif_pos hi] at this
    simp only [List.getElem_idxOf, hi, decide_true, Bool.true_and] at this
    unfold negMask
    rw [← this]
    cases hx : x c <;> simp [hc]

/-- what happens on the qubits `R` does not depend on the qubits outside -/
theorem move_outside (R : Reg) (V : Asg → Wave) (φ : Asg → Asg) (hin : ∀ x, ∀ q ∈ R, φ x q = x q)
    (hφ : ∀ x y, (∀ q, q ∉ R → x q = y q) → ∀ q, q ∉ R → φ x q = φ y q) (x : Asg) :
    lift (fun y => ket (φ y)) (moveW R V x) = moveW R V (φ x) := by
  have hp : pull R (φ x) = pull R x := by
    funext i
    unfold pull
    by_cases h : i < R.length
    · rw [if_pos h, if_pos h]
      refine hin x _ ?_
      rw [List.getD_eq_getElem _ _ h]; exact List.getElem_mem h
    · rw [if_neg h, if_neg h]
  rw [moveW_eq, moveW_eq, hp, ← LinearMap.comp_apply]
  congr 1
  refine wave_ext fun y => ?_
  rw [LinearMap.comp_apply, embW_ket, embW_ket, lift_ket]
  congr 1
  funext q
  by_cases hq : q ∈ R
  · rw [hin _ q hq]; unfold emb; rw [if_pos hq, if_pos hq]
  · rw [emb_not_mem _ _ _ _ hq]
    exact hφ _ _ (fun p hp => emb_not_mem _ _ _ _ hp) q hq

section
variable {ang : Rot → ℝ} {β : Type} [Conditionable β] [Rooted β] [Sim β]

/-- the code of a line with a bit mask -/
theorem masked_does {cs : List Reg} {cr : Reg} (hc : cr ≠ []) (m : ℕ) {f : M (Conditioned β) (List Reg)} {a : List Reg} {R : Reg}
    {V : Asg → Wave} {L : List ℕ} (hR : ∀ q ∈ R, q ∉ cr ∧ q ∉ cs.flatten)
    (hf : ∀ s : Conditioned β, ctl s = some (cr :: cs) → Own (root s) ((cr :: cs).flatten ++ L) →
      Does ang f s a ((cr :: cs).flatten ++ L) (fun x => if ∀ c ∈ (cr :: cs).flatten, x c = true then moveW R V x else ket x))
    (s : β) (hs : ctl s = some cs) (ho : Own (root s) ((cr :: cs).flatten ++ L)) :
    Does ang (do
      let cr ← negateBitmask cr m
      let (rs, cr) ← Conditioned.conditioned cr f
      let cr ← negateBitmask cr m
      pure (cr :: rs) : M β _) s (cr :: a) ((cr :: cs).flatten ++ L)
      (fun x => if (∀ c ∈ cs.flatten, x c = true) ∧ valQ cr x = m % 2 ^ cr.length then moveW R V x else ket x) := by
  have hp : ((cr :: cs).flatten ++ L).Perm (cs.flatten ++ cr ++ L) := by
    rw [List.flatten_cons]
    exact List.perm_append_comm.append_right L
  have hn : cr.Nodup := (List.nodup_append.mp (List.nodup_append.mp (ho.perm hp).left).1).2.1
  have hd := disj cs.flatten cr L (root s) (ho.perm hp)
  have hneg : ∀ t : β, ctl t = some cs → Own (root t) ((cr :: cs).flatten ++ L) →
      Does ang (negateBitmask cr m) t cr ((cr :: cs).flatten ++ L) (fun x => ket (if ∀ c ∈ cs.flatten, x c = true then negMask cr m x else x)) :=
    fun t ht hot => Does.congr (U := fun x => ket (if ∀ c ∈ cs.flatten, x c = true then negMask cr m x else x))
      ((Maps.negateBitmask (ang := ang) cs cr hc m).does t L ht (hot.perm hp)) rfl hp.symm fun x _ => rfl
  have hmid : ∀ s1 : β, ctl s1 = ctl s → Own (root s1) ((cr :: cs).flatten ++ L) → Does ang (do
      let (rs, cr) ← Conditioned.conditioned cr f
      let cr ← negateBitmask cr m
      pure (cr :: rs) : M β _) s1 (cr :: a) ((cr :: cs).flatten ++ L) (fun x =>
        lift (fun x => ket (if ∀ c ∈ cs.flatten, x c = true then negMask cr m x else x))
          (if ∀ c ∈ (cr :: cs).flatten, x c = true then moveW R V x else ket x)) := by
    intro s1 hs1 ho1
    have hs1' := hs1.trans hs
    have h1 := Does.conditioned hs1' hc (hf ⟨s1, some cr⟩ (conditioned_ctl hs1' hc) ho1)
    refine Does.bind (f := fun p : List Reg × Reg => do
      let cr ← negateBitmask p.2 m
      pure (cr :: p.1)) h1 fun s2 hs2 ho2 => ?_
    refine (Does.bind (f := fun cr' => pure (cr' :: a)) (hneg s2 (hs2.trans hs1') ho2) fun s3 _ ho3 => Does.pure ho3 (cr :: a)).congrU fun x _ => ?_
    rw [lift_ket]
  refine (Does.bind (f := fun cr => do
      let (rs, cr) ← Conditioned.conditioned cr f
      let cr ← negateBitmask cr m
      pure (cr :: rs)) (hneg s hs ho) hmid).congrU ?_
  · intro x _
    rw [lift_ket]
    by_cases h1 : ∀ c ∈ cs.flatten, x c = true
    · have hfix : ∀ c ∈ cs.flatten, negMask cr m x c = x c := fun c hc' => Maps.negMask_keeps cr m x c (hd c hc')
      have h1' : ∀ c ∈ cs.flatten, negMask cr m x c = true := fun c hc' => by rw [hfix c hc']; exact h1 c hc'
      rw [if_pos h1]
      have hiff : (∀ c ∈ (cr :: cs).flatten, negMask cr m x c = true) ↔ valQ cr x = m % 2 ^ cr.length := by
        rw [← negMask_all cr hn m x, List.flatten_cons]
        constructor
        · intro h c hc'; exact h c (by simp [hc'])
        · intro h c hc'
          rcases List.mem_append.mp hc' with hc' | hc'
          · exact h c hc'
          · exact h1' c hc'
      by_cases h2 : valQ cr x = m % 2 ^ cr.length
      · rw [if_pos (hiff.mpr h2), if_pos ⟨h1, h2⟩, move_outside, if_pos h1', Maps.negMask_negMask]
        · intro y q hq
          split
          · exact Maps.negMask_keeps cr m y q (hR q hq).1
          · rfl
        · intro y z hyz q hq
          have hcond : (∀ c ∈ cs.flatten, y c = true) ↔ ∀ c ∈ cs.flatten, z c = true :=
            forall₂_congr fun c hc' => by rw [hyz c fun hcR => (hR c hcR).2 hc']
          by_cases hy : ∀ c ∈ cs.flatten, y c = true
          · rw [if_pos hy, if_pos (hcond.mp hy)]
            unfold negMask
            rw [hyz q hq]
          · rw [if_neg hy, if_neg fun h => hy (hcond.mpr h)]
            exact hyz q hq
      · rw [if_neg fun h => h2 (hiff.mp h), if_neg fun h => h2 h.2, lift_ket, if_pos h1', Maps.negMask_negMask]
    · have h2 : ¬ ∀ c ∈ (cr :: cs).flatten, x c = true :=
        fun h => h1 fun c hc' => h c (by rw [List.flatten_cons]; exact List.mem_append_right _ hc')
      have h3 : ¬ ((∀ c ∈ cs.flatten, x c = true) ∧ valQ cr x = m % 2 ^ cr.length) := fun h => h1 h.1
      rw [if_neg h3, if_neg h1, if_neg h2, lift_ket, if_neg h1]

end

end Verif
