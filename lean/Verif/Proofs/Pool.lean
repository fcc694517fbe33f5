import Verif.Proofs.Gates2

/-! # The pool of temporaries -/

namespace Verif
open Classical RegOps

/-- nothing is lost: pool qubits and newly allocated qubits are in the pool afterwards -/
def Kept (s s' : LocalBuilder) : Prop :=
  ∀ q, q ∈ s.zeroedQubits.flatten ∨ (s.n ≤ q ∧ q < s'.n) → q ∈ s'.zeroedQubits.flatten

theorem Kept.trans {s s1 s2 : LocalBuilder} (h : Kept s s1) (h' : Kept s1 s2) : Kept s s2 := by
  intro q hq
  rcases hq with hq | hq
  · exact h' q (Or.inl (h q (Or.inl hq)))
  · by_cases hn : q < s1.n
    · exact h' q (Or.inl (h q (Or.inr ⟨hq.1, hn⟩)))
    · exact h' q (Or.inr ⟨by omega, hq.2⟩)

theorem Kept.pipe (s : LocalBuilder) (p : Pipeline) : Kept s { s with pipeline := p } := by
  intro q hq
  rcases hq with hq | hq
  · exact hq
  · simp at hq; omega

theorem makeTemp_kept {s s' : LocalBuilder} {t : ℕ} (h : LocalBuilder.makeTempQubit s = .ok [t] s') (q : ℕ)
    (hq : q ∈ s.zeroedQubits.flatten ∨ (s.n ≤ q ∧ q < s'.n)) : q = t ∨ q ∈ s'.zeroedQubits.flatten := by
  unfold LocalBuilder.makeTempQubit at h
  rw [bind_ok (get_run s)] at h
  rcases List.eq_nil_or_concat s.zeroedQubits with hz | ⟨pool, r, hz⟩
  · rw [show s.zeroedQubits.getLast? = none by rw [hz]; rfl] at h
    have hq' : (qubit : M LocalBuilder Reg) s = .ok [s.n] { s with n := s.n + 1 } := rfl
    simp only at h
    rw [hq'] at h
    cases h
    rw [hz] at hq
    simp at hq
    left; omega
  · rw [List.concat_eq_append] at hz
    rw [hz] at h
    simp only [List.getLast?_append, List.getLast?_singleton, Option.some_or, List.dropLast_concat] at h
    cases h
    rw [hz] at hq
    simp only [List.flatten_append, List.flatten_cons, List.flatten_nil, List.append_nil, List.mem_append,
      List.mem_singleton] at hq
    rcases hq with (hq | hq) | hq
    · exact Or.inr hq
    · exact Or.inl hq
    · exact absurd hq.2 (by have := hq.1; exact Nat.not_lt.mpr this)

theorem toffoliF_kept (k : ℕ) : ∀ (cr r L : List ℕ) (s s' : LocalBuilder), cr.length ≤ k → cr ≠ [] → r ≠ [] →
    Own s (cr ++ r ++ L) → toffoliF (β := LocalBuilder) (k + 1) cr r s = .ok (cr, r) s' → Kept s s' := by
  induction k with
  | zero => intro cr r L s s' h hne; exact absurd (List.length_eq_zero_iff.mp (Nat.le_zero.mp h)) hne
  | succ k ih =>
    intro cr r L s s' hk hcr hr ho hrun
    have hnd : (cr ++ r).Nodup := (List.nodup_append.mp ho.left).1
    match cr, hcr with
    | [c], _ =>
      rw [toffoliF, if_pos (by rfl), cnot_emits c r hr hnd s] at hrun
      cases hrun
      exact Kept.pipe _ _
    | [a, b], _ =>
      rw [toffoliF, if_neg (by simp), if_pos (by rfl), basicToffoli_emits a b r hr hnd s] at hrun
      cases hrun
      exact Kept.pipe _ _
    | a :: b :: c :: cs, _ =>
      rw [toffoliF, if_neg (by simp), if_neg (by simp), LawfulReg.splitRel_eq] at hrun
      have hsp : splitE (a :: b :: c :: cs) [0, 1] = .ok (.split [a, b] (c :: cs)) :=
        splitE_prefix [a, b] (c :: cs) (List.nodup_append.mp hnd).1 (by simp) (by simp)
      rw [hsp] at hrun
      simp only [liftE_ok, pure_bind] at hrun
      obtain ⟨t, s1, e1, o1, p1, n1, m1, k1⟩ := makeTemp_local ho
      have perm1 : (t :: (a :: b :: c :: cs ++ r ++ L)).Perm ([a, b] ++ [t] ++ (c :: cs ++ r ++ L)) := by
        simp only [List.cons_append, List.nil_append]
        exact (List.Perm.swap a t _).trans (List.Perm.cons a (List.Perm.swap b t _))
      obtain ⟨s2, e2, -, o2, v2⟩ := toffoliF_does (fun _ => 0) k [a, b] [t] (c :: cs ++ r ++ L) s1
        (by simp at hk ⊢; omega) (by simp) (by simp) (o1.perm perm1)
      have perm2 : ([a, b] ++ [t] ++ (c :: cs ++ r ++ L)).Perm (((c :: cs) ++ [t]) ++ r ++ ([a, b] ++ L)) := by
        have q1 : ([a, b] ++ [t] ++ (c :: cs ++ r ++ L)).Perm ((c :: cs ++ r ++ L) ++ ([a, b] ++ [t])) :=
          List.perm_append_comm
        refine q1.trans ?_
        simp only [List.append_assoc]
        apply List.Perm.append_left
        have q2 : (r ++ (L ++ ([a, b] ++ [t]))).Perm ((r ++ (L ++ [a, b])) ++ [t]) := by
          simp
        refine q2.trans (List.perm_append_comm.trans ?_)
        apply List.Perm.append_left
        apply List.Perm.append_left
        exact List.perm_append_comm
      obtain ⟨s3, e3, -, o3, v3⟩ := toffoliF_does (fun _ => 0) k ((c :: cs) ++ [t]) r ([a, b] ++ L) s2
        (by simp at hk ⊢; omega) (by simp) hr (o2.perm perm2)
      obtain ⟨s4, e4, -, o4, v4⟩ := toffoliF_does (fun _ => 0) k [a, b] [t] (c :: cs ++ r ++ L) s3
        (by simp at hk ⊢; omega) (by simp) (by simp) (o3.perm perm2.symm)
      have k2 := ih [a, b] [t] _ s1 s2 (by simp at hk ⊢; omega) (by simp) (by simp) (o1.perm perm1) e2
      have k3 := ih ((c :: cs) ++ [t]) r _ s2 s3 (by simp at hk ⊢; omega) (by simp) hr (o2.perm perm2) e3
      have k4 := ih [a, b] [t] _ s3 s4 (by simp at hk ⊢; omega) (by simp) (by simp) (o3.perm perm2.symm) e4
      have hctn : ((c :: cs) ++ [t]).Nodup := by
        have := (o2.perm perm2).left
        exact (List.nodup_append.mp (List.nodup_append.mp this).1).1
      have e5 : LocalBuilder.returnTemp [t] s4 = .ok () { s4 with zeroedQubits := s4.zeroedQubits ++ [[t]] } := by
        unfold LocalBuilder.returnTemp
        rw [splitAll_eq [t] (by simp) (by simp)]
        rfl
      have e1' : (TempBuilder.makeTempQubit : M LocalBuilder Reg) s = .ok [t] s1 := e1
      have e5' : (TempBuilder.returnTemp [t] : M LocalBuilder Unit) s4 = _ := e5
      rw [bind_ok e1', bind_ok (unwrapM_ok e2)] at hrun
      simp only at hrun
      rw [LawfulReg.mergeTwo_eq _ _ (by simp), pure_bind, bind_ok (unwrapM_ok e3)] at hrun
      simp only at hrun
      rw [splitLast_eq (c :: cs) t hctn (by simp)] at hrun
      simp only [pure_bind, unwrapO_some] at hrun
      rw [bind_ok (unwrapM_ok e4)] at hrun
      simp only at hrun
      rw [bind_ok e5', LawfulReg.mergeTwo_eq _ _ (by simp)] at hrun
      cases hrun
      have kk := (k2.trans k3).trans k4
      intro q hq
      simp only [List.flatten_append, List.flatten_cons, List.flatten_nil, List.append_nil, List.mem_append,
        List.mem_singleton]
      have key : q = t ∨ q ∈ s4.zeroedQubits.flatten := by
        rcases hq with hq | hq
        · rcases makeTemp_kept e1 q (Or.inl hq) with h | h
          · exact Or.inl h
          · exact Or.inr (kk q (Or.inl h))
        · by_cases hn : q < s1.n
          · rcases makeTemp_kept e1 q (Or.inr ⟨hq.1, hn⟩) with h | h
            · exact Or.inl h
            · exact Or.inr (kk q (Or.inl h))
          · exact Or.inr (kk q (Or.inr ⟨by omega, hq.2⟩))
      tauto

/-- all qubits a caller could hold -/
theorem own_all {s : LocalBuilder} {L : List ℕ} (h : Own s L) :
    ∃ M, Own s (L ++ M) ∧ ∀ q < s.n, q ∈ L ++ M ∨ q ∈ s.zeroedQubits.flatten := by
  refine ⟨(List.range s.n).filter fun q => decide (q ∉ L ∧ q ∉ s.zeroedQubits.flatten), ⟨h.pool, ?_, ?_⟩, ?_⟩
  · rw [List.append_assoc, List.nodup_append]
    refine ⟨h.left, ?_, ?_⟩
    · rw [List.nodup_append]
      refine ⟨List.nodup_range.filter _, (List.nodup_append.mp h.nodup).2.1, ?_⟩
      intro a ha b hb hab
      subst hab
      simp at ha
      simp at hb
      obtain ⟨l, hl, hal⟩ := hb
      exact ha.2.2 l hl hal
    · intro a ha b hb hab
      subst hab
      rcases List.mem_append.mp hb with hb | hb
      · simp at hb; exact hb.2.1 ha
      · exact h.not_pool ha hb
  · intro q hq
    simp only [List.mem_append, List.mem_filter, List.mem_range] at hq
    rcases hq with (hq | hq) | hq
    · exact h.mem_lt hq
    · exact hq.1
    · exact h.lt q (by simp only [List.mem_append]; exact Or.inr hq)
  · intro q hq
    by_cases h1 : q ∈ L
    · exact Or.inl (by simp [h1])
    · by_cases h2 : q ∈ s.zeroedQubits.flatten
      · exact Or.inr h2
      · left
        simp only [List.mem_append, List.mem_filter, List.mem_range, decide_eq_true_eq]
        exact Or.inr ⟨hq, h1, h2⟩

end Verif
