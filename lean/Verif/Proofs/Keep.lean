import Verif.Proofs.Pool
import Verif.Model.Cond

/-! # Methods that give back all temporaries -/

namespace Verif
open Classical RegOps TempBuilder

/-- `m` returns `a`, the caller then holds `L`, and every qubit of the pool and every new qubit is in the pool afterwards -/
def Keeps {α : Type} (m : M LocalBuilder α) (s : LocalBuilder) (a : α) (L : List ℕ) : Prop :=
  ∃ s', m s = .ok a s' ∧ Own s' L ∧ Kept s s'

variable {α γ : Type} {s : LocalBuilder} {L : List ℕ}

theorem Kept.refl (s : LocalBuilder) : Kept s s := by
  intro q hq
  rcases hq with hq | hq
  · exact hq
  · omega

theorem Keeps.pure (ho : Own s L) (a : α) : Keeps (Pure.pure a) s a L := ⟨s, rfl, ho, Kept.refl s⟩

theorem Keeps.bind {m : M LocalBuilder α} {f : α → M LocalBuilder γ} {a : α} {c : γ} {L1 L2 : List ℕ} (h : Keeps m s a L1)
    (h' : ∀ s', Own s' L1 → Keeps (f a) s' c L2) : Keeps (m >>= f) s c L2 := by
  obtain ⟨s1, e1, o1, k1⟩ := h
  obtain ⟨s2, e2, o2, k2⟩ := h' s1 o1
  exact ⟨s2, (bind_ok e1).trans e2, o2, k1.trans k2⟩

theorem Emits.keeps {m : M LocalBuilder α} {a : α} {seg : Pipeline} (h : Emits m a seg) (ho : Own s L) : Keeps m s a L :=
  ⟨_, h s, ho.pipe _, Kept.pipe _ _⟩

theorem Keeps.perm {m : M LocalBuilder α} {a : α} {L L' : List ℕ} (h : Keeps m s a L) (hp : L.Perm L') : Keeps m s a L' := by
  obtain ⟨s1, e1, o1, k1⟩ := h
  exact ⟨s1, e1, o1.perm hp, k1⟩

theorem toffoli_keeps (cr r L : List ℕ) (hc : cr ≠ []) (hr : r ≠ []) (ho : Own s (cr ++ r ++ L)) :
    Keeps (toffoli cr r) s (cr, r) (cr ++ r ++ L) := by
  obtain ⟨s', e1, -, e3, -⟩ := toffoli_does (fun _ => 0) cr r L s hc hr ho
  exact ⟨s', e1, e3, toffoliF_kept cr.length cr r L s s' (le_refl _) hc hr ho e1⟩

/-- a temporary taken, used and given back -/
theorem temp_keeps {g : Reg → M LocalBuilder (Reg × Reg)} {c : Reg} (ho : Own s L)
    (hg : ∀ t s1, Own s1 (t :: L) → Keeps (g [t]) s1 (c, [t]) (t :: L)) :
    Keeps (do
      let tq ← (makeTempQubit : M LocalBuilder Reg)
      let p ← g tq
      returnTemp p.2
      Pure.pure p.1) s c L := by
  obtain ⟨t, s1, e1, o1, -, n1, -, -⟩ := makeTemp_local ho
  obtain ⟨s2, e2, o2, k2⟩ := hg t s1 o1
  have e3 : LocalBuilder.returnTemp [t] s2 = .ok () { s2 with zeroedQubits := s2.zeroedQubits ++ [[t]] } := by
    unfold LocalBuilder.returnTemp
    rw [splitAll_eq [t] (by simp) (by simp)]
    rfl
  obtain ⟨s3, e3', o3, -⟩ := returnTemp_local t o2
  have hs : s3 = { s2 with zeroedQubits := s2.zeroedQubits ++ [[t]] } := by
    have := e3'.symm.trans e3
    injection this
  subst hs
  have e1' : (makeTempQubit : M LocalBuilder Reg) s = .ok [t] s1 := e1
  have e3'' : (returnTemp [t] : M LocalBuilder Unit) s2 = _ := e3
  refine ⟨_, ?_, o3, ?_⟩
  · rw [bind_ok e1', bind_ok e2, bind_ok e3'']
    rfl
  · intro q hq
    simp only [List.flatten_append, List.flatten_cons, List.flatten_nil, List.append_nil, List.mem_append, List.mem_singleton]
    rcases hq with hq | hq
    · rcases makeTemp_kept e1 q (.inl hq) with h | h
      · exact .inr h
      · exact .inl (k2 q (.inl h))
    · by_cases hn : q < s1.n
      · rcases makeTemp_kept e1 q (.inr ⟨hq.1, hn⟩) with h | h
        · exact .inr h
        · exact .inl (k2 q (.inl h))
      · exact .inl (k2 q (.inr ⟨by omega, hq.2⟩))

/-- conditioned `S` and `T` -/
theorem condPhase_keeps {g : Reg → M LocalBuilder Reg} {seg : ℕ → Pipeline} (hg : ∀ t, Emits (g [t]) [t] (seg t)) (cr r : Reg) (q : ℕ) (L : List ℕ)
    (hc : cr ≠ []) (ho : Own s (cr ++ (r ++ [q]) ++ L)) :
    Keeps (LocalBuilder.condPhase g cr (r ++ [q])) s (cr ++ r, [q]) (cr ++ (r ++ [q]) ++ L) := by
  have hnd : ((cr ++ r) ++ [q]).Nodup := by
    have := (List.nodup_append.mp ho.left).1
    simpa using this
  have h1 := temp_keeps (g := fun tq => do
      let (c, tq) ← toffoli (cr ++ (r ++ [q])) tq
      let tq ← g tq
      toffoli c tq) (c := cr ++ (r ++ [q])) ho (by
    intro t s1 o1
    have pm : (t :: (cr ++ (r ++ [q]) ++ L)).Perm (cr ++ (r ++ [q]) ++ [t] ++ L) := by
      rw [List.append_assoc (cr ++ (r ++ [q]))]
      exact (List.perm_middle (l₁ := cr ++ (r ++ [q])) (l₂ := L)).symm
    refine Keeps.bind ((toffoli_keeps (cr ++ (r ++ [q])) [t] L (by simp) (by simp) (o1.perm pm))) fun s2 o2 => ?_
    refine Keeps.bind ((hg t).keeps o2) fun s3 o3 => ?_
    exact (toffoli_keeps (cr ++ (r ++ [q])) [t] L (by simp) (by simp) o3).perm pm.symm)
  have h2 := Keeps.bind (f := fun cr => do
      let (cr, r) ← splitLast cr
      let r ← unwrapO r
      pure (cr, r)) (c := (cr ++ r, [q])) (L2 := cr ++ (r ++ [q]) ++ L) h1 (by
    intro s' o'
    rw [show cr ++ (r ++ [q]) = (cr ++ r) ++ [q] by simp, splitLast_eq (cr ++ r) q hnd (by simp [hc])]
    exact Keeps.pure (by simpa using o') _)
  unfold LocalBuilder.condPhase
  rw [LawfulReg.mergeTwo_eq _ _ (by simp)]
  simpa only [bind_assoc, pure_bind] using h2

theorem condX_keeps (cr r L : List ℕ) (hc : cr ≠ []) (hr : r ≠ []) (ho : Own s (cr ++ r ++ L)) (n : ℕ) :
    Keeps (LocalBuilder.tryCond cr r ⟨n, .unitary .X⟩) s (cr, r) (cr ++ r ++ L) := toffoli_keeps cr r L hc hr ho

theorem condZ_keeps (cr r L : List ℕ) (hc : cr ≠ []) (hr : r ≠ []) (ho : Own s (cr ++ r ++ L)) (n : ℕ) :
    Keeps (LocalBuilder.tryCond cr r ⟨n, .unitary .Z⟩) s (cr, r) (cr ++ r ++ L) := by
  have hn : r.Nodup := (List.nodup_append.mp (List.nodup_append.mp ho.left).1).2.1
  unfold LocalBuilder.tryCond
  refine Keeps.bind ((h_emits r hr hn).keeps ho) fun s1 o1 => ?_
  refine Keeps.bind (toffoli_keeps cr r L hc hr o1) fun s2 o2 => ?_
  exact Keeps.bind ((h_emits r hr hn).keeps o2) fun s3 o3 => Keeps.pure o3 _

theorem condCnot_keeps (cr L : List ℕ) (a b : ℕ) (hc : cr ≠ []) (ho : Own s (cr ++ [a, b] ++ L)) (n : ℕ) :
    Keeps (LocalBuilder.tryCond cr [a, b] ⟨n, .unitary .CNOT⟩) s (cr, [a, b]) (cr ++ [a, b] ++ L) := by
  have hnd : (cr ++ [a, b]).Nodup := (List.nodup_append.mp ho.left).1
  have hab : a ≠ b := by
    have := (List.nodup_append.mp hnd).2.1; simpa using this
  have hca : (cr ++ [a]).Nodup := by
    have : (cr ++ [a]).Sublist (cr ++ [a, b]) := List.Sublist.append_left (by simp) cr
    exact this.nodup hnd
  have hsplit : (splitFirst [a, b] : M LocalBuilder _) = pure (some [a], [b]) := splitFirst_eq a [b] (by simpa using hab) (by simp)
  unfold LocalBuilder.tryCond
  simp only
  rw [if_neg (by simp)]
  simp only [pure_bind, hsplit, unwrapO_some]
  rw [LawfulReg.mergeTwo_eq _ _ (by simp), pure_bind]
  refine Keeps.bind (toffoli_keeps (cr ++ [a]) [b] L (by simp) (by simp) (by simpa using ho)) fun s' o' => ?_
  simp only
  rw [splitLast_eq cr a hca hc]
  simp only [pure_bind, unwrapO_some]
  rw [LawfulReg.mergeTwo_eq _ _ (by simp), pure_bind]
  exact Keeps.pure (by simpa using o') _

end Verif
