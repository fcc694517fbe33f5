import Verif.Proofs.Cond3
import Verif.Spec.Cond

/-! # Conditioned builders act on the builder at the bottom -/

namespace Verif
open Classical Complex RegOps CircuitBuilder Rooted TempBuilder

namespace Conditioned
variable {β α γ : Type}

theorem onParent_ok {m : M β α} {s : Conditioned β} {a : α} {p : β} (h : m s.parent = .ok a p) :
    onParent m s = .ok a { s with parent := p } := by
  unfold onParent; rw [h]

theorem onParent_err {m : M β α} {s : Conditioned β} {e : Fail} {p : β} (h : m s.parent = .error e p) :
    onParent m s = .error e { s with parent := p } := by
  unfold onParent; rw [h]

theorem onParent_pure (a : α) : (onParent (pure a : M β α)) = pure a := rfl

theorem onParent_liftE (e : Except Fail α) : onParent (liftE e : M β α) = liftE e := by
  cases e <;> rfl

theorem takeCr_ok {s : Conditioned β} {cr : Reg} (h : s.cr = some cr) : takeCr s = .ok cr { s with cr := none } := by
  unfold takeCr
  rw [bind_ok (get_run s), bind_ok (set_run _ s), h]
  rfl

theorem putCr_run (s : Conditioned β) (cr : Reg) : putCr cr s = .ok () { s with cr := some cr } := rfl

end Conditioned

instance {β : Type} [RegOps β] [LawfulReg β] : LawfulReg (Conditioned β) where
  mergeTwo_eq r1 r2 h := by
    show Conditioned.onParent (mergeTwo r1 r2) = _
    rw [LawfulReg.mergeTwo_eq r1 r2 h]; rfl
  splitRel_eq r idx := by
    show Conditioned.onParent (splitRel r idx) = _
    rw [LawfulReg.splitRel_eq]
    exact Conditioned.onParent_liftE _

/-- the call `m` on `s` does what `l` does on the builder at the bottom -/
def Acts {β α : Type} [Rooted β] (m : M β α) (s : β) (a : α) (b : LocalBuilder) : Prop :=
  ∃ s', m s = .ok a s' ∧ root s' = b ∧ ctl s' = ctl s

/-- a builder on top of a `LocalBuilder`, under the conditions `ctl` -/
class Sim (β : Type) [Conditionable β] [Rooted β] : Prop extends LawfulReg β where
  ctl_ne : ∀ {s : β} {cs : List Reg}, ctl s = some cs → ∀ c ∈ cs, c ≠ []
  tryCond : ∀ {s : β} {cs : List Reg} {cr r r' : Reg} {co : CObj} {b : LocalBuilder}, ctl s = some cs → cr ≠ [] →
    (cr ++ cs.flatten).Nodup → LocalBuilder.tryCond (cr ++ cs.flatten) r co (root s) = .ok (cr ++ cs.flatten, r') b →
    Acts (Conditionable.tryCond cr r co) s (cr, r') b
  applyCO : ∀ {s : β} {cs : List Reg} {r r' : Reg} {co : CObj} {b : LocalBuilder}, ctl s = some cs → cs ≠ [] →
    cs.flatten.Nodup → LocalBuilder.tryCond cs.flatten r co (root s) = .ok (cs.flatten, r') b →
    Acts (CircuitBuilder.applyCO r co) s r' b
  applyCO_nil : ∀ {s : β} {r r' : Reg} {co : CObj} {b : LocalBuilder}, ctl s = some [] →
    LocalBuilder.applyCO r co (root s) = .ok r' b → Acts (CircuitBuilder.applyCO r co) s r' b
  makeTemp : ∀ {s : β} {r : Reg} {b : LocalBuilder}, LocalBuilder.makeTempQubit (root s) = .ok r b →
    Acts makeTempQubit s r b
  returnTemp : ∀ {s : β} {r : Reg} {b : LocalBuilder}, LocalBuilder.returnTemp r (root s) = .ok () b →
    Acts (returnTemp r) s () b
  makeX : ∀ s : β, CliffordT.makeX s = ⟨1, .unitary .X⟩
  makeY : ∀ s : β, CliffordT.makeY s = ⟨1, .unitary .Y⟩
  makeZ : ∀ s : β, CliffordT.makeZ s = ⟨1, .unitary .Z⟩
  makeH : ∀ s : β, CliffordT.makeH s = ⟨1, .unitary .H⟩
  makeS : ∀ s : β, CliffordT.makeS s = ⟨1, .unitary .S⟩
  makeT : ∀ s : β, CliffordT.makeT s = ⟨1, .unitary .T⟩
  makeCnot : ∀ s : β, CliffordT.makeCnot s = ⟨2, .unitary .CNOT⟩

instance : Sim LocalBuilder where
  ctl_ne {s cs} h := by
    obtain rfl : [] = cs := by injection h
    simp
  tryCond {s cs cr r r' co b} h _ _ h2 := by
    obtain rfl : [] = cs := by injection h
    rw [List.flatten_nil, List.append_nil] at h2
    exact ⟨b, h2, rfl, rfl⟩
  applyCO {s cs r r' co b} h h1 _ _ := by
    obtain rfl : [] = cs := by injection h
    exact absurd rfl h1
  applyCO_nil {s r r' co b} _ h := ⟨b, h, rfl, rfl⟩
  makeTemp {s r b} h := ⟨b, h, rfl, rfl⟩
  returnTemp {s r b} h := ⟨b, h, rfl, rfl⟩
  makeX _ := rfl
  makeY _ := rfl
  makeZ _ := rfl
  makeH _ := rfl
  makeS _ := rfl
  makeT _ := rfl
  makeCnot _ := rfl

section
variable {β : Type} [Conditionable β] [Rooted β]

theorem ctl_conditioned {s : Conditioned β} {cs : List Reg} (h : ctl s = some cs) :
    ∃ cr ps, s.cr = some cr ∧ cr ≠ [] ∧ ctl s.parent = some ps ∧ cs = cr :: ps := by
  obtain ⟨p, cr⟩ := s
  unfold ctl instRootedConditioned at h
  simp only at h
  split at h
  · rename_i c cr' ps hp
    refine ⟨c :: cr', ps, rfl, by simp, hp, ?_⟩
    injection h with h
    exact h.symm
  · exact absurd h (by simp)

theorem conditioned_ctl {p : β} {cr : Reg} {ps : List Reg} (h : ctl p = some ps) (hc : cr ≠ []) :
    ctl (⟨p, some cr⟩ : Conditioned β) = some (cr :: ps) := by
  cases cr with
  | nil => exact absurd rfl hc
  | cons c cr =>
    unfold ctl instRootedConditioned
    simp only
    rw [h]

theorem onParent_acts {α : Type} {m : M β α} {s : Conditioned β} {a : α} {b : LocalBuilder} (h : Acts m s.parent a b) :
    Acts (Conditioned.onParent m) s a b := by
  obtain ⟨p, h1, h2, h3⟩ := h
  refine ⟨{ s with parent := p }, Conditioned.onParent_ok h1, h2, ?_⟩
  unfold ctl instRootedConditioned
  simp only
  rw [h3]

instance [Sim β] : Sim (Conditioned β) where
  ctl_ne {s cs} h := by
    obtain ⟨cr, ps, e1, e2, e3, rfl⟩ := ctl_conditioned h
    intro c hc
    rcases List.mem_cons.mp hc with rfl | hc
    · exact e2
    · exact Sim.ctl_ne e3 c hc
  tryCond {s cs cr r r' co b} h hc hn h2 := by
    obtain ⟨ccr, ps, e1, e2, e3, rfl⟩ := ctl_conditioned h
    rw [List.flatten_cons, ← List.append_assoc] at hn h2
    have hn1 : (cr ++ ccr).Nodup := (List.nodup_append.mp hn).1
    obtain ⟨p', k1, k2, k3⟩ := Sim.tryCond (s := s.parent) e3 (by simp [hc]) hn h2
    refine ⟨⟨p', some ccr⟩, ?_, k2, ?_⟩
    · show Conditioned.tryCond cr r co s = _
      unfold Conditioned.tryCond
      simp only
      rw [bind_ok (Conditioned.takeCr_ok e1), LawfulReg.mergeTwo_eq _ _ (by simp [hc]), pure_bind,
        bind_ok (Conditioned.onParent_ok (s := { s with cr := none }) k1)]
      simp only
      rw [LawfulReg.splitRel_eq, splitE_prefix cr ccr hn1 hc e2]
      rfl
    · rw [conditioned_ctl (k3.trans e3) e2, h]
  applyCO {s cs r r' co b} h hc hn h2 := by
    obtain ⟨ccr, ps, e1, e2, e3, rfl⟩ := ctl_conditioned h
    obtain ⟨p', k1, k2, k3⟩ := Sim.tryCond (s := s.parent) e3 e2 hn h2
    refine ⟨⟨p', some ccr⟩, ?_, k2, ?_⟩
    · show Conditioned.applyCO r co s = _
      unfold Conditioned.applyCO
      rw [bind_ok (Conditioned.takeCr_ok e1), bind_ok (Conditioned.onParent_ok (s := { s with cr := none }) k1)]
      rfl
    · rw [conditioned_ctl (k3.trans e3) e2, h]
  applyCO_nil {s r r' co b} h _ := by
    obtain ⟨ccr, ps, e1, e2, e3, e4⟩ := ctl_conditioned h
    exact absurd e4 (by simp)
  makeTemp {s r b} h := onParent_acts (Sim.makeTemp (s := s.parent) h)
  returnTemp {s r b} h := onParent_acts (Sim.returnTemp (s := s.parent) h)
  makeX s := Sim.makeX s.parent
  makeY s := Sim.makeY s.parent
  makeZ s := Sim.makeZ s.parent
  makeH s := Sim.makeH s.parent
  makeS s := Sim.makeS s.parent
  makeT s := Sim.makeT s.parent
  makeCnot s := Sim.makeCnot s.parent

variable {ang : Rot → ℝ}

/-- what the builder at the bottom does, this builder does -/
theorem Does.of_root {α : Type} {m : M β α} {l : M LocalBuilder α} {s : β} {a : α} {L : List ℕ} {U : Asg → Wave}
    (h : Does ang l (root s) a L U) (hm : ∀ b, l (root s) = .ok a b → Acts m s a b) : Does ang m s a L U := by
  obtain ⟨b, h1, -, h3, h4⟩ := h
  obtain ⟨s', k1, k2, k3⟩ := hm b h1
  exact ⟨s', k1, k3, by rw [k2]; exact h3, by rw [k2]; exact h4⟩

theorem Does.of_root' {α γ : Type} {m : M β α} {l : M LocalBuilder γ} {s : β} {a : α} {c : γ} {L : List ℕ} {U : Asg → Wave}
    (h : Does ang l (root s) c L U) (hm : ∀ b, l (root s) = .ok c b → Acts m s a b) : Does ang m s a L U := by
  obtain ⟨b, h1, -, h3, h4⟩ := h
  obtain ⟨s', k1, k2, k3⟩ := hm b h1
  exact ⟨s', k1, k3, by rw [k2]; exact h3, by rw [k2]; exact h4⟩

/-- what happens under `condition_with` -/
theorem Does.conditioned {α : Type} {m : M (Conditioned β) α} {s : β} {cs : List Reg} {cr : Reg} {a : α} {L : List ℕ} {U : Asg → Wave}
    (hs : ctl s = some cs) (hc : cr ≠ []) (h : Does ang m ⟨s, some cr⟩ a L U) :
    Does ang (Conditioned.conditioned cr m) s (a, cr) L U := by
  obtain ⟨s', h1, h2, h3, h4⟩ := h
  rw [conditioned_ctl hs hc] at h2
  obtain ⟨cr', ps, e1, e2, e3, e4⟩ := ctl_conditioned h2
  injection e4 with e4 e5
  subst e4 e5
  refine ⟨s'.parent, ?_, e3.trans hs.symm, h3, h4⟩
  unfold Conditioned.conditioned
  rw [h1]
  simp only
  rw [e1]

end

end Verif
