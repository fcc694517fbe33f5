import Verif.Proofs.Kinds
import Verif.Spec.FloatExact

/-! # Programs whose circuit has plain gates only -/

namespace Verif
open RegOps CircuitBuilder TempBuilder Rooted

/-- an object that is a plain gate -/
def PlainObj (co : CObj) : Prop :=
  match co.object with
  | .unitary g => g.plain = true
  | .meas _ => False

/-- only plain gates and measurements -/
def PlainSteps (seg : Pipeline) : Prop := ∀ e ∈ seg, PlainStep e

instance : Closed PlainSteps where
  nil := fun e he => by simp at he
  app p q hp hq := fun e he => by
    rcases List.mem_append.mp he with h | h
    · exact hp e h
    · exact hq e h

theorem plainObj_step (r : Reg) (co : CObj) (h : PlainObj co) : PlainSteps [(r, co)] := by
  intro e he
  rw [List.mem_singleton] at he
  subst he
  unfold PlainObj at h
  unfold PlainStep
  cases ho : co.object with
  | unitary g => rw [ho] at h; exact h
  | meas m => trivial

instance plainSteps_tracks : TracksC LocalBuilder PlainSteps PlainObj (fun _ => False) where
  toTracksT := tracks_local plainObj_step
  tryCond _ _ _ h := h.elim

theorem Method.plain_adds (m : Method) (h : m.plain = true) (rs : List Reg) : Adds PlainSteps (m.run rs : M LocalBuilder _) := by
  have hx : PlainObj ⟨1, .unitary .X⟩ := rfl
  have hz : PlainObj ⟨1, .unitary .Z⟩ := rfl
  have hs : PlainObj ⟨1, .unitary .S⟩ := rfl
  have hc : PlainObj ⟨2, .unitary .CNOT⟩ := rfl
  have hy : ∀ r, Adds PlainSteps (Gate.y r : M LocalBuilder _) := Adds.gate _ fun _ => (rfl : PlainObj ⟨1, .unitary .Y⟩)
  cases m with
  | named g =>
    have hg : ∀ r, Adds PlainSteps (g.runOn r : M LocalBuilder _) := by
      intro r
      cases g with
      | x => exact Adds.x hx r
      | y => exact hy r
      | z => exact Adds.z hz r
      | s => exact Adds.s hs r
      | sDagger => exact (Adds.z hz r).bind fun r => Adds.s hs r
      | _ => cases h
    rcases rs with _ | ⟨r, _ | ⟨r', rs⟩⟩
    · exact Adds.throw _
    · exact (hg r).bind fun _ => Adds.pure _
    · exact Adds.throw _
  | cnot =>
    rcases rs with _ | ⟨a, _ | ⟨b, _ | ⟨c, rs⟩⟩⟩
    · exact Adds.throw _
    · exact Adds.throw _
    · exact (Adds.cnot hc a b).bind fun _ => Adds.pure _
    · exact Adds.throw _
  | swap =>
    rcases rs with _ | ⟨a, _ | ⟨b, _ | ⟨c, rs⟩⟩⟩
    · exact Adds.throw _
    · exact Adds.throw _
    · exact (Adds.swap hc a b).bind fun _ => Adds.pure _
    · exact Adds.throw _
  | _ => cases h

mutual
theorem Prog.plain_adds : ∀ (p : Prog) (_ : p.Plain) (rs : List Reg), Adds PlainSteps (p.run rs : M LocalBuilder _)
  | .call m, h, rs => by
    unfold Prog.run
    exact m.plain_adds (by simpa [Prog.Plain] using h) rs
  | .seq p q, h, rs => by
    unfold Prog.Plain at h
    unfold Prog.run
    exact (p.plain_adds h.1 rs).bind fun rs => q.plain_adds h.2 rs
  | .prog ls, h, rs => by
    unfold Prog.Plain at h
    unfold Prog.run
    exact Adds.program (O := PlainObj) rfl rs _ (ls.plain_adds h)
  | .sized F, h, rs => by
    unfold Prog.Plain at h
    unfold Prog.run
    exact (F (rs.map List.length)).plain_adds (h _) rs
  | .cond _, h, _ => by unfold Prog.Plain at h; exact h.elim
  | .inv _ _, h, _ => by unfold Prog.Plain at h; exact h.elim

theorem Lines.plain_adds : ∀ (ls : Lines) (_ : ls.Plain), ∀ l ∈ ls.lines (β := LocalBuilder), LineAdds PlainSteps l
  | .nil, _, l, hl => by unfold Lines.lines at hl; simp at hl
  | .plain p gs ls, h, l, hl => by
    unfold Lines.Plain at h
    unfold Lines.lines at hl
    rcases List.mem_cons.mp hl with rfl | hl
    · exact fun rs => p.plain_adds h.1 rs
    · exact ls.plain_adds h.2 l hl
  | .control _ _ _ _ _, h, _, _ => by unfold Lines.Plain at h; exact h.elim
end

theorem Act.plain_adds (a : Act) (h : a.Plain) (st : List Reg × List ℕ) : Adds PlainSteps (a.exec st) := by
  obtain ⟨rs, hs⟩ := st
  cases a with
  | run p => exact (p.plain_adds h rs).bind fun _ => Adds.pure _
  | measure i =>
    unfold Act.exec
    dsimp only
    cases hr : rs[i]? with
    | none => exact (Adds.throw _ : Adds PlainSteps (throw Fail.panic : M LocalBuilder _))
    | some r =>
      dsimp only
      refine Adds.bind (P := PlainSteps) ?_ fun _ => Adds.pure _
      refine ⟨fun s x s' he => ⟨[(r, ⟨r.length, .meas .measurement⟩)], ?_, ?_⟩⟩
      · cases he; rfl
      · intro e he
        rw [List.mem_singleton] at he
        subst he
        trivial

/-- the pipeline of such a main program -/
theorem mainProg_plain {sizes : List ℕ} {acts : List Act} (h : ∀ a ∈ acts, a.Plain) {out : List Reg × List ℕ} {s : LocalBuilder}
    (hs : mainProg sizes acts LocalBuilder.default = .ok out s) : ∀ e ∈ s.pipeline, PlainStep e := by
  have : Adds PlainSteps (mainProg sizes acts) :=
    (Adds.mapM _ fun _ _ => Adds.local_register _).bind fun _ => Adds.foldlM _ _ fun st a ha => a.plain_adds (h a ha) st
  obtain ⟨seg, h1, h2⟩ := this.out _ _ _ hs
  have h1 : s.pipeline = [] ++ seg := h1
  rw [h1]
  exact h2

end Verif
