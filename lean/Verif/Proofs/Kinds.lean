import Verif.Proofs.Sure
import Verif.Model.Arith

/-! # The kinds of elements that methods add to the circuit -/

namespace Verif
open Classical Complex RegOps CircuitBuilder TempBuilder Rooted

/-- if `m` succeeds, it adds a circuit with the property `P` -/
structure Adds (P : Pipeline → Prop) {β α : Type} [Rooted β] (m : M β α) : Prop where
  out : ∀ s a s', m s = .ok a s' → ∃ seg, (root s').pipeline = (root s).pipeline ++ seg ∧ P seg

/-- a property of circuits kept under composition -/
class Closed (P : Pipeline → Prop) : Prop where
  nil : P []
  app : ∀ p q, P p → P q → P (p ++ q)

namespace Adds
variable {β α γ : Type} [Rooted β] {P : Pipeline → Prop}

theorem bind' {P Q R : Pipeline → Prop} {m : M β α} {f : α → M β γ} (h : Adds P m) (h' : ∀ a, Adds Q (f a)) (hR : ∀ p q, P p → Q q → R (p ++ q)) :
    Adds R (m >>= f) := by
  refine ⟨fun s c s' he => ?_⟩
  rcases hm : m s with ⟨a, s1⟩ | ⟨e, s1⟩
  · rw [bind_ok hm] at he
    obtain ⟨p, p1, p2⟩ := h.out s a s1 hm
    obtain ⟨q, q1, q2⟩ := (h' a).out s1 c s' he
    exact ⟨p ++ q, by rw [q1, p1, List.append_assoc], hR p q p2 q2⟩
  · rw [bind_err hm] at he; cases he

theorem bind [Closed P] {m : M β α} {f : α → M β γ} (h : Adds P m) (h' : ∀ a, Adds P (f a)) : Adds P (m >>= f) := h.bind' h' Closed.app

theorem mono {P Q : Pipeline → Prop} {m : M β α} (h : Adds P m) (hPQ : ∀ p, P p → Q p) : Adds Q m := by
  refine ⟨fun s a s' he => ?_⟩
  obtain ⟨p, p1, p2⟩ := h.out s a s' he
  exact ⟨p, p1, hPQ p p2⟩

theorem same [Closed P] {m : M β α} (h : ∀ s a s', m s = .ok a s' → (root s').pipeline = (root s).pipeline) : Adds P m :=
  ⟨fun s a s' he => ⟨[], by rw [h s a s' he, List.append_nil], Closed.nil⟩⟩

theorem pure [Closed P] (a : α) : Adds P (Pure.pure a : M β α) := same fun s b s' he => by
  have : EStateM.Result.ok a s = EStateM.Result.ok b s' := he
  injection this with _ h
  rw [h]

theorem get [Closed P] : Adds P (MonadState.get : M β β) := same fun s b s' he => by
  have : EStateM.Result.ok s s = EStateM.Result.ok b s' := he
  injection this with _ h
  rw [h]

theorem throw (e : Fail) : Adds P (MonadExcept.throw e : M β α) := ⟨fun s a s' he => by
  have : EStateM.Result.error e s = EStateM.Result.ok a s' := he
  cases this⟩

theorem throw_bind (e : Fail) (f : α → M β γ) : Adds P ((Verif.liftE (.error e) : M β α) >>= f) := ⟨fun s a s' he => by
  have : EStateM.Result.error e s = EStateM.Result.ok a s' := he
  cases this⟩

theorem unwrapM {m : M β α} (h : Adds P m) : Adds P (Verif.unwrapM m) := by
  refine ⟨fun s a s' he => ?_⟩
  unfold Verif.unwrapM at he
  split at he
  · next h1 =>
    injection he with h2 h3
    subst h2 h3
    exact h.out _ _ _ h1
  · cases he

theorem unwrapO [Closed P] (o : Option α) : Adds P (Verif.unwrapO o : M β α) := by
  cases o
  · exact throw _
  · exact pure _

theorem liftE [Closed P] (e : Except Fail α) : Adds P (Verif.liftE e : M β α) := by
  cases e
  · exact throw _
  · exact pure _

theorem foldlM [Closed P] {δ : Type} (l : List δ) {f : α → δ → M β α} (a : α) (h : ∀ a, ∀ d ∈ l, Adds P (f a d)) : Adds P (l.foldlM f a) := by
  induction l generalizing a with
  | nil => exact pure a
  | cons d l ih =>
    rw [List.foldlM_cons]
    exact bind (h a d (by simp)) fun a' => ih a' fun a d hd => h a d (by simp [hd])

theorem mapM [Closed P] {δ : Type} (l : List δ) {f : δ → M β α} (h : ∀ d ∈ l, Adds P (f d)) : Adds P (l.mapM f) := by
  induction l with
  | nil => exact pure []
  | cons d l ih =>
    rw [List.mapM_cons]
    exact bind (h d (by simp)) fun _ => bind (ih fun d hd => h d (by simp [hd])) fun _ => pure _

theorem forM [Closed P] {δ : Type} (l : List δ) {f : δ → M β PUnit} (h : ∀ d ∈ l, Adds P (f d)) : Adds P (l.forM f) := by
  induction l with
  | nil => exact pure _
  | cons d l ih => exact bind (h d (by simp)) fun _ => ih fun d hd => h d (by simp [hd])

end Adds

syntax "adds" ("[" term,* "]")? : tactic
macro_rules
  | `(tactic| adds) => `(tactic| adds [])
  | `(tactic| adds [$ts,*]) => do
    let alts ← ts.getElems.mapM fun t => `(tactic| apply $t)
    `(tactic| repeat' (first
      | assumption
      $[| $alts:tactic]*
      | exact Adds.pure _ | exact Adds.throw _ | exact Adds.get | exact Adds.unwrapO _ | exact Adds.liftE _
      | apply Adds.unwrapM
      | apply Adds.bind
      | apply Adds.foldlM | apply Adds.mapM | apply Adds.forM
      | intro _
      | split
      | dsimp only))

/-! ## builders -/

/-- the objects in `O` add circuits with `P` -/
class TracksT (β : Type) [TempBuilder β] [Rooted β] (P : Pipeline → Prop) (O : outParam (CObj → Prop)) : Prop where
  register : ∀ n, Adds P (register n : M β _)
  mergeTwo : ∀ a b, Adds P (mergeTwo a b : M β _)
  splitRel : ∀ r is, Adds P (splitRel r is : M β _)
  makeTemp : Adds P (makeTempQubit : M β _)
  returnTemp : ∀ r, Adds P (returnTemp r : M β _)
  applyCO : ∀ r co, O co → Adds P (applyCO r co : M β _)

/-- the objects in `O'` do so as conditioned objects -/
class TracksC (β : Type) [Conditionable β] [Rooted β] (P : Pipeline → Prop) (O : outParam (CObj → Prop)) (O' : outParam (CObj → Prop)) : Prop extends TracksT β P O where
  tryCond : ∀ cr r co, O' co → Adds P (Conditionable.tryCond cr r co : M β _)

class Tracks (β : Type) [Recursive β] [Rooted β] (P : Pipeline → Prop) (O : outParam (CObj → Prop)) (O' : outParam (CObj → Prop)) : Prop extends TracksC β P O O' where
  sub : ∀ (sc : Pipeline) r, (∀ e ∈ sc, O e.2) → Adds P (Recursive.applySub sc r : M β _)
  condSub : ∀ (sc : Pipeline) cr r, (∀ e ∈ sc, O' e.2) → Adds P (Recursive.applyCondSub sc cr r : M β _)

namespace Adds
section
variable {β : Type} [TempBuilder β] [Rooted β] {P : Pipeline → Prop} [Closed P] {O : CObj → Prop} [hT : TracksT β P O]
include hT

theorem mergeRegisters (rs : List Reg) : Adds P (Verif.mergeRegisters rs : M β _) := by
  unfold Verif.mergeRegisters
  adds [TracksT.mergeTwo]

theorem splitHelper (k : ℕ) (r : Reg) (acc : List Reg) : Adds P (Verif.splitHelper k r acc : M β _) := by
  induction k generalizing r acc with
  | zero => exact throw _
  | succ k ih =>
    unfold Verif.splitHelper
    adds [TracksT.splitRel, ih]

theorem splitAll (r : Reg) : Adds P (Verif.splitAll r : M β _) := splitHelper _ _ _

theorem splitFirst (r : Reg) : Adds P (Verif.splitFirst r : M β _) := by
  unfold Verif.splitFirst
  adds [TracksT.splitRel]

theorem splitLast (r : Reg) : Adds P (Verif.splitLast r : M β _) := by
  unfold Verif.splitLast
  adds [TracksT.splitRel]

theorem splitGroups (r : Reg) (gs : List (List ℕ)) : Adds P (Verif.splitGroups r gs : M β _) := by
  unfold Verif.splitGroups
  adds [splitAll, mergeRegisters]

theorem makeTempRegister (n : ℕ) : Adds P (Verif.makeTempRegister n : M β _) := by
  unfold Verif.makeTempRegister
  adds [TracksT.makeTemp, mergeRegisters]

theorem applyPipelineObjects (sc : Pipeline) (r : Reg) (h : ∀ e ∈ sc, O e.2) : Adds P (Verif.applyPipelineObjects sc r : M β _) := by
  unfold Verif.applyPipelineObjects
  have he : ∀ slots, ∀ e ∈ sc, Adds P (applyEntry slots e : M β _) := by
    intro slots e he
    unfold applyEntry
    adds [splitAll, mergeRegisters, TracksT.applyCO, h _ he]
  adds [splitAll, mergeRegisters, makeTempRegister, TracksT.returnTemp, he]

end

/-! ## gates -/

/-- the gates `X`, `Y`, `Z`, `H`, `S`, `T`, `CNOT` are in `O` -/
structure _root_.Verif.Basic (O : CObj → Prop) : Prop where
  x : O ⟨1, .unitary .X⟩
  z : O ⟨1, .unitary .Z⟩
  h : O ⟨1, .unitary .H⟩
  s : O ⟨1, .unitary .S⟩
  t : O ⟨1, .unitary .T⟩
  cnot : O ⟨2, .unitary .CNOT⟩

section
variable {β : Type} [Conditionable β] [Rooted β] [Sim β] {P : Pipeline → Prop} [Closed P] {O : CObj → Prop} [hT : TracksT β P O]
include hT

theorem gate (mk : β → CObj) (h : ∀ s, O (mk s)) (r : Reg) : Adds P (Verif.gate mk r : M β _) := by
  exact bind get fun b => unwrapM (TracksT.applyCO _ _ (h b))

theorem x (hO : O ⟨1, .unitary .X⟩) (r : Reg) : Adds P (Gate.x r : M β _) := gate _ (fun s => by rw [Sim.makeX]; exact hO) r
theorem z (hO : O ⟨1, .unitary .Z⟩) (r : Reg) : Adds P (Gate.z r : M β _) := gate _ (fun s => by rw [Sim.makeZ]; exact hO) r
theorem h (hO : O ⟨1, .unitary .H⟩) (r : Reg) : Adds P (Gate.h r : M β _) := gate _ (fun s => by rw [Sim.makeH]; exact hO) r
theorem s (hO : O ⟨1, .unitary .S⟩) (r : Reg) : Adds P (Gate.s r : M β _) := gate _ (fun s => by rw [Sim.makeS]; exact hO) r
theorem t (hO : O ⟨1, .unitary .T⟩) (r : Reg) : Adds P (Gate.t r : M β _) := gate _ (fun s => by rw [Sim.makeT]; exact hO) r

theorem sDagger (hO : Basic O) (r : Reg) : Adds P (Verif.sDagger r : M β _) := by
  unfold Verif.sDagger
  adds [z, s, hO.z, hO.s]

theorem tDagger (hO : Basic O) (r : Reg) : Adds P (Verif.tDagger r : M β _) := by
  unfold Verif.tDagger
  adds [sDagger hO, t hO.t]

theorem cnot (hO : O ⟨2, .unitary .CNOT⟩) (cr r : Reg) : Adds P (Verif.cnot cr r : M β _) := by
  have h : ∀ p r, Adds P (cnotStep p r : M β _) := by
    intro p r
    unfold cnotStep
    adds [TracksT.mergeTwo, TracksT.applyCO, TracksT.splitRel]
    rw [Sim.makeCnot]
    exact hO
  unfold Verif.cnot
  adds [splitAll, mergeRegisters, h]

theorem swap (hO : O ⟨2, .unitary .CNOT⟩) (ra rb : Reg) : Adds P (Verif.swap ra rb : M β _) := by
  have h : ∀ p r, Adds P (swapPair p r : M β _) := by
    intro p r
    unfold swapPair
    adds [cnot hO]
  unfold Verif.swap
  adds [splitAll, mergeRegisters, h]

theorem basicToffoli (hO : Basic O) (cr r : Reg) : Adds P (Verif.basicToffoli cr r : M β _) := by
  unfold Verif.basicToffoli
  adds [TracksT.mergeTwo, TracksT.splitRel, cnot hO.cnot, Adds.h hO.h, t hO.t, tDagger hO]

theorem toffoli (hO : Basic O) (cr r : Reg) : Adds P (Verif.toffoli cr r : M β _) := by
  unfold Verif.toffoli
  generalize cr.length + 1 = k
  induction k generalizing cr r with
  | zero => exact throw _
  | succ k ih =>
    unfold toffoliF
    adds [TracksT.mergeTwo, TracksT.splitRel, cnot hO.cnot, basicToffoli hO, TracksT.makeTemp, TracksT.returnTemp, splitLast, ih]

end

/-! ## conditioned builders -/

theorem onParent {β α : Type} [Rooted β] {P : Pipeline → Prop} {m : M β α} (h : Adds P m) : Adds P (Conditioned.onParent m) := by
  refine ⟨fun s a s' he => ?_⟩
  unfold Conditioned.onParent at he
  split at he
  · next h1 =>
    injection he with h2 h3
    subst h2 h3
    exact h.out _ _ _ h1
  · cases he

theorem takeCr {β : Type} [Rooted β] {P : Pipeline → Prop} [Closed P] : Adds P (Conditioned.takeCr : M (Conditioned β) Reg) := by
  refine same fun s a s' he => ?_
  have h : (Verif.unwrapO s.cr : M (Conditioned β) Reg) { s with cr := none } = .ok a s' := he
  rcases hc : s.cr with _ | c
  · rw [hc] at h
    have h : EStateM.Result.error Fail.panic { s with cr := none } = EStateM.Result.ok a s' := h
    cases h
  · rw [hc] at h
    have h : EStateM.Result.ok c { s with cr := none } = EStateM.Result.ok a s' := h
    injection h with _ h
    rw [← h]
    rfl

theorem putCr {β : Type} [Rooted β] {P : Pipeline → Prop} [Closed P] (cr : Reg) : Adds P (Conditioned.putCr cr : M (Conditioned β) Unit) := by
  refine same fun s1 a s' he => ?_
  injection he with _ h
  rw [← h]
  rfl

theorem conditioned {β α : Type} [Rooted β] {P : Pipeline → Prop} (cr : Reg) {m : M (Conditioned β) α} (h : Adds P m) : Adds P (Conditioned.conditioned cr m) := by
  refine ⟨fun s a s' he => ?_⟩
  unfold Conditioned.conditioned at he
  split at he
  · next h1 =>
    split at he
    · injection he with h2 h3
      subst h2 h3
      exact h.out _ _ _ h1
    · cases he
  · cases he


end Adds

instance {β : Type} [Conditionable β] [Rooted β] [Sim β] {P : Pipeline → Prop} [Closed P] {O O' : CObj → Prop} [TracksC β P O O'] :
    TracksC (Conditioned β) P O' O' where
  register n := Adds.onParent (TracksT.register n)
  mergeTwo a b := Adds.onParent (TracksT.mergeTwo a b)
  splitRel a b := Adds.onParent (TracksT.splitRel a b)
  makeTemp := Adds.onParent TracksT.makeTemp
  returnTemp r := Adds.onParent (TracksT.returnTemp r)
  applyCO r co h := by
    show Adds P (Conditioned.applyCO r co)
    unfold Conditioned.applyCO
    adds [Adds.takeCr, Adds.putCr, Adds.onParent, TracksC.tryCond]
  tryCond cr r co h := by
    show Adds P (Conditioned.tryCond cr r co)
    unfold Conditioned.tryCond
    adds [Adds.takeCr, Adds.putCr, Adds.onParent (TracksC.tryCond _ _ _ h), Adds.onParent (TracksT.mergeTwo _ _), Adds.onParent (TracksT.splitRel _ _)]

instance {β : Type} [Recursive β] [Rooted β] [Sim β] {P : Pipeline → Prop} [Closed P] {O O' : CObj → Prop} [Tracks β P O O'] :
    Tracks (Conditioned β) P O' O' where
  sub sc r h := by
    show Adds P (do
      let cr ← Conditioned.takeCr
      let (cr, r) ← Conditioned.onParent (Recursive.applyCondSub sc cr r)
      Conditioned.putCr cr
      pure r : M (Conditioned β) Reg)
    adds [Adds.takeCr, Adds.putCr, Adds.onParent (Tracks.condSub _ _ _ h)]
  condSub sc cr r h := by
    show Adds P (do
      let ncr := cr.length
      let ccr ← Conditioned.takeCr
      let cr ← RegOps.mergeTwo cr ccr
      let (cr, r) ← Conditioned.onParent (Recursive.applyCondSub sc cr r)
      match ← RegOps.splitRel cr (List.range ncr) with
      | .split cr ccr => do
        Conditioned.putCr ccr
        pure (cr, r)
      | .selected _ => throw .panic
      | .unselected _ => throw .panic : M (Conditioned β) (Reg × Reg))
    adds [Adds.takeCr, Adds.putCr, Adds.onParent (Tracks.condSub _ _ _ h), Adds.onParent (TracksT.mergeTwo _ _), Adds.onParent (TracksT.splitRel _ _)]

/-! ## the builder at the bottom -/

/-- the angles of the rotations in a circuit add up to -/
noncomputable def rzSum (seg : Pipeline) : ℝ :=
  (seg.map fun e => match e.2.object with
    | .unitary (.Rz ρ) => rotAngle ρ
    | _ => 0).sum

/-- the gates -/
def Plain (co : CObj) : Prop :=
  match co.object with
  | .unitary .X | .unitary .Y | .unitary .Z | .unitary .H | .unitary .S | .unitary .T | .unitary .CNOT => True
  | _ => False

/-- the gates but `H` -/
def Plain' (co : CObj) : Prop := Plain co ∧ co.object ≠ .unitary .H

/-- only gates -/
def AllPlain (seg : Pipeline) : Prop := ∀ e ∈ seg, Plain e.2

/-- only gates and rotations about `z`, with the angles adding up to `δ` -/
def Turns (δ : ℝ) (seg : Pipeline) : Prop := (∀ e ∈ seg, Plain e.2 ∨ ∃ ρ, e.2.object = .unitary (.Rz ρ)) ∧ rzSum seg = δ

theorem Turns.app {a b : ℝ} {p q : Pipeline} (h : Turns a p) (h' : Turns b q) : Turns (a + b) (p ++ q) := by
  refine ⟨fun e he => ?_, ?_⟩
  · rcases List.mem_append.mp he with h1 | h1
    · exact h.1 e h1
    · exact h'.1 e h1
  · unfold rzSum
    rw [List.map_append, List.sum_append]
    exact congrArg₂ _ h.2 h'.2

instance : Closed AllPlain where
  nil := by simp [AllPlain]
  app p q hp hq e he := (List.mem_append.mp he).elim (hp e) (hq e)

instance : Closed (Turns 0) where
  nil := ⟨by simp, by simp [rzSum]⟩
  app p q hp hq := by have := hp.app hq; rwa [add_zero] at this

theorem AllPlain.turns {p : Pipeline} (h : AllPlain p) : Turns 0 p := by
  refine ⟨fun e he => .inl (h e he), ?_⟩
  unfold rzSum
  refine List.sum_eq_zero fun v hv => ?_
  obtain ⟨e, he, rfl⟩ := List.mem_map.mp hv
  have := h e he
  unfold Plain at this
  split
  · next h1 => rw [h1] at this; exact this.elim
  · rfl

theorem plain_basic : Basic Plain := ⟨trivial, trivial, trivial, trivial, trivial, trivial⟩

namespace Adds

theorem push {P : Pipeline → Prop} (r : Reg) (co : CObj) (h : P [(r, co)]) : Adds P (LocalBuilder.push r co) := by
  refine ⟨fun s a s' he => ?_⟩
  injection he with _ h1
  rw [← h1]
  exact ⟨_, rfl, h⟩

theorem modify {P : Pipeline → Prop} [Closed P] (f : LocalBuilder → LocalBuilder) (h : ∀ s, (f s).pipeline = s.pipeline) :
    Adds P (_root_.modify f : M LocalBuilder PUnit) := by
  refine same fun s a s' he => ?_
  injection he with _ h1
  rw [← h1]
  exact h s

theorem local_register {P : Pipeline → Prop} [Closed P] (n : ℕ) : Adds P (LocalBuilder.register n) := by
  unfold LocalBuilder.register
  exact bind get fun b => bind (unwrapO _) fun r => bind (modify _ fun _ => rfl) fun _ => pure r

theorem local_mergeTwo {P : Pipeline → Prop} [Closed P] (a b : Reg) : Adds P (LocalBuilder.mergeTwo a b) := by
  unfold LocalBuilder.mergeTwo
  adds

theorem local_splitRel {P : Pipeline → Prop} [Closed P] (r : Reg) (is : List ℕ) : Adds P (LocalBuilder.splitRel r is) := by
  unfold LocalBuilder.splitRel
  adds

theorem local_splitAll {P : Pipeline → Prop} [Closed P] (r : Reg) : Adds P (Verif.splitAll r : M LocalBuilder _) := by
  unfold Verif.splitAll
  generalize r.length + 1 = k
  generalize ([] : List Reg) = acc
  induction k generalizing r acc with
  | zero => exact throw _
  | succ k ih =>
    unfold Verif.splitHelper
    adds [local_splitRel, ih]

theorem local_applyCO {P : Pipeline → Prop} [Closed P] (r : Reg) (co : CObj) (h : ∀ r, P [(r, co)]) : Adds P (LocalBuilder.applyCO r co) := by
  unfold LocalBuilder.applyCO Verif.mergeRegisters
  adds [local_splitAll, push _ _ (h _), local_mergeTwo]

theorem local_makeTemp {P : Pipeline → Prop} [Closed P] : Adds P LocalBuilder.makeTempQubit := by
  refine same fun s a s' he => ?_
  change (match s.zeroedQubits.getLast? with
    | some r => (do
      set { s with zeroedQubits := s.zeroedQubits.dropLast }
      Pure.pure r : M LocalBuilder Reg)
    | none => qubit) s = _ at he
  rcases hz : s.zeroedQubits.getLast? with _ | r <;> rw [hz] at he
  rotate_left
  · injection he with _ h
    rw [← h]
    rfl
  · haveI : Closed (fun p : Pipeline => p = []) := ⟨rfl, fun p q hp hq => by rw [hp, hq]; rfl⟩
    obtain ⟨seg, h1, h2⟩ := (local_register (P := fun p : Pipeline => p = []) 1).out _ _ _ he
    rw [h1, h2, List.append_nil]

theorem local_returnTemp {P : Pipeline → Prop} [Closed P] (r : Reg) : Adds P (LocalBuilder.returnTemp r) := by
  unfold LocalBuilder.returnTemp
  exact bind (local_splitAll _) fun b => modify _ fun _ => rfl

end Adds

theorem tracks_local {P : Pipeline → Prop} [Closed P] {O : CObj → Prop} (h : ∀ r co, O co → P [(r, co)]) : TracksT LocalBuilder P O where
  register := Adds.local_register
  mergeTwo := Adds.local_mergeTwo
  splitRel := Adds.local_splitRel
  makeTemp := Adds.local_makeTemp
  returnTemp := Adds.local_returnTemp
  applyCO r co hc := Adds.local_applyCO r co fun r => h r co hc

theorem allPlain_local : TracksT LocalBuilder AllPlain Plain := tracks_local fun r co h => by simpa [AllPlain] using h

theorem condPlain (cr r : Reg) (co : CObj) (h : Plain' co) : Adds AllPlain (LocalBuilder.tryCond cr r co) := by
  haveI := allPlain_local
  have hb := plain_basic
  obtain ⟨h1, h2⟩ := h
  unfold Plain at h1
  unfold LocalBuilder.tryCond
  have hp : ∀ g : Reg → M LocalBuilder Reg, (∀ r, Adds AllPlain (g r)) → Adds AllPlain (LocalBuilder.condPhase g cr r) := by
    intro g hg
    unfold LocalBuilder.condPhase
    adds [TracksT.mergeTwo, TracksT.makeTemp, Adds.toffoli hb, hg, TracksT.returnTemp, Adds.splitLast]
  split <;> rename_i ho
  · exact Adds.toffoli hb _ _
  · adds [Adds.s hb.s, Adds.toffoli hb, Adds.sDagger hb]
  · adds [Adds.h hb.h, Adds.toffoli hb]
  · exact absurd ho h2
  · exact hp _ (Adds.s hb.s)
  · exact hp _ (Adds.t hb.t)
  · rw [ho] at h1; exact h1.elim
  · adds [Adds.splitFirst, TracksT.mergeTwo, Adds.toffoli hb, Adds.splitLast]
  all_goals rw [ho] at h1; exact h1.elim

theorem turns_local : TracksT LocalBuilder (Turns 0) Plain :=
  tracks_local fun r co h => AllPlain.turns (by simpa [AllPlain] using h)

theorem ryPiBy_turns (r : Reg) {m : ℤ} (hm : m ≠ 0) : Adds (Turns (-(1 / m))) (Rotations.ryPiBy r m : M LocalBuilder Reg) := by
  haveI := turns_local
  have hb := plain_basic
  have hz : ∀ r (q : ℚ), Adds (Turns q) (LocalBuilder.rzRatio r q) := by
    intro r q
    show Adds _ (unwrapM (LocalBuilder.applyCO r ⟨r.length, .unitary (.Rz (.floating q))⟩))
    refine Adds.unwrapM ⟨fun s a s' he => ?_⟩
    have := applyCO_reg_emits r (.unitary (.Rz (.floating (q : ℝ)))) s
    rw [this] at he
    injection he with _ he
    rw [← he]
    exact ⟨_, rfl, by simp, by simp [rzSum, rotAngle]⟩
  show Adds _ (piByDefault (ryRatioDefault LocalBuilder.rzRatio) r m)
  unfold piByDefault ratio1 ryRatioDefault
  rw [if_neg hm, pure_bind]
  have h0 : ∀ {p q : Pipeline}, Turns 0 p → Turns (-(1 / m)) q → Turns (-(1 / m)) (p ++ q) := fun h1 h2 => by
    have := h1.app h2; rwa [zero_add] at this
  refine (Adds.s hb.s _).bind' (fun r => ?_) fun p q => h0
  refine (Adds.h hb.h _).bind' (fun r => ?_) fun p q => h0
  refine (hz r _).bind' (Q := Turns 0) (fun r => ?_) fun p q h1 h2 => ?_
  · adds [Adds.h hb.h, Adds.sDagger hb]
  · have := h1.app h2
    rw [add_zero] at this
    push_cast at this
    exact this

theorem condTurns (cr r : Reg) (co : CObj) (h : Plain co) : Adds (Turns 0) (LocalBuilder.tryCond cr r co) := by
  haveI := turns_local
  have hb := plain_basic
  by_cases h1 : co.object = .unitary .H
  · unfold LocalBuilder.tryCond
    rw [h1]
    refine (ryPiBy_turns r (m := 4) (by norm_num)).bind' (Q := Turns (1 / 4)) (fun r => ?_) fun p q h1 h2 => ?_
    · refine (Adds.toffoli (P := Turns 0) hb _ _).bind' (Q := Turns (1 / 4)) (fun p => ?_) fun p q h1 h2 => ?_
      · refine (ryPiBy_turns _ (m := -4) (by norm_num)).bind' (Q := Turns 0) (fun r => Adds.pure _) fun p q h1 h2 => ?_
        have := h1.app h2
        push_cast at this
        norm_num at this
        norm_num
        exact this
      · have := h1.app h2; rwa [zero_add] at this
    · have := h1.app h2
      push_cast at this
      norm_num at this
      exact this
  · exact (condPlain cr r co ⟨h, h1⟩).mono fun p hp => hp.turns

instance : TracksC LocalBuilder AllPlain Plain Plain' where
  toTracksT := allPlain_local
  tryCond := condPlain

instance turnsC_local : TracksC LocalBuilder (Turns 0) Plain Plain where
  toTracksT := turns_local
  tryCond := condTurns

instance : Tracks LocalBuilder AllPlain Plain Plain' where
  sub sc r h := Adds.applyPipelineObjects sc r h
  condSub sc cr r h := (Adds.conditioned cr (Adds.applyPipelineObjects sc r h)).bind fun _ => Adds.pure _

instance turns_tracks : Tracks LocalBuilder (Turns 0) Plain Plain where
  sub sc r h := Adds.applyPipelineObjects sc r h
  condSub sc cr r h := (Adds.conditioned cr (Adds.applyPipelineObjects sc r h)).bind fun _ => Adds.pure _

instance NB.tracks : (k : ℕ) → Tracks (NB k) (Turns 0) Plain Plain
  | 0 => inferInstanceAs (Tracks LocalBuilder (Turns 0) Plain Plain)
  | k + 1 => letI := NB.tracks k; inferInstanceAs (Tracks (Conditioned (NB k)) (Turns 0) Plain Plain)

/-! ## programs -/

namespace Adds
section
variable {β : Type} [Conditionable β] [Rooted β] [Sim β] {P : Pipeline → Prop} [Closed P] {O O' : CObj → Prop} [hT : TracksC β P O O']
include hT

theorem pullGroups (slots : Slots) (gs : List (List Sel)) : Adds P (Verif.pullGroups slots gs : M β _) := by
  induction gs generalizing slots with
  | nil => exact pure _
  | cons g gs ih =>
    unfold Verif.pullGroups
    adds [mergeRegisters, ih]

theorem putGroups (slots : Slots) (rs : List Reg) (gs : List (List Sel)) : Adds P (Verif.putGroups slots rs gs : M β _) := by
  induction gs generalizing slots rs with
  | nil =>
    unfold Verif.putGroups
    exact pure _
  | cons g gs ih =>
    cases rs with
    | nil => exact throw _
    | cons r rs =>
      unfold Verif.putGroups
      adds [splitAll, ih]

theorem mergeSlots (slots : Slots) : Adds P (Verif.mergeSlots slots : M β _) := by
  induction slots with
  | nil => exact pure _
  | cons g gs ih =>
    unfold Verif.mergeSlots
    adds [mergeRegisters, ih]

theorem negateBitmask (hO : O ⟨1, .unitary .X⟩) (r : Reg) (m : ℕ) : Adds P (Verif.negateBitmask r m : M β _) := by
  unfold Verif.negateBitmask Gate.not
  adds [mergeRegisters, splitAll, x hO]

/-- a line adds circuits with `P` -/
def _root_.Verif.LineAdds (P : Pipeline → Prop) {β : Type} [Rooted β] : Line β → Prop
  | .plain f _ => ∀ rs, Adds P (f rs)
  | .control _ f _ => ∀ rs, Adds P (f rs)

theorem program (hO : O ⟨1, .unitary .X⟩) (rs : List Reg) (lines : List (Line β)) (h : ∀ l ∈ lines, LineAdds P l) :
    Adds P (Verif.program rs lines : M β _) := by
  have hl : ∀ sl, ∀ l ∈ lines, Adds P (runLine sl l : M β _) := by
    intro sl l hl
    have := h l hl
    unfold runLine
    cases l with
    | plain f g =>
      simp only [LineAdds] at this
      dsimp only
      adds [pullGroups, this, putGroups]
    | control mask f g =>
      simp only [LineAdds] at this
      dsimp only
      adds [pullGroups, conditioned _ (this _), putGroups, negateBitmask hO]
  unfold Verif.program
  adds [splitAll, hl, mergeSlots]

end

section
variable {β : Type} [Recursive β] [Rooted β] [Sim β] {P : Pipeline → Prop} [Closed P] {O O' : CObj → Prop} [hT : Tracks β P O O']
include hT

theorem op1 {g : Reg → M β Reg} (h : ∀ r, Adds P (g r)) (rs : List Reg) : Adds P (Verif.op1 g rs) := by
  unfold Verif.op1
  adds [h]

/-- the inverse of a function -/
theorem invertFn {f : List Reg → M LocalBuilder (List Reg)} (hf : ∀ sizes sc inv, buildSub sizes f = .ok sc → invertSub sc = .ok inv → ∀ e ∈ inv, O e.2)
    (rs : List Reg) : Adds P (Verif.invertFn f rs : M β _) := by
  unfold Verif.invertFn
  cases hb : buildSub (rs.map List.length) f with
  | error e => exact throw_bind _ _
  | ok sc =>
    show Adds P (Pure.pure sc >>= _)
    rw [pure_bind]
    cases hi : invertSub sc with
    | error e =>
      have ha : ∀ r, Adds P (applyInverted sc r : M β _) := by
        intro r
        unfold applyInverted
        rw [hi]
        exact throw_bind _ _
      adds [mergeRegisters, splitGroups, ha]
    | ok inv =>
      have := hf _ _ _ hb hi
      have ha : ∀ r, Adds P (applyInverted sc r : M β _) := by
        intro r
        unfold applyInverted
        rw [hi]
        show Adds P (Pure.pure inv >>= _)
        rw [pure_bind]
        exact Tracks.sub _ _ this
      adds [mergeRegisters, splitGroups, ha]

end
end Adds

end Verif
