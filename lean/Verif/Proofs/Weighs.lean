import Verif.Proofs.QuietInv

/-! # Rotations inside conditions keep their angles -/

namespace Verif
open Classical Complex RegOps CircuitBuilder TempBuilder Rooted

/-- the angle an object counts for in `rzSum` -/
noncomputable def objRz (co : CObj) : ℝ := match co.object with
  | .unitary (.Rz ρ) => rotAngle ρ
  | _ => 0

theorem rzSum_objRz (e : List ℕ × CObj) (sc : Pipeline) : rzSum (e :: sc) = objRz e.2 + rzSum sc := by
  unfold rzSum objRz
  rw [List.map_cons, List.sum_cons]
  rfl

theorem objRz_plain {co : CObj} (h : Plain co) : objRz co = 0 := by
  have := plain_rz (e := ([], co)) h
  rw [rzSum_objRz] at this
  simpa [rzSum] using this

/-! ## results of methods -/

/-- if `m` succeeds, its result has the property `Q` -/
structure Gives {β α : Type} (Q : α → Prop) (m : M β α) : Prop where
  out : ∀ s a s', m s = .ok a s' → Q a

section
variable {β α γ : Type}

theorem bind_inv {m : M β α} {f : α → M β γ} {s s' : β} {c : γ} (h : (m >>= f) s = .ok c s') : ∃ a s1, m s = .ok a s1 ∧ f a s1 = .ok c s' := by
  cases hm : m s with
  | ok a s1 => exact ⟨a, s1, rfl, by rwa [bind_ok hm] at h⟩
  | error e s1 => rw [bind_err hm] at h; cases h

theorem Gives.bind {Q : α → Prop} {R : γ → Prop} {m : M β α} {f : α → M β γ} (h : Gives Q m) (h' : ∀ a, Q a → Gives R (f a)) : Gives R (m >>= f) := by
  refine ⟨fun s c s' he => ?_⟩
  obtain ⟨a, s1, h1, h2⟩ := bind_inv he
  exact (h' a (h.out _ _ _ h1)).out _ _ _ h2

theorem Gives.bind' {R : γ → Prop} {m : M β α} {f : α → M β γ} (h' : ∀ a, Gives R (f a)) : Gives R (m >>= f) :=
  Gives.bind (Q := fun _ => True) ⟨fun _ _ _ _ => trivial⟩ fun a _ => h' a

theorem Gives.pure {Q : α → Prop} {a : α} (h : Q a) : Gives Q (Pure.pure a : M β α) := ⟨fun s b s' he => by injection he with h1; rwa [← h1]⟩

theorem Gives.throw {Q : α → Prop} (e : Fail) : Gives Q (MonadExcept.throw e : M β α) := ⟨fun s b s' he => by cases he⟩

theorem Gives.liftE {Q : α → Prop} {e : Except Fail α} (h : ∀ a, e = .ok a → Q a) : Gives Q (Verif.liftE e : M β α) := by
  cases e with
  | error e => exact ⟨fun s b s' he => by cases he⟩
  | ok a => exact Gives.pure (h a rfl)

theorem Gives.unwrapO {Q : α → Prop} {o : Option α} (h : ∀ a, o = some a → Q a) : Gives Q (Verif.unwrapO o : M β α) := by
  cases o with
  | none => exact ⟨fun s b s' he => by cases he⟩
  | some a => exact Gives.pure (h a rfl)

theorem Adds.bindQ [Rooted β] {P Q R : Pipeline → Prop} {V : α → Prop} {m : M β α} {f : α → M β γ} (h : Adds P m) (hv : Gives V m) (h' : ∀ a, V a → Adds Q (f a))
    (hR : ∀ p q, P p → Q q → R (p ++ q)) : Adds R (m >>= f) := by
  refine ⟨fun s c s' he => ?_⟩
  obtain ⟨a, s1, h1, h2⟩ := bind_inv he
  obtain ⟨p, p1, p2⟩ := h.out _ _ _ h1
  obtain ⟨q, q1, q2⟩ := (h' a (hv.out _ _ _ h1)).out _ _ _ h2
  exact ⟨p ++ q, by rw [q1, p1, List.append_assoc], hR _ _ p2 q2⟩

theorem Adds.and [Rooted β] {P Q : Pipeline → Prop} {m : M β α} (h : Adds P m) (h' : Adds Q m) : Adds (fun p => P p ∧ Q p) m := by
  refine ⟨fun s c s' he => ?_⟩
  obtain ⟨p, p1, p2⟩ := h.out _ _ _ he
  obtain ⟨q, q1, q2⟩ := h'.out _ _ _ he
  obtain rfl := List.append_cancel_left (p1.symm.trans q1)
  exact ⟨p, p1, p2, q2⟩

end

/-! ## registers in the builder at the bottom -/

theorem local_splitRel0 (r : Reg) : Gives (fun o => (∀ q, o = .selected q → q.length = 1) ∧ ∀ a b, o = .split a b → a.length = 1)
    (RegOps.splitRel r [0] : M LocalBuilder _) := by
  show Gives _ (LocalBuilder.splitRel r [0])
  unfold LocalBuilder.splitRel
  refine Gives.bind (Q := fun sel => sel.length = 1) (Gives.unwrapO fun a ha => ?_) fun sel hsel => ?_
  · cases r with
    | nil => simp [LocalBuilder.selectIndices] at ha
    | cons q r =>
      simp [LocalBuilder.selectIndices] at ha
      rw [← ha]; rfl
  · obtain ⟨q, rfl⟩ := List.length_eq_one_iff.mp hsel
    have h1 : Reg.new [q] = some [q] := rfl
    simp only [h1]
    split
    · next h2 _ => exact Gives.pure ⟨fun a ha => by injection ha with ha; injection h2 with h2; rw [← ha, ← h2]; rfl, by simp⟩
    · exact Gives.pure ⟨by simp, by simp⟩
    · next h2 _ => exact Gives.pure ⟨by simp, fun a b ha => by injection ha with ha; injection h2 with h2; rw [← ha, ← h2]; rfl⟩
    · exact Gives.throw _

theorem local_splitAll_one (r : Reg) : Gives (fun rs => ∀ q ∈ rs, q.length = 1) (splitAll r : M LocalBuilder _) := by
  unfold splitAll
  have : ∀ k (r : Reg) acc, (∀ q ∈ acc, q.length = 1) → Gives (fun rs : List Reg => ∀ q ∈ rs, q.length = 1) (splitHelper k r acc : M LocalBuilder _) := by
    intro k
    induction k with
    | zero => intro r acc _; exact Gives.throw _
    | succ k ih =>
      intro r acc hacc
      unfold splitHelper
      refine Gives.bind (local_splitRel0 r) fun o ho => ?_
      cases o with
      | selected q =>
        refine Gives.pure fun p hp => ?_
        rcases List.mem_append.mp hp with h | h
        · exact hacc p h
        · rw [List.mem_singleton.mp h]; exact ho.1 q rfl
      | split a b =>
        refine ih _ _ fun p hp => ?_
        rcases List.mem_append.mp hp with h | h
        · exact hacc p h
        · rw [List.mem_singleton.mp h]; exact ho.2 a b rfl
      | unselected q => exact Gives.throw _
  exact this _ _ _ (by simp)

theorem local_merge_length (rs : List Reg) (h : ∀ r ∈ rs, r.length = 1) : Gives (fun o => ∀ r, o = some r → r ≠ [] ∧ r.length = rs.length)
    (mergeRegisters rs : M LocalBuilder _) := by
  have hl : rs.flatten.length = rs.length := by
    rw [List.length_flatten, List.map_congr_left (g := fun _ => 1) h]
    simp
  by_cases h0 : rs = []
  · subst h0
    rw [mergeRegisters_nil]
    exact Gives.pure (by simp)
  · rw [mergeRegisters_ne rs h0 fun r hr h1 => by have := h r hr; rw [h1] at this; cases this]
    refine Gives.pure fun r hr => ?_
    injection hr with hr
    subst hr
    refine ⟨fun h1 => ?_, hl⟩
    rw [h1] at hl
    exact h0 (List.length_eq_zero_iff.mp hl.symm)

theorem takeMany_ok {is : List ℕ} {slots : List (Option Reg)} {rs : List Reg} {sl : List (Option Reg)} (h : takeMany slots is = .ok (rs, sl)) :
    rs.length = is.length ∧ (∀ r ∈ rs, some r ∈ slots) ∧ ∀ r, some r ∈ sl → some r ∈ slots := by
  induction is generalizing slots rs sl with
  | nil => injection h with h; injection h with h1 h2; subst h1 h2; simp
  | cons i is ih =>
    rw [takeMany] at h
    cases hi : slots[i]? with
    | none => rw [hi] at h; cases h
    | some o =>
      cases o with
      | none => rw [hi] at h; cases h
      | some r =>
        rw [hi] at h
        cases ht : takeMany (slots.set i none) is with
        | error e => simp only [ht] at h; cases h
        | ok p =>
          obtain ⟨rs', sl'⟩ := p
          simp only [ht] at h
          injection h with h
          injection h with h1 h2
          subst h1 h2
          obtain ⟨k1, k2, k3⟩ := ih ht
          have hm : ∀ r, some r ∈ slots.set i none → some r ∈ slots := by
            intro r hr
            rcases List.mem_or_eq_of_mem_set hr with h | h
            · exact h
            · cases h
          refine ⟨by simp [k1], fun q hq => ?_, fun q hq => hm q (k3 q hq)⟩
          rcases List.mem_cons.mp hq with rfl | hq
          · exact List.mem_of_getElem? hi
          · exact hm q (k2 q hq)

/-! ## sizes of objects -/

/-- an element on as many qubits as its object has (or on none) -/
def AllSized (sc : Pipeline) : Prop := ∀ e ∈ sc, e.1 = [] ∨ e.2.n = e.1.length

instance : Closed AllSized where
  nil := by simp [AllSized]
  app p q hp hq e he := (List.mem_append.mp he).elim (hp e) (hq e)

theorem local_sized (r : Reg) (co : CObj) : Adds AllSized (LocalBuilder.applyCO r co) := by
  unfold LocalBuilder.applyCO
  split
  · next h1 =>
    split
    · next h2 =>
      refine Adds.bindQ (Adds.local_splitAll _) (local_splitAll_one r) (fun rs hrs => ?_) Closed.app
      refine Adds.bind (Adds.forM _ fun q hq => Adds.push _ _ ?_) fun _ => ?_
      · have := hrs q hq
        intro e he
        rw [List.mem_singleton.mp he]
        exact .inr (by simp [h2.1, this])
      · unfold Verif.mergeRegisters
        adds [Adds.local_mergeTwo]
    · next h2 =>
      refine Adds.bind (Adds.push _ _ ?_) fun _ => Adds.pure _
      intro e he
      rw [List.mem_singleton.mp he]
      rcases h1 with h1 | h1
      · by_cases hr : r = []
        · exact .inl hr
        · have := List.length_pos_iff.mpr hr
          exact .inr (by simp only; omega)
      · exact .inr h1
  · exact Adds.throw _

theorem sized_local : TracksT LocalBuilder AllSized (fun _ => True) where
  register := Adds.local_register
  mergeTwo := Adds.local_mergeTwo
  splitRel := Adds.local_splitRel
  makeTemp := Adds.local_makeTemp
  returnTemp := Adds.local_returnTemp
  applyCO r co _ := local_sized r co

theorem sized_basic : Basic (fun _ : CObj => True) := ⟨trivial, trivial, trivial, trivial, trivial, trivial⟩

theorem condSized (cr r : Reg) (co : CObj) (h : Gentle co) : Adds AllSized (LocalBuilder.tryCond cr r co) := by
  haveI := sized_local
  have hb := sized_basic
  have hz : ∀ (r : Reg) (θ : ℝ), Adds AllSized (LocalBuilder.rz r θ) := fun r θ => Adds.unwrapM (local_sized _ _)
  have hq : ∀ (r : Reg) (θ : ℚ), Adds AllSized (LocalBuilder.rzRatio r θ) := fun r θ => Adds.unwrapM (local_sized _ _)
  have hy : ∀ (r : Reg) (m : ℤ), Adds AllSized (Rotations.ryPiBy r m : M LocalBuilder Reg) := by
    intro r m
    show Adds _ (piByDefault (ryRatioDefault LocalBuilder.rzRatio) r m)
    unfold piByDefault ratio1 ryRatioDefault
    adds [Adds.s hb.s, Adds.h hb.h, Adds.sDagger hb, hq]
  have hp : ∀ g : Reg → M LocalBuilder Reg, (∀ r, Adds AllSized (g r)) → Adds AllSized (LocalBuilder.condPhase g cr r) := by
    intro g hg
    unfold LocalBuilder.condPhase
    adds [TracksT.mergeTwo, TracksT.makeTemp, Adds.toffoli hb, hg, TracksT.returnTemp, Adds.splitLast]
  unfold LocalBuilder.tryCond
  split <;> rename_i ho
  · exact Adds.toffoli hb _ _
  · adds [Adds.s hb.s, Adds.toffoli hb, Adds.sDagger hb]
  · adds [Adds.h hb.h, Adds.toffoli hb]
  · adds [hy, Adds.toffoli hb]
  · exact hp _ (Adds.s hb.s)
  · exact hp _ (Adds.t hb.t)
  · rcases h with h | ⟨ρ, h⟩
    · simp [Plain, ho] at h
    · rw [ho] at h; cases h
  · adds [Adds.splitFirst, TracksT.mergeTwo, Adds.toffoli hb, Adds.splitLast]
  · rcases h with h | ⟨ρ, h⟩
    · simp [Plain, ho] at h
    · rw [ho] at h; cases h
  · adds [TracksT.mergeTwo, TracksT.makeTemp, Adds.toffoli hb, hz, hq, TracksT.returnTemp, TracksT.splitRel]
  · exact Adds.throw _
  · exact Adds.throw _

theorem rz_turns (r : Reg) (θ : ℝ) : Adds (Turns θ) (LocalBuilder.rz r θ) := by
  refine Adds.unwrapM ⟨fun s a s' he => ?_⟩
  have := applyCO_reg_emits r (.unitary (.Rz (.floating θ))) s
  rw [this] at he
  injection he with _ he
  rw [← he]
  exact ⟨_, rfl, by simp, by simp [rzSum, rotAngle]⟩

section
variable {β α γ : Type} [Rooted β] {δ : ℝ}

theorem Adds.after {m : M β α} {f : α → M β γ} (h : Adds (Turns 0) m) (h' : ∀ a, Adds (Turns δ) (f a)) : Adds (Turns δ) (m >>= f) :=
  h.bind' h' fun p q h1 h2 => by have := h1.app h2; rwa [zero_add] at this

theorem Adds.before {m : M β α} {f : α → M β γ} (h : Adds (Turns δ) m) (h' : ∀ a, Adds (Turns 0) (f a)) : Adds (Turns δ) (m >>= f) :=
  h.bind' h' fun p q h1 h2 => by have := h1.app h2; rwa [add_zero] at this

theorem Adds.never {P : Pipeline → Prop} {m : M β α} (h : ∀ s a s', m s ≠ .ok a s') : Adds P m := ⟨fun s a s' he => absurd he (h s a s')⟩

end

/-- a conditioned object counts for as much as the object itself -/
theorem condTurnsG (cr r : Reg) (co : CObj) (h : Gentle co) : Adds (Turns (objRz co)) (LocalBuilder.tryCond cr r co) := by
  haveI := turns_local
  have hb := plain_basic
  rcases h with h | ⟨ρ, h⟩
  · rw [objRz_plain h]
    exact condTurns cr r co h
  · unfold LocalBuilder.tryCond objRz
    rw [h]
    dsimp only
    refine Adds.after (TracksT.mergeTwo _ _) fun _ => Adds.after TracksT.makeTemp fun _ => Adds.after (Adds.toffoli hb _ _) fun _ => ?_
    cases ρ with
    | floating θ =>
      refine Adds.before (rz_turns _ _) fun _ => ?_
      adds [Adds.toffoli hb, TracksT.returnTemp, TracksT.splitRel]
    | piRational θ =>
      refine Adds.before (rz_turns _ _) fun _ => ?_
      adds [Adds.toffoli hb, TracksT.returnTemp, TracksT.splitRel]

theorem condApply_turns (r : Reg) (co : CObj) (h : Gentle co) : Adds (Turns (objRz co)) (applyCO r co : M (Conditioned LocalBuilder) Reg) := by
  show Adds _ (Conditioned.applyCO r co)
  unfold Conditioned.applyCO
  refine Adds.after Adds.takeCr fun _ => Adds.before (Adds.onParent (condTurnsG _ _ _ h)) fun _ => ?_
  adds [Adds.putCr]

theorem foldTurns {β : Type} [Rooted β] {σ : Type} (Q : σ → Prop) {f : σ → List ℕ × CObj → M β σ} (sc : Pipeline)
    (hf : ∀ sl, Q sl → ∀ e ∈ sc, Adds (Turns (objRz e.2)) (f sl e) ∧ Gives Q (f sl e)) (sl : σ) (h : Q sl) :
    Adds (Turns (rzSum sc)) (sc.foldlM f sl) := by
  induction sc generalizing sl with
  | nil =>
    have : rzSum [] = 0 := by simp [rzSum]
    rw [this]
    exact Adds.pure _
  | cons e sc ih =>
    rw [List.foldlM_cons, rzSum_objRz]
    obtain ⟨h1, h2⟩ := hf sl h e (by simp)
    exact Adds.bindQ h1 h2 (fun a ha => ih (fun sl h e he => hf sl h e (by simp [he])) a ha) fun p q => Turns.app

theorem pipeline_turns {β : Type} [Conditionable β] [Rooted β] [Sim β] {O : CObj → Prop} [TracksT β (Turns 0) O] (V : Reg → Prop)
    (hV : ∀ r, Gives (fun rs => ∀ q ∈ rs, V q) (splitAll r : M β _)) (sc : Pipeline) (r : Reg)
    (hfold : ∀ sl, (∀ q, some q ∈ sl → V q) → Adds (Turns (rzSum sc)) (sc.foldlM applyEntry sl : M β _)) :
    Adds (Turns (rzSum sc)) (applyPipelineObjects sc r : M β Reg) := by
  have h0 : ∀ p q, Turns 0 p → Turns (rzSum sc) q → Turns (rzSum sc) (p ++ q) := fun p q h1 h2 => by
    have := h1.app h2; rwa [zero_add] at this
  unfold applyPipelineObjects
  refine Adds.bindQ (Adds.splitAll _) (hV r) (fun rs hrs => ?_) h0
  refine Adds.after (Adds.unwrapO _) fun m => ?_
  dsimp only
  split
  · exact Adds.never fun s a s' he => by cases he
  · split
    · rw [pure_bind]
      refine Adds.before (hfold _ fun q hq => ?_) fun _ => ?_
      · simpa using hrs q (by simpa using hq)
      · adds [Adds.mergeRegisters, TracksT.returnTemp]
    · refine Adds.after (Adds.makeTempRegister _) fun t => ?_
      refine Adds.bindQ (Adds.splitAll _) (hV t) (fun ts hts => ?_) h0
      rw [pure_bind]
      refine Adds.before (hfold _ fun q hq => ?_) fun _ => ?_
      · simp only [List.mem_map, List.mem_append, Option.some.injEq, exists_eq_right] at hq
        exact hq.elim (hrs q) (hts q)
      · adds [Adds.mergeRegisters, TracksT.returnTemp]

/-- a circuit of gates and rotations about `z` inside a condition counts for as much as outside -/
theorem condPipeline_turns (sc : Pipeline) (r : Reg) (h : ∀ e ∈ sc, Gentle e.2) :
    Adds (Turns (rzSum sc)) (applyPipelineObjects sc r : M (Conditioned LocalBuilder) Reg) := by
  refine pipeline_turns (fun _ => True) (fun _ => ⟨fun _ _ _ _ _ _ => trivial⟩) sc r fun sl _ => ?_
  refine foldTurns (fun _ => True) sc (fun sl _ e he => ⟨?_, ⟨fun _ _ _ _ => trivial⟩⟩) sl trivial
  unfold applyEntry
  refine Adds.after (Adds.liftE _) fun _ => Adds.after (Adds.mergeRegisters _) fun _ => Adds.after (Adds.unwrapO _) fun _ =>
    Adds.before (condApply_turns _ _ (h e he)) fun _ => ?_
  adds [Adds.splitAll]

/-- an object on as many qubits as it has -/
theorem applyCO_turns {r : Reg} {co : CObj} (h : Gentle co) (hn : co.n = r.length) : Adds (Turns (objRz co)) (LocalBuilder.applyCO r co) := by
  have hp : Turns (objRz co) [(r, co)] := ⟨by simpa [Gentle] using h, by rw [rzSum_objRz]; simp [rzSum]⟩
  unfold LocalBuilder.applyCO
  rw [if_pos (.inr hn), if_neg (by omega)]
  exact Adds.before (Adds.push r co hp) fun _ => Adds.pure _

theorem foldSet_all (ps : List (ℕ × Reg)) (sl : List (Option Reg)) {V : Reg → Prop} (h : ∀ q, some q ∈ sl → V q) (hp : ∀ p ∈ ps, V p.2) :
    ∀ q, some q ∈ ps.foldl (fun sl p => sl.set p.1 (some p.2)) sl → V q := by
  induction ps generalizing sl with
  | nil => exact h
  | cons p ps ih =>
    refine ih _ (fun q hq => ?_) fun p hp' => hp p (by simp [hp'])
    rcases List.mem_or_eq_of_mem_set hq with h1 | h1
    · exact h q h1
    · injection h1 with h1
      rw [h1]
      exact hp p (by simp)

theorem pipeline_local (sc : Pipeline) (r : Reg) (h : ∀ e ∈ sc, Gentle e.2) (hs : AllSized sc) :
    Adds (Turns (rzSum sc)) (applyPipelineObjects sc r : M LocalBuilder Reg) := by
  haveI := turns_local
  refine pipeline_turns (fun q => q.length = 1) local_splitAll_one sc r fun sl hsl => ?_
  refine foldTurns (fun sl => ∀ q, some q ∈ sl → q.length = 1) sc (fun sl hsl e he => ?_) sl hsl
  have h0 : ∀ p q, Turns 0 p → Turns (objRz e.2) q → Turns (objRz e.2) (p ++ q) := fun p q h1 h2 => by
    have := h1.app h2; rwa [zero_add] at this
  constructor
  · unfold applyEntry
    refine Adds.bindQ (Adds.liftE _) (Gives.liftE (Q := fun p => p.1.length = e.1.length ∧ ∀ r ∈ p.1, r.length = 1) fun p hp => ?_) (fun p hp => ?_) h0
    · obtain ⟨k1, k2, -⟩ := takeMany_ok (rs := p.1) (sl := p.2) hp
      exact ⟨k1, fun r hr => hsl r (k2 r hr)⟩
    obtain ⟨rs, sl'⟩ := p
    refine Adds.bindQ (Adds.mergeRegisters _) (local_merge_length rs hp.2) (fun m hm => ?_) h0
    refine Adds.bindQ (Adds.unwrapO _) (Gives.unwrapO (Q := fun q => q.length = e.2.n) fun q hq => ?_) (fun q hq => ?_) h0
    · obtain ⟨h1, h2⟩ := hm q hq
      have h3 : 0 < q.length := List.length_pos_iff.mpr h1
      rcases hs e he with h4 | h4
      · rw [h2, hp.1, h4] at h3
        cases h3
      · rw [h4, h2, hp.1]
    · refine Adds.before (applyCO_turns (h e he) hq.symm) fun _ => ?_
      adds [Adds.splitAll]
  · unfold applyEntry
    refine Gives.bind (Gives.liftE (Q := fun p => ∀ r, some r ∈ p.2 → r.length = 1) fun p hp => ?_) fun p hp => ?_
    · obtain ⟨-, -, k3⟩ := takeMany_ok (rs := p.1) (sl := p.2) hp
      exact fun r hr => hsl r (k3 r hr)
    obtain ⟨rs, sl'⟩ := p
    refine Gives.bind' fun _ => Gives.bind' fun _ => Gives.bind' fun q => Gives.bind (local_splitAll_one q) fun rs hrs => ?_
    dsimp only
    split
    · exact Gives.pure (foldSet_all _ _ hp fun p hp => hrs p.2 (List.of_mem_zip hp).2)
    · exact Gives.throw _

/-! ## inverses of circuits that turn by zero -/

theorem sizedC : TracksC LocalBuilder AllSized Plain Plain where
  toTracksT := { sized_local with applyCO := fun r co _ => local_sized r co }
  tryCond cr r co h := condSized cr r co (.inl h)

instance sized_tracks : Tracks LocalBuilder AllSized Plain Plain where
  toTracksC := sizedC
  sub sc r _ := by
    haveI := sized_local
    exact Adds.applyPipelineObjects sc r fun _ _ => trivial
  condSub sc cr r h := by
    haveI := sizedC
    exact (Adds.conditioned cr (Adds.applyPipelineObjects sc r h)).bind fun _ => Adds.pure _

theorem invert_sized {sc inv : Pipeline} (h : AllSized sc) (hi : invertSub sc = .ok inv) : AllSized inv := by
  induction sc generalizing inv with
  | nil =>
    obtain rfl : [] = inv := by injection hi
    exact Closed.nil
  | cons e sc ih =>
    rw [invertSub_cons] at hi
    cases hp : invertSub sc with
    | error x => rw [hp] at hi; cases hi
    | ok p =>
      rw [hp] at hi
      cases ho : invertObject e.2 with
      | error x => rw [ho] at hi; cases hi
      | ok cos =>
        rw [ho] at hi
        injection hi with hi
        rw [← hi]
        refine Closed.app _ _ (ih (fun e he => h e (by simp [he])) hp) fun c hc => ?_
        obtain ⟨co, h1, rfl⟩ := List.mem_map.mp hc
        have h2 := h e (by simp)
        have key : ∀ x : Except Fail (List UObj), (x.map fun us => us.map fun u => (⟨e.2.n, .unitary u⟩ : CObj)) = .ok cos → co.n = e.2.n := by
          intro x hx
          cases x with
          | error x => cases hx
          | ok us =>
            injection hx with hx
            rw [← hx] at h1
            obtain ⟨u, -, rfl⟩ := List.mem_map.mp h1
            rfl
        have h3 : co.n = e.2.n := by
          unfold invertObject at ho
          split at ho
          · cases ho
          · next u _ =>
            exact key _ ho
        exact h2.imp id fun h2 => h3.trans h2

theorem invertFn_adds {β : Type} [Recursive β] [Rooted β] [Sim β] {P : Pipeline → Prop} [Closed P] {O : CObj → Prop} [hT : TracksT β P O]
    {f : List Reg → M LocalBuilder (List Reg)}
    (hf : ∀ sizes sc inv r, buildSub sizes f = .ok sc → invertSub sc = .ok inv → Adds P (Recursive.applySub inv r : M β _))
    (rs : List Reg) : Adds P (invertFn f rs : M β _) := by
  unfold Verif.invertFn
  cases hb : buildSub (rs.map List.length) f with
  | error e => exact Adds.throw_bind _ _
  | ok sc =>
    show Adds P (Pure.pure sc >>= _)
    rw [pure_bind]
    have ha : ∀ r, Adds P (applyInverted sc r : M β _) := by
      intro r
      unfold applyInverted
      cases hi : invertSub sc with
      | error e => exact Adds.throw_bind _ _
      | ok inv =>
        show Adds P (Pure.pure inv >>= _)
        rw [pure_bind]
        exact hf _ _ _ r hb hi
    adds [Adds.mergeRegisters, Adds.splitGroups, ha]

/-- the inverse of a circuit that turns by zero, made in the builder at the bottom, turns by zero -/
theorem Adds.inverse0 {f : List Reg → M LocalBuilder (List Reg)} (hf : ∀ rs, Adds (Turns 0) (f rs)) (hs : ∀ rs, Adds AllSized (f rs)) (rs : List Reg) :
    Adds (Turns 0) (Verif.invertFn f rs : M LocalBuilder _) := by
  refine invertFn_adds (fun sizes sc inv r hb hi => ?_) rs
  have h1 := invert_turns (buildSub_adds hf hb) hi
  have h2 := pipeline_local inv r h1.1 (invert_sized (buildSub_adds hs hb) hi)
  rw [h1.2, neg_zero] at h2
  exact h2

/-- the same inside a condition -/
theorem Adds.inverse1 {f : List Reg → M LocalBuilder (List Reg)} (hf : ∀ rs, Adds (Turns 0) (f rs)) (rs : List Reg) :
    Adds (Turns 0) (Verif.invertFn f rs : M (Conditioned LocalBuilder) _) := by
  refine invertFn_adds (fun sizes sc inv r hb hi => ?_) rs
  have h1 := invert_turns (buildSub_adds hf hb) hi
  have h2 : ∀ r, Adds (Turns 0) (Verif.applyPipelineObjects inv r : M (Conditioned LocalBuilder) Reg) := fun r => by
    have := condPipeline_turns inv r h1.1
    rwa [h1.2, neg_zero] at this
  have h3 : ∀ cr r, Adds (Turns 0) (Recursive.applyCondSub inv cr r : M LocalBuilder _) := fun cr r =>
    (Adds.conditioned cr (h2 r)).bind fun _ => Adds.pure _
  show Adds _ (do
      let cr ← Conditioned.takeCr
      let (cr, r) ← Conditioned.onParent (Recursive.applyCondSub inv cr r)
      Conditioned.putCr cr
      Pure.pure r : M (Conditioned LocalBuilder) Reg)
  adds [Adds.takeCr, Adds.putCr, Adds.onParent (h3 _ _)]

theorem Adds.expModF (d : ℕ) (rs : List Reg) : Adds (Turns 0) (Arith.expModF d rs : M LocalBuilder _) := by
  induction d generalizing rs with
  | zero => exact Adds.throw _
  | succ d ih =>
    have hx : Plain ⟨1, .unitary .X⟩ := trivial
    unfold Arith.expModF
    split
    · next h0 => injection h0
    · next h0 =>
      injection h0 with h0
      subst h0
      have h1 : ∀ rs, Adds (Turns 0) (Verif.program rs
          [.control (some 0) Arith.copy [[(1, some [0])], [(3, none)], [(4, none)]],
           .control none Arith.timesMod [[(1, some [0])], [(0, none)], [(3, none)], [(2, none)], [(4, none)]]] : M LocalBuilder _) := by
        intro rs
        refine Adds.program hx _ _ fun l hl => ?_
        simp only [List.mem_cons, List.not_mem_nil, or_false] at hl
        rcases hl with rfl | rfl
        · exact Adds.copy trivial
        · exact Adds.timesMod
      have h2 : ∀ k rs, Adds (Turns 0) (Verif.program rs
        [.control (some 0) Arith.copy [[(1, some [0])], [(3, none)], [(6, none)]],
         .control none Arith.timesMod [[(1, some [0])], [(0, none)], [(3, none)], [(2, none)], [(4, none)]],
         .plain Arith.squareMod [[(0, none)], [(2, none)], [(5, none)]],
         .plain (Arith.expModF d) [[(5, none)], [(1, some (List.range' 1 (k - 1)))], [(2, none)], [(6, none)], [(4, none)]],
         .plain Arith.squareModInv [[(0, none)], [(2, none)], [(5, none)]],
         .control none Arith.timesModInv [[(1, some [0])], [(0, none)], [(3, none)], [(2, none)], [(4, none)]],
         .control (some 0) Arith.copyInv [[(1, some [0])], [(3, none)], [(6, none)]]] : M LocalBuilder _) := by
        intro k rs
        refine Adds.program hx _ _ fun l hl => ?_
        simp only [List.mem_cons, List.not_mem_nil, or_false] at hl
        rcases hl with rfl | rfl | rfl | rfl | rfl | rfl | rfl
        · exact Adds.copy trivial
        · exact Adds.timesMod
        · exact Adds.squareMod
        · exact ih
        · exact Adds.inverse0 Adds.squareMod Adds.squareMod
        · exact Adds.inverse1 Adds.timesMod
        · exact Adds.copyInv
      dsimp only
      split
      · exact Adds.throw _
      split
      · exact Adds.throw _
      split
      · exact Adds.throw _
      split
      · exact h1 _
      · refine Adds.bind (Adds.makeTempRegister _) fun _ => Adds.bind (Adds.makeTempRegister _) fun _ => Adds.bind (h2 _ _) fun rs => ?_
        split
        · exact Adds.bind (TracksT.returnTemp _) fun _ => Adds.bind (TracksT.returnTemp _) fun _ => Adds.pure _
        · exact Adds.throw _
    · exact Adds.throw _

theorem Adds.expMod (rs : List Reg) : Adds (Turns 0) (Arith.expMod rs : M LocalBuilder _) := Adds.expModF _ rs

end Verif
