import Verif.Proofs.Ledger

/-! # Ownership of qubits through subcircuits, `program!` and the library functions -/

namespace Verif
open RegOps CircuitBuilder TempBuilder LawfulReg Ledger

theorem held_nil : held [] = [] := rfl

theorem held_cons (o : Option Reg) (l : List (Option Reg)) : held (o :: l) = o.toList ++ held l := by
  cases o <;> simp [held]

theorem held_set (l : List (Option Reg)) (i : ℕ) (o : Option Reg) : (held (l.set i o)).Subperm (o.toList ++ held l) := by
  induction l generalizing i with
  | nil => exact List.nil_subperm
  | cons a l ih =>
    cases i with
    | zero =>
      rw [List.set_cons_zero, held_cons, held_cons]
      qperm
    | succ i =>
      rw [List.set_cons_succ, held_cons, held_cons]
      refine ((List.Subperm.refl _).append (ih i)).trans ?_
      qperm

theorem held_take {l : List (Option Reg)} {i : ℕ} {r : Reg} (h : l[i]?.join = some r) :
    (r :: held (l.set i none)).Subperm (held l) := by
  induction l generalizing i with
  | nil => simp at h
  | cons a l ih =>
    cases i with
    | zero =>
      simp only [List.getElem?_cons_zero, Option.join_some] at h
      subst h
      rw [List.set_cons_zero, held_cons, held_cons]
      qperm
    | succ i =>
      rw [List.getElem?_cons_succ] at h
      have := subperm_count.mp (ih h)
      rw [List.set_cons_succ, held_cons, held_cons]
      refine subperm_count.mpr fun x => ?_
      have := this x
      simp only [List.count_append, count_cons_cnt] at this ⊢
      omega

theorem held_foldl_set (ps : List (ℕ × Reg)) (l : List (Option Reg)) :
    (held (ps.foldl (fun sl p => sl.set p.1 (some p.2)) l)).Subperm (ps.map Prod.snd ++ held l) := by
  induction ps generalizing l with
  | nil => exact List.Subperm.refl _
  | cons p ps ih =>
    rw [List.foldl_cons]
    refine (ih _).trans (((List.Subperm.refl _).append (held_set l p.1 (some p.2))).trans ?_)
    rw [List.map_cons]
    qperm

theorem held_mapM {l : List (Option Reg)} {rs : List Reg} (h : l.mapM id = some rs) : held l = rs := by
  have : l = rs.map some := by
    induction l generalizing rs with
    | nil => simp at h; subst h; rfl
    | cons a l ih =>
      rw [List.mapM_cons] at h
      cases a with
      | none => simp at h
      | some a =>
        cases hl : l.mapM id with
        | none => simp [hl] at h
        | some rs' =>
          simp [hl] at h
          rw [← h, ih hl]
          rfl
  rw [this, held_map_some]

theorem snd_zip_sub (is : List ℕ) (rs : List Reg) : ((is.zip rs).map Prod.snd).Subperm rs := by
  induction is generalizing rs with
  | nil => exact List.nil_subperm
  | cons i is ih =>
    cases rs with
    | nil => exact List.nil_subperm
    | cons r rs =>
      rw [List.zip_cons_cons, List.map_cons]
      exact (List.Subperm.refl [r]).append (ih rs)

theorem passes_fail {β α γ : Type} [Ledger β] (e : Fail) {f : α → M β γ} {pre : List Reg} {post : γ → List Reg} :
    Passes (liftE (.error e) >>= f) pre post := Passes.throw e

section
variable {β : Type} [Stock] [TempBuilder β] [Ledger β] [PassesT β]

theorem passes_applyEntry (slots : List (Option Reg)) (e : List ℕ × CObj) (he : Stock.Given e.2) :
    Passes (applyEntry slots e : M β _) (held slots) held := by
  unfold applyEntry
  refine Passes.bind [] (Passes.liftE (pre := held slots) (post := fun p => p.1 ++ held p.2) ?_) (by qperm) ?_
  · rintro - ⟨rs, sl⟩ h
    exact held_takeMany h
  rintro ⟨rs, sl⟩
  refine Passes.bind (held sl) (passes_mergeRegisters rs) (by qperm) fun m => ?_
  refine Passes.bind (held sl) (passes_unwrap m) (by qperm) fun r => ?_
  refine Passes.bind (held sl) (PassesT.applyCO r e.2 he) (by qperm) fun r => ?_
  refine Passes.bind (held sl) (passes_splitAll r) (by qperm) fun rs => ?_
  dsimp only
  split
  · exact Passes.pure _ ((held_foldl_set _ _).trans ((snd_zip_sub _ _).append (List.Subperm.refl _)))
  · exact Passes.throw _

theorem held_append (a b : List (Option Reg)) : held (a ++ b) = held a ++ held b := by
  simp [held]

theorem passes_applyTail (sc : Pipeline) (hsc : ∀ e ∈ sc, Stock.Given e.2) (rs : List Reg) (rn : ℕ) : Passes (do
    let slots ← sc.foldlM applyEntry (rs.map some)
    let rs ← unwrapO (slots.mapM id)
    if rs.length < rn then throw .panic
    let mt ← mergeRegisters (rs.drop rn)
    match mt with
    | some tr => returnTemp tr
    | none => pure ()
    let m ← mergeRegisters (rs.take rn)
    unwrapO m : M β Reg) rs fun r => [r] := by
  refine Passes.bind [] ((Passes.foldlM held (fun _ => []) sc (fun a e he => ?_) (rs.map some)).mono (pre' := rs) ?_
    fun _ => List.Subperm.refl _) (by qperm) fun sl => ?_
  · exact (passes_applyEntry a e (hsc e he)).mono (by qperm) fun _ => List.Subperm.refl _
  · rw [map_nil_flatten, held_map_some, List.append_nil]
  refine Passes.bind [] (Passes.unwrapO (pre := held sl) (post := fun rs : List Reg => rs) fun rs h => ?_) (by qperm) fun rs => ?_
  · rw [held_mapM h]
  have tail : Passes (do
      let mt ← mergeRegisters (rs.drop rn)
      match mt with
      | some tr => returnTemp tr
      | none => pure ()
      let m ← mergeRegisters (rs.take rn)
      unwrapO m : M β Reg) (rs ++ []) fun r => [r] := by
    have e : rs = rs.take rn ++ rs.drop rn := (List.take_append_drop rn rs).symm
    refine Passes.bind (rs.take rn) (passes_mergeRegisters (rs.drop rn)) (by
      rw [List.append_nil]
      conv_rhs => rw [e]
      qperm) fun mt => ?_
    have last : Passes (do
        let m ← mergeRegisters (rs.take rn)
        unwrapO m : M β Reg) (rs.take rn) fun r => [r] :=
      Passes.bind [] (passes_mergeRegisters _) (by qperm) fun m => (passes_unwrap m).mono (by qperm) fun _ => List.Subperm.refl _
    cases mt with
    | none => exact last.mono (by qperm) fun _ => List.Subperm.refl _
    | some tr =>
      exact Passes.bind (rs.take rn) (PassesT.returnTemp tr) (by qperm)
        fun _ => last.mono (by qperm) fun _ => List.Subperm.refl _
  dsimp only
  split
  · exact Passes.bind rs (Passes.throw (pre := []) (post := fun _ => []) _) (by qperm)
      fun _ => tail.mono (by qperm) fun _ => List.Subperm.refl _
  · exact tail

theorem passes_applyPipelineObjects (sc : Pipeline) (hsc : ∀ e ∈ sc, Stock.Given e.2) (r : Reg) : Passes (applyPipelineObjects sc r : M β _) [r] fun r => [r] := by
  unfold applyPipelineObjects
  refine Passes.bind [] (passes_splitAll r) (by qperm) fun rs => ?_
  refine Passes.bind rs (Passes.unwrapO (pre := []) (post := fun _ => []) fun _ _ => List.nil_subperm) (by qperm) fun mx => ?_
  have body : ∀ n, Passes (do
      let rs ← if n = 0 then pure rs else do
        let temp ← makeTempRegister n
        let ts ← splitAll temp
        pure (rs ++ ts)
      let slots ← sc.foldlM applyEntry (rs.map some)
      let rs ← unwrapO (slots.mapM id)
      if rs.length < r.length then throw .panic
      let mt ← mergeRegisters (rs.drop r.length)
      match mt with
      | some tr => returnTemp tr
      | none => pure ()
      let m ← mergeRegisters (rs.take r.length)
      unwrapO m : M β Reg) rs fun r => [r] := by
    intro n
    split
    · exact passes_applyTail sc hsc rs r.length
    · refine Passes.bind rs (passes_makeTempRegister n) (by qperm) fun t => ?_
      refine Passes.bind rs (passes_splitAll t) (by qperm) fun ts => ?_
      exact (passes_applyTail sc hsc (rs ++ ts) r.length).mono (by qperm) fun _ => List.Subperm.refl _
  dsimp only
  split
  · exact Passes.bind rs (Passes.throw (pre := []) (post := fun _ => []) _) (by qperm)
      fun _ => (body _).mono (by qperm) fun _ => List.Subperm.refl _
  · exact (body _).mono (by qperm) fun _ => List.Subperm.refl _

end

/-- subcircuits pass ownership on -/
class PassesS (β : Type) [Stock] [Recursive β] [Ledger β] : Prop extends PassesC β where
  applySub : ∀ sc r, (∀ e ∈ sc, Stock.Given e.2) → Passes (Recursive.applySub sc r : M β Reg) [r] fun r => [r]
  applyCondSub : ∀ sc cr r, (∀ e ∈ sc, Stock.Given e.2) → Passes (Recursive.applyCondSub sc cr r : M β _) [cr, r] fun p => [p.1, p.2]

instance [Stock] : PassesS LocalBuilder where
  applySub sc r h := passes_applyPipelineObjects (β := LocalBuilder) sc h r
  applyCondSub sc cr r h := by
    refine Passes.bind [] (Conditioned.passes_conditioned (passes_applyPipelineObjects (β := Conditioned LocalBuilder) sc h r) cr) (by qperm) ?_
    rintro ⟨r, cr⟩
    exact Passes.pure _ (by qperm)

instance {β : Type} [Stock] [Recursive β] [Ledger β] [PassesS β] : PassesS (Conditioned β) where
  applySub sc r h := by
    refine Passes.bind [r] Conditioned.passes_takeCr (by qperm) fun cr => ?_
    refine Passes.bind [] (Conditioned.passes_onParent (PassesS.applyCondSub sc cr r h)) (by qperm) ?_
    rintro ⟨cr, r⟩
    exact Passes.bind [r] (Conditioned.passes_putCr cr) (by qperm) fun _ => Passes.pure _ (by qperm)
  applyCondSub sc cr r h := by
    refine Passes.bind [cr, r] Conditioned.passes_takeCr (by qperm) fun ccr => ?_
    refine Passes.bind [r] (PassesR.mergeTwo cr ccr) (by qperm) fun c' => ?_
    refine Passes.bind [] (Conditioned.passes_onParent (PassesS.applyCondSub sc c' r h)) (by qperm) ?_
    rintro ⟨c', r⟩
    exact (passes_splitCr c' r cr.length).mono (by qperm) fun _ => List.Subperm.refl _

noncomputable instance NB.ledger [Stock] : (k : ℕ) → Ledger (NB k)
  | 0 => inferInstanceAs (Ledger LocalBuilder)
  | k + 1 => letI := NB.ledger k; inferInstanceAs (Ledger (Conditioned (NB k)))

instance NB.passes [Stock] : (k : ℕ) → PassesS (NB k)
  | 0 => inferInstanceAs (PassesS LocalBuilder)
  | k + 1 => letI := NB.passes k; inferInstanceAs (PassesS (Conditioned (NB k)))

/-- a function of registers that passes ownership on -/
def Keeping {β : Type} [Ledger β] (f : List Reg → M β (List Reg)) : Prop := ∀ rs, Passes (f rs) rs fun rs => rs

section
variable [Stock]

theorem ok_invertSub {sc sc' : Pipeline} (h : invertSub sc = .ok sc') (hsc : ∀ e ∈ sc, Stock.Ok e.2) : ∀ e ∈ sc', Stock.Given e.2 := by
  unfold invertSub at h
  have key : ∀ (l acc out : Pipeline), (∀ e ∈ l, Stock.Ok e.2) → (∀ e ∈ acc, Stock.Given e.2) →
      l.foldlM (fun acc e => do
        let cos ← invertObject e.2
        pure (acc ++ cos.map fun co => (e.1, co))) acc = (.ok out : Except Fail Pipeline) → ∀ e ∈ out, Stock.Given e.2 := by
    intro l
    induction l with
    | nil =>
      intro acc out _ ha ho
      cases ho
      exact ha
    | cons e l ih =>
      intro acc out hl ha ho
      rw [List.foldlM_cons] at ho
      cases hi : invertObject e.2 with
      | error f => rw [hi] at ho; cases ho
      | ok cs =>
        rw [hi] at ho
        refine ih _ out (fun e' he' => hl e' (List.mem_cons_of_mem _ he')) ?_ ho
        intro e' he'
        rcases List.mem_append.mp he' with he' | he'
        · exact ha e' he'
        · obtain ⟨c, hc, rfl⟩ := List.mem_map.mp he'
          exact Stock.invert _ _ (hl e (by simp)) hi c hc
  exact key _ [] sc' (fun e he => hsc e (List.mem_reverse.mp he)) (by simp) h

/-- a circuit built by a function that passes ownership on has only allowed objects -/
theorem ok_buildSub {sizes : List ℕ} {f : List Reg → M LocalBuilder (List Reg)} (hf : Keeping f) {sc : Pipeline}
    (h : buildSub sizes f = .ok sc) : ∀ e ∈ sc, Stock.Ok e.2 := by
  have hp : Passes (do
      let rs ← sizes.mapM LocalBuilder.register
      f rs : M LocalBuilder (List Reg)) [] fun rs => rs := by
    refine Passes.bind [] ((Passes.mapM (fun _ => []) (fun r : Reg => [r]) sizes fun n _ => LocalBuilder.passes_register n).mono
      (pre' := []) (by rw [map_nil_flatten]) fun rs => (by rw [map_one_flatten])) (by qperm) fun rs => ?_
    exact (hf rs).mono (by qperm) fun _ => List.Subperm.refl _
  have h0 : Holds LocalBuilder.default ([] ++ []) :=
    ⟨⟨by simp [LocalBuilder.default], by simp [LocalBuilder.default], by simp [LocalBuilder.default]⟩, by simp,
      by simp [LocalBuilder.default]⟩
  obtain ⟨h1, -⟩ := hp LocalBuilder.default [] h0
  unfold buildSub at h
  split at h
  · rename_i a b' e
    cases h
    exact fun e' he' => ((h1 _ _ e).1.2.2 e' he').2.2.2.2
  · cases h

end

section
variable {β : Type} [Recursive β] [Ledger β]

theorem passes_applyInverted_of {sc : Pipeline} {r : Reg}
    (h : ∀ sc', invertSub sc = .ok sc' → Passes (Recursive.applySub sc' r : M β _) [r] fun r => [r]) :
    Passes (applyInverted sc r : M β _) [r] fun r => [r] := by
  unfold applyInverted
  cases hi : invertSub sc with
  | error e => exact passes_fail e
  | ok sc' =>
    show Passes (pure sc' >>= _) _ _
    rw [pure_bind]
    exact h sc' hi

variable [PassesR β]

theorem passes_inverterArgs_of {τ : Type} (rs : List Reg) (f : List Reg → τ → M LocalBuilder (List Reg)) (t : τ)
    (h : ∀ n sc r, buildSub n (fun rs => f rs t) = .ok sc → Passes (applyInverted sc r : M β _) [r] fun r => [r]) :
    Passes (inverterArgs rs f t : M β _) rs fun rs => rs := by
  unfold inverterArgs
  cases hb : buildSub (rs.map List.length) fun rs => f rs t with
  | error e => exact passes_fail e
  | ok sc =>
  show Passes (pure sc >>= _) _ _
  rw [pure_bind]
  refine Passes.bind [] (passes_mergeRegisters rs) (by qperm) fun m => ?_
  refine Passes.bind [] (passes_unwrap m) (by qperm) fun r => ?_
  refine Passes.bind [] (h _ sc r hb) (by qperm) fun r => ?_
  refine Passes.bind [] (passes_splitGroups r _) (by qperm) fun x => ?_
  cases x
  · exact Passes.pure _ (by qperm)
  · exact Passes.throw _

theorem keeping_invertFn_of {f : List Reg → M LocalBuilder (List Reg)}
    (h : ∀ n sc r, buildSub n f = .ok sc → Passes (applyInverted sc r : M β _) [r] fun r => [r]) : Keeping (invertFn f : List Reg → M β _) := by
  intro rs
  unfold invertFn
  cases hb : buildSub (rs.map List.length) f with
  | error e => exact passes_fail e
  | ok sc =>
  show Passes (pure sc >>= _) _ _
  rw [pure_bind]
  refine Passes.bind [] (passes_mergeRegisters rs) (by qperm) fun m => ?_
  refine Passes.bind [] (passes_unwrap m) (by qperm) fun r => ?_
  refine Passes.bind [] (h _ sc r hb) (by qperm) fun r => ?_
  refine Passes.bind [] (passes_splitGroups r _) (by qperm) fun x => ?_
  cases x with
  | allSelected v =>
    simp only [SplitManyResult.getAllSelected]
    split
    · refine Passes.pure _ ?_
      simp only [SplitManyResult.regs, List.append_nil]
      exact (List.drop_sublist _ v).subperm
    · exact Passes.throw _
  | remaining v r => exact Passes.throw _

end

section
variable {β : Type} [Stock] [Recursive β] [Ledger β] [PassesS β]

theorem passes_applyInverted (sc : Pipeline) (hsc : ∀ e ∈ sc, Stock.Ok e.2) (r : Reg) :
    Passes (applyInverted sc r : M β _) [r] fun r => [r] :=
  passes_applyInverted_of fun sc' hi => PassesS.applySub sc' r (ok_invertSub hi hsc)

theorem passes_inverterArgs {τ : Type} (rs : List Reg) (f : List Reg → τ → M LocalBuilder (List Reg)) (t : τ)
    (hf : Keeping fun rs => f rs t) : Passes (inverterArgs rs f t : M β _) rs fun rs => rs :=
  passes_inverterArgs_of rs f t fun _ sc r hb => passes_applyInverted sc (ok_buildSub hf hb) r

theorem keeping_inverter {f : List Reg → M LocalBuilder (List Reg)} (hf : Keeping f) : Keeping (fun rs => (inverter rs f : M β _)) :=
  fun rs => passes_inverterArgs rs _ () hf

theorem keeping_invertFn {f : List Reg → M LocalBuilder (List Reg)} (hf : Keeping f) : Keeping (invertFn f : List Reg → M β _) :=
  keeping_invertFn_of fun _ sc r hb => passes_applyInverted sc (ok_buildSub hf hb) r

end

/-! ## `program!` -/

/-- the registers in the variables of a program -/
def heldAll (slots : Slots) : List Reg := (slots.map held).flatten

theorem heldAll_cons (a : List (Option Reg)) (l : Slots) : heldAll (a :: l) = held a ++ heldAll l := by
  simp [heldAll]

theorem heldAll_set {slots : Slots} {i : ℕ} {a b : List (Option Reg)} {X Y : List Reg} (hi : slots[i]? = some a)
    (h : (Y ++ held b).Subperm (X ++ held a)) : (Y ++ heldAll (slots.set i b)).Subperm (X ++ heldAll slots) := by
  induction slots generalizing i with
  | nil => simp at hi
  | cons c l ih =>
    cases i with
    | zero =>
      simp only [List.getElem?_cons_zero, Option.some.injEq] at hi
      subst hi
      rw [List.set_cons_zero, heldAll_cons, heldAll_cons, ← List.append_assoc, ← List.append_assoc]
      exact h.append (List.Subperm.refl _)
    | succ i =>
      rw [List.getElem?_cons_succ] at hi
      have := subperm_count.mp (ih hi)
      rw [List.set_cons_succ, heldAll_cons, heldAll_cons]
      refine subperm_count.mpr fun x => ?_
      have := this x
      simp only [List.count_append, count_cons_cnt] at this ⊢
      omega

theorem heldAll_takeSel {slots slots' : Slots} {s : Sel} {qs : List Reg} (h : takeSel slots s = .ok (qs, slots')) :
    (qs ++ heldAll slots').Subperm (heldAll slots) := by
  unfold takeSel at h
  cases hi : s.indices slots with
  | error e => rw [hi] at h; cases h
  | ok is =>
    rw [hi] at h
    cases hr : slots[s.1]? with
    | none => simp only [hr] at h; cases h
    | some r =>
      simp only [hr] at h
      cases ht : takeMany r is with
      | error e =>
        have : (Except.error e : Except Fail (List Reg × Slots)) = .ok (qs, slots') := by simpa [bind, Except.bind, ht] using h
        cases this
      | ok p =>
        obtain ⟨q, r'⟩ := p
        have : (Except.ok (q, slots.set s.1 r') : Except Fail (List Reg × Slots)) = .ok (qs, slots') := by
          simpa [bind, Except.bind, ht] using h
        cases this
        exact heldAll_set (X := []) hr (held_takeMany ht)

theorem heldAll_takeSels (ss : List Sel) : ∀ {slots slots' : Slots} {qs : List Reg}, takeSels slots ss = .ok (qs, slots') →
    (qs ++ heldAll slots').Subperm (heldAll slots) := by
  induction ss with
  | nil =>
    intro slots slots' qs h
    cases h
    exact List.Subperm.refl _
  | cons s ss ih =>
    intro slots slots' qs h
    rw [takeSels] at h
    cases h1 : takeSel slots s with
    | error e => rw [h1] at h; cases h
    | ok p =>
      obtain ⟨q, sl⟩ := p
      rw [h1] at h
      cases h2 : takeSels sl ss with
      | error e =>
        have : (Except.error e : Except Fail (List Reg × Slots)) = .ok (qs, slots') := by simpa [bind, Except.bind, h2] using h
        cases this
      | ok p =>
        obtain ⟨q', sl'⟩ := p
        have : (Except.ok (q ++ q', sl') : Except Fail (List Reg × Slots)) = .ok (qs, slots') := by
          simpa [bind, Except.bind, h2] using h
        cases this
        have a := subperm_count.mp (heldAll_takeSel h1)
        have b := subperm_count.mp (ih h2)
        refine subperm_count.mpr fun x => ?_
        have a := a x
        have b := b x
        simp only [List.count_append] at a b ⊢
        omega

theorem held_putIndices (is : List ℕ) : ∀ {slot reg slot' reg' : List (Option Reg)}, putIndices slot reg is = .ok (slot', reg') →
    (held reg' ++ held slot').Subperm (held reg ++ held slot) := by
  induction is with
  | nil =>
    intro slot reg slot' reg' h
    rw [putIndices] at h
    cases h
    exact List.Subperm.refl _
  | cons i is ih =>
    intro slot reg slot' reg' h
    cases reg with
    | nil => cases h
    | cons q reg =>
      rw [putIndices] at h
      split at h
      · refine (ih h).trans (((List.Subperm.refl _).append (held_set slot i q)).trans ?_)
        rw [held_cons]
        qperm
      · cases h

theorem heldAll_putSels (ss : List Sel) : ∀ {slots slots' : Slots} {reg : List (Option Reg)}, putSels slots reg ss = .ok slots' →
    (heldAll slots').Subperm (held reg ++ heldAll slots) := by
  induction ss with
  | nil =>
    intro slots slots' reg h
    cases h
    exact (List.sublist_append_right _ _).subperm
  | cons s ss ih =>
    intro slots slots' reg h
    rw [putSels] at h
    cases hi : s.indices slots with
    | error e => rw [hi] at h; cases h
    | ok is =>
      rw [hi] at h
      cases hr : slots[s.1]? with
      | none => simp only [hr] at h; cases h
      | some slot =>
        simp only [hr] at h
        cases hp : putIndices slot reg is with
        | error e =>
          have : (Except.error e : Except Fail Slots) = .ok slots' := by simpa [bind, Except.bind, hp] using h
          cases this
        | ok p =>
          obtain ⟨slot', reg'⟩ := p
          have h' : putSels (slots.set s.1 slot') reg' ss = .ok slots' := by simpa [bind, Except.bind, hp] using h
          exact (ih h').trans (heldAll_set hr (held_putIndices is hp))

section
variable {β : Type} [RegOps β] [Ledger β] [PassesR β]

theorem passes_pullGroups (gs : List (List Sel)) : ∀ slots : Slots,
    Passes (pullGroups slots gs : M β _) (heldAll slots) fun p => p.1 ++ heldAll p.2 := by
  induction gs with
  | nil => intro slots; exact Passes.pure _ (by qperm)
  | cons g gs ih =>
    intro slots
    rw [pullGroups]
    refine Passes.bind [] (Passes.liftE (pre := heldAll slots) (post := fun p => p.1 ++ heldAll p.2) ?_) (by qperm) ?_
    · rintro - ⟨qs, sl⟩ h
      exact heldAll_takeSels g h
    rintro ⟨qs, sl⟩
    refine Passes.bind (heldAll sl) (passes_mergeRegisters qs) (by qperm) fun m => ?_
    refine Passes.bind (heldAll sl) (passes_unwrap m) (by qperm) fun r => ?_
    refine Passes.bind [r] (ih sl) (by qperm) ?_
    rintro ⟨rs, sl⟩
    exact Passes.pure _ (by qperm)

theorem passes_putGroups (gs : List (List Sel)) : ∀ (slots : Slots) (rs : List Reg),
    Passes (putGroups slots rs gs : M β _) (rs ++ heldAll slots) heldAll := by
  induction gs with
  | nil =>
    intro slots rs
    rw [putGroups]
    exact Passes.pure _ (List.sublist_append_right _ _).subperm
  | cons g gs ih =>
    intro slots rs
    cases rs with
    | nil => rw [putGroups]; exact Passes.throw _
    | cons r rs =>
      rw [putGroups]
      refine Passes.bind (rs ++ heldAll slots) (passes_splitAll r) (by qperm) fun qs => ?_
      refine Passes.bind rs (Passes.liftE (pre := qs ++ heldAll slots) (post := heldAll) ?_) (by qperm) fun sl => ?_
      · intro _ sl h
        have := heldAll_putSels g h
        rwa [held_map_some] at this
      · exact (ih sl rs).mono (by qperm) fun _ => List.Subperm.refl _

theorem passes_mergeSlots (slots : Slots) : Passes (mergeSlots slots : M β _) (heldAll slots) fun rs => rs := by
  induction slots with
  | nil => exact Passes.pure _ (by qperm)
  | cons s slots ih =>
    rw [mergeSlots, heldAll_cons]
    refine Passes.bind (heldAll slots) (passes_mergeRegisters (s.filterMap id)) (List.Subperm.refl _) fun m => ?_
    refine Passes.bind (heldAll slots) (passes_unwrap m) (by qperm) fun r => ?_
    exact Passes.bind [r] ih (by qperm) fun rs => Passes.pure _ (by qperm)

end

/-- the function called in a line passes ownership on -/
def Line.Keeps {β : Type} [Ledger β] : Line β → Prop
  | .plain f _ => Keeping f
  | .control _ f _ => Keeping f

/-- ... and so does the conditioned call -/
def Line.Runs {β : Type} [Ledger β] : Line β → Prop
  | .plain f _ => Keeping f
  | .control _ f _ => ∀ rs cr, Passes (Conditioned.conditioned cr (f rs)) ([cr] ++ rs) fun p => [p.2] ++ p.1

theorem Line.Keeps.runs {β : Type} [Ledger β] {l : Line β} (h : l.Keeps) : l.Runs := by
  cases l with
  | plain f gs => exact h
  | control m f gs => exact fun rs cr => Conditioned.passes_conditioned (h rs) cr

section
variable {β : Type} [Conditionable β] [Ledger β] [PassesA β]

theorem passes_negateBitmask (r : Reg) (mask : ℕ) : Passes (negateBitmask r mask : M β _) [r] fun r => [r] := by
  unfold negateBitmask
  refine Passes.bind [] (passes_splitAll r) (by qperm) fun rs => ?_
  refine Passes.bind [] ((Passes.foldlM (fun p : List Reg × ℕ => p.1) (fun r : Reg => [r]) rs ?_ ([], mask)).mono
    (pre' := rs) ?_ fun _ => List.Subperm.refl _) (by qperm) ?_
  · rintro ⟨a, k⟩ r _
    dsimp only
    split
    · exact Passes.bind a (passes_gate _ r) (by qperm) fun r => Passes.pure _ (by qperm)
    · exact Passes.pure _ (by qperm)
  · rw [map_one_flatten]
    qperm
  · rintro ⟨a, k⟩
    refine Passes.bind [] (passes_mergeRegisters a) (by qperm) fun m => ?_
    exact (passes_unwrap m).mono (by qperm) fun _ => List.Subperm.refl _

theorem passes_runLine (slots : Slots) (l : Line β) (hl : l.Runs) : Passes (runLine slots l) (heldAll slots) heldAll := by
  unfold runLine
  refine Passes.bind [] (passes_pullGroups l.groups slots) (by qperm) ?_
  rintro ⟨rs, sl⟩
  cases l with
  | plain f gs =>
    exact Passes.bind (heldAll sl) (hl rs) (by qperm) fun rs => passes_putGroups gs sl rs
  | control mask f gs =>
    cases rs with
    | nil => exact Passes.throw _
    | cons cr rs =>
      have put : ∀ (cr : Reg) (rs : List Reg), Passes (putGroups sl (cr :: rs) gs : M β _) ([cr] ++ rs ++ heldAll sl) heldAll := by
        intro cr rs
        exact (passes_putGroups gs sl (cr :: rs)).mono (by qperm) fun _ => List.Subperm.refl _
      cases mask with
      | none =>
        refine Passes.bind (rs ++ heldAll sl) (Passes.pure (pre := [cr]) (post := fun r => [r]) cr (List.Subperm.refl _))
          (by qperm) fun cr => ?_
        refine Passes.bind (heldAll sl) (hl rs cr) (by qperm) ?_
        rintro ⟨rs, cr⟩
        refine Passes.bind (rs ++ heldAll sl) (Passes.pure (pre := [cr]) (post := fun r => [r]) cr (List.Subperm.refl _))
          (by qperm) fun cr => ?_
        exact (put cr rs).mono (by qperm) fun _ => List.Subperm.refl _
      | some mk =>
        refine Passes.bind (rs ++ heldAll sl) (passes_negateBitmask cr mk) (by qperm) fun cr => ?_
        refine Passes.bind (heldAll sl) (hl rs cr) (by qperm) ?_
        rintro ⟨rs, cr⟩
        refine Passes.bind (rs ++ heldAll sl) (passes_negateBitmask cr mk) (by qperm) fun cr => ?_
        exact (put cr rs).mono (by qperm) fun _ => List.Subperm.refl _

theorem passes_lines (rs : List Reg) (lines : List (Line β)) (h : ∀ l ∈ lines, l.Runs) :
    Passes (program rs lines) rs fun rs => rs := by
  unfold program
  refine Passes.bind [] ((Passes.mapM (fun r : Reg => [r]) (fun rs : List Reg => rs) rs fun r _ => passes_splitAll r).mono
    (pre' := rs) (by rw [map_one_flatten]) fun _ => List.Subperm.refl _) (by qperm) fun qs => ?_
  have e : heldAll (qs.map fun q => q.map some) = (qs.map fun rs : List Reg => rs).flatten := by
    unfold heldAll
    rw [List.map_map]
    congr 1
    apply List.map_congr_left
    intro q _
    exact held_map_some q
  refine Passes.bind [] ((Passes.foldlM heldAll (fun _ => []) lines (fun a l hl => ?_) (qs.map fun q => q.map some)).mono
    (pre' := (qs.map fun rs : List Reg => rs).flatten) ?_ fun _ => List.Subperm.refl _) (by qperm) fun sl => ?_
  · exact (passes_runLine a l (h l hl)).mono (by qperm) fun _ => List.Subperm.refl _
  · rw [map_nil_flatten, e, List.append_nil]
  · exact (passes_mergeSlots sl).mono (by qperm) fun _ => List.Subperm.refl _

theorem passes_program (rs : List Reg) (lines : List (Line β)) (h : ∀ l ∈ lines, l.Keeps) :
    Passes (program rs lines) rs fun rs => rs := passes_lines rs lines fun l hl => (h l hl).runs

end

/-! ## library functions -/

theorem keeping_op1 {β : Type} [Ledger β] {g : Reg → M β Reg} (h : ∀ r, Passes (g r) [r] fun r => [r]) : Keeping (op1 g) := by
  intro rs
  match rs with
  | [r] => exact Passes.bind [] (h r) (by qperm) fun r => Passes.pure _ (by qperm)
  | [] => exact Passes.throw _
  | _ :: _ :: _ => exact Passes.throw _

theorem keeping_op2 {β : Type} [Ledger β] {g : Reg → Reg → M β (Reg × Reg)} (h : ∀ a b, Passes (g a b) [a, b] fun p => [p.1, p.2]) :
    Keeping (op2 g) := by
  intro rs
  match rs with
  | [a, b] => exact Passes.bind [] (h a b) (by qperm) fun p => Passes.pure _ (by qperm)
  | [] => exact Passes.throw _
  | [_] => exact Passes.throw _
  | _ :: _ :: _ :: _ => exact Passes.throw _

section
variable {β : Type} [Stock] [Recursive β] [Ledger β] [PassesS β]

theorem keeping_sum : Keeping (Arith.sum : List Reg → M β _) := by
  intro rs
  unfold Arith.sum
  split
  · refine passes_program _ _ ?_
    simp only [List.forall_mem_cons, List.not_mem_nil, IsEmpty.forall_iff, implies_true, and_true]
    exact ⟨keeping_op1 fun r => passes_gate _ r, keeping_op1 fun r => passes_gate _ r⟩
  · exact Passes.throw _

theorem keeping_carry : Keeping (Arith.carry : List Reg → M β _) := by
  intro rs
  unfold Arith.carry
  split
  · refine passes_program _ _ ?_
    simp only [List.forall_mem_cons, List.not_mem_nil, IsEmpty.forall_iff, implies_true, and_true]
    exact ⟨keeping_op1 fun r => passes_gate _ r, keeping_op1 fun r => passes_gate _ r, keeping_op1 fun r => passes_gate _ r,
      keeping_op1 fun r => passes_gate _ r⟩
  · exact Passes.throw _

theorem keeping_addF (k : ℕ) : Keeping (Arith.addF k : List Reg → M β _) := by
  induction k with
  | zero => intro rs; exact Passes.throw _
  | succ k ih =>
    intro rs
    unfold Arith.addF
    split
    · cases ‹_›
    · split
      · refine passes_program _ _ ?_
        simp only [List.forall_mem_cons, List.not_mem_nil, IsEmpty.forall_iff, implies_true, and_true]
        exact ⟨keeping_carry, keeping_sum⟩
      · split
        · refine passes_program _ _ ?_
          simp only [List.forall_mem_cons, List.not_mem_nil, IsEmpty.forall_iff, implies_true, and_true]
          rename_i k' _ _ _ hk _ _
          cases hk
          exact ⟨keeping_carry, ih, keeping_invertFn keeping_carry, keeping_sum⟩
        · exact Passes.throw _
    · exact Passes.throw _

theorem keeping_add : Keeping (Arith.add : List Reg → M β _) := fun rs => keeping_addF _ rs

/-- the lines of a program, one by one -/
macro "each_line" : tactic => `(tactic|
  simp only [List.forall_mem_cons, List.not_mem_nil, IsEmpty.forall_iff, implies_true, and_true])

theorem keeping_x : Keeping (op1 Gate.x : List Reg → M β _) := keeping_op1 fun r => passes_gate _ r

theorem keeping_addMod : Keeping (Arith.addMod : List Reg → M β _) := by
  intro rs
  unfold Arith.addMod
  split
  · rename_i ra rb rm
    split
    · exact Passes.throw _
    split
    · exact Passes.throw _
    refine Passes.bind [ra, rb, rm] PassesT.makeTemp (by qperm) fun rt => ?_
    refine Passes.bind [rt, ra, rb, rm] (passes_makeTempRegister _) (by qperm) fun rc => ?_
    refine Passes.bind [] (passes_program _ _ ?_) (by qperm) fun rs => ?_
    · each_line
      exact ⟨keeping_add, keeping_invertFn keeping_add, keeping_x, keeping_add, keeping_invertFn keeping_add, keeping_x, keeping_add⟩
    split
    · rename_i ra rb rm rt rc
      refine Passes.bind [ra, rb, rm, rc] (PassesT.returnTemp rt) (by qperm) fun _ => ?_
      exact Passes.bind [ra, rb, rm] (PassesT.returnTemp rc) (by qperm) fun _ => Passes.pure _ (by qperm)
    · exact Passes.throw _
  · exact Passes.throw _

theorem passes_takeSlot (l : List (Option Reg)) (i : ℕ) :
    Passes (unwrapO (l[i]?.join) : M β Reg) (held l) fun r => [r] ++ held (l.set i none) :=
  Passes.unwrapO fun _ h => held_take h

theorem held_set_two (l : List (Option Reg)) (i j : ℕ) (a b : Reg) :
    (held ((l.set i (some a)).set j (some b))).Subperm ([a, b] ++ held l) := by
  refine (held_set _ j (some b)).trans (((List.Subperm.refl _).append (held_set l i (some a))).trans ?_)
  qperm

theorem passes_rshiftStep (n : ℕ) (l : List (Option Reg)) (i : ℕ) : Passes (Arith.rshiftStep n l i : M β _) (held l) held := by
  unfold Arith.rshiftStep
  refine Passes.bind [] (passes_takeSlot l i) (by qperm) fun a => ?_
  refine Passes.bind [a] (passes_takeSlot _ _) (by qperm) fun b => ?_
  refine Passes.bind (held ((l.set i none).set (if i = 0 then n - 1 else i - 1) none)) (passes_swap a b).unwrapM ?_ ?_
  · qperm
  · rintro ⟨a, b⟩
    exact Passes.pure _ ((held_set_two _ _ _ a b).trans (by qperm))

theorem keeping_rshift : Keeping (Arith.rshift : List Reg → M β _) := by
  intro rs
  unfold Arith.rshift
  split
  · rename_i r
    refine Passes.bind [] (passes_splitAll r) (by qperm) fun rs => ?_
    have body : Passes (do
        let rs ← (List.range (r.length - 1)).reverse.foldlM (Arith.rshiftStep r.length) (rs.map some)
        let m ← mergeRegisters (rs.filterMap id)
        let r ← unwrapO m
        pure [r] : M β _) rs fun rs => rs := by
      refine Passes.bind [] ((Passes.foldlM held (fun _ => []) _ (fun a i _ => ?_) (rs.map some)).mono (pre' := rs) ?_
        fun _ => List.Subperm.refl _) (by qperm) fun sl => ?_
      · exact (passes_rshiftStep r.length a i).mono (by qperm) fun _ => List.Subperm.refl _
      · rw [held_map_some]
        simp only [List.map_const', List.flatten_replicate_nil, List.append_nil]
        exact List.Subperm.refl _
      · refine Passes.bind [] (passes_mergeRegisters _) (List.Subperm.refl _) fun m => ?_
        exact Passes.bind [] (passes_unwrap m) (by qperm) fun r => Passes.pure _ (by qperm)
    split
    · exact Passes.bind rs (Passes.throw (pre := []) (post := fun _ => []) _) (by qperm)
        fun _ => body.mono (by qperm) fun _ => List.Subperm.refl _
    · exact body.mono (by qperm) fun _ => List.Subperm.refl _
  · exact Passes.throw _

theorem keeping_copy : Keeping (Arith.copy : List Reg → M β _) := by
  intro rs
  unfold Arith.copy
  split
  · rename_i ra rb
    split
    · exact Passes.throw _
    refine Passes.bind [rb] (passes_splitAll ra) (by qperm) fun as => ?_
    refine Passes.bind as (passes_splitAll rb) (by qperm) fun bs => ?_
    refine Passes.bind [] ((Passes.foldlM (fun p : List Reg × List Reg => p.1 ++ p.2) (fun p : Reg × Reg => [p.1, p.2])
      _ (fun a p _ => ?_) ([], [])).mono (pre' := bs ++ as) ?_ fun _ => List.Subperm.refl _) (by qperm) ?_
    · refine Passes.bind (a.1 ++ a.2) (passes_cnot p.1 p.2) (by qperm) ?_
      rintro ⟨x, y⟩
      exact Passes.pure _ (by qperm)
    · exact ((List.Subperm.refl _).append (zip_flatten_sub as bs)).trans (by qperm)
    · rintro ⟨as, bs⟩
      refine Passes.bind bs (passes_mergeRegisters as) (by qperm) fun ma => ?_
      refine Passes.bind bs (passes_unwrap ma) (by qperm) fun ra => ?_
      refine Passes.bind [ra] (passes_mergeRegisters bs) (by qperm) fun mb => ?_
      exact Passes.bind [ra] (passes_unwrap mb) (by qperm) fun rb => Passes.pure _ (by qperm)
  · exact Passes.throw _

theorem keeping_timesMod : Keeping (Arith.timesMod : List Reg → M β _) := by
  intro rs
  unfold Arith.timesMod
  split
  · rename_i ra rb rm rp
    dsimp only
    split
    · exact Passes.throw _
    split
    · exact Passes.throw _
    refine Passes.bind [ra, rb, rm, rp] (passes_makeTempRegister _) (by qperm) fun rt => ?_
    refine Passes.bind [ra, rb, rm, rp, rt] (passes_makeTempRegister _) (by qperm) fun rc => ?_
    refine Passes.bind [] ((Passes.foldlM (fun rs : List Reg => rs) (fun _ => []) _ (fun rs i _ => ?_) [ra, rb, rm, rp, rt, rc])) ?_ fun rs => ?_
    · refine (passes_program _ _ ?_).mono (by qperm) fun _ => List.Subperm.refl _
      each_line
      exact ⟨keeping_invertFn keeping_add, keeping_x, keeping_add, keeping_addMod, keeping_rshift⟩
    · rw [map_nil_flatten]
      qperm
    refine Passes.bind [] ((Passes.foldlM (fun rs : List Reg => rs) (fun _ => []) _ (fun rs i _ => ?_) rs)) ?_ fun rs => ?_
    · split
      · rename_i ra rb rm rp rt rc
        refine Passes.bind [rb, rp] (passes_program _ _ ?_) (by qperm) fun rs => ?_
        · each_line
          exact ⟨keeping_invertFn keeping_rshift, keeping_invertFn keeping_add, keeping_x, keeping_add⟩
        · split
          · exact Passes.pure _ (by qperm)
          · exact Passes.throw _
      · exact Passes.throw _
    · rw [map_nil_flatten]
      qperm
    split
    · rename_i ra rb rm rp rt rc
      refine Passes.bind [ra, rb, rm, rp, rt] (PassesT.returnTemp rc) (by qperm) fun _ => ?_
      exact Passes.bind [ra, rb, rm, rp] (PassesT.returnTemp rt) (by qperm) fun _ => Passes.pure _ (by qperm)
    · exact Passes.throw _
  · exact Passes.throw _

theorem keeping_squareMod : Keeping (Arith.squareMod : List Reg → M β _) := by
  intro rs
  unfold Arith.squareMod
  split
  · rename_i ra rm rs
    dsimp only
    split
    · exact Passes.throw _
    split
    · exact Passes.throw _
    refine Passes.bind [ra, rm, rs] (passes_makeTempRegister _) (by qperm) fun rt => ?_
    refine Passes.bind [] (passes_program _ _ ?_) (by qperm) fun rs => ?_
    · each_line
      exact ⟨keeping_copy, keeping_timesMod, keeping_invertFn keeping_copy⟩
    split
    · rename_i ra rm rs rt
      exact Passes.bind [ra, rm, rs] (PassesT.returnTemp rt) (by qperm) fun _ => Passes.pure _ (by qperm)
    · exact Passes.throw _
  · exact Passes.throw _

theorem keeping_expModF (k : ℕ) : Keeping (Arith.expModF k : List Reg → M β _) := by
  induction k with
  | zero => intro rs; exact Passes.throw _
  | succ k ih =>
    intro rs
    unfold Arith.expModF
    split
    · cases ‹_›
    · rename_i d ra rb rm rp re hk
      cases hk
      dsimp only
      split
      · exact Passes.throw _
      split
      · exact Passes.throw _
      split
      · exact Passes.throw _
      split
      · refine passes_program _ _ ?_
        each_line
        exact ⟨keeping_copy, keeping_timesMod⟩
      refine Passes.bind [ra, rb, rm, rp, re] (passes_makeTempRegister _) (by qperm) fun ru => ?_
      refine Passes.bind [ra, rb, rm, rp, re, ru] (passes_makeTempRegister _) (by qperm) fun rv => ?_
      refine Passes.bind [] (passes_program _ _ ?_) (by qperm) fun rs => ?_
      · each_line
        exact ⟨keeping_copy, keeping_timesMod, keeping_squareMod, ih, keeping_invertFn keeping_squareMod, keeping_invertFn keeping_timesMod, keeping_invertFn keeping_copy⟩
      split
      · rename_i ra rb rm rp re ru rv
        refine Passes.bind [ra, rb, rm, rp, re, rv] (PassesT.returnTemp ru) (by qperm) fun _ => ?_
        exact Passes.bind [ra, rb, rm, rp, re] (PassesT.returnTemp rv) (by qperm) fun _ => Passes.pure _ (by qperm)
      · exact Passes.throw _
    · exact Passes.throw _

theorem keeping_expMod : Keeping (Arith.expMod : List Reg → M β _) := fun rs => keeping_expModF _ rs

end

/-! ## qfft -/

section
variable {β : Type} [Stock] [Conditionable β] [Ledger β] [PassesC β]

theorem passes_qfftRow (i : ℕ) (p : Reg × List (Option Reg)) (j : ℕ) :
    Passes (qfftRow i p j : M β _) ([p.1] ++ held p.2) fun p => [p.1] ++ held p.2 := by
  unfold qfftRow
  refine Passes.bind [p.1] (Passes.unwrapO (pre := held p.2) (post := fun r => [r] ++ held (p.2.set j none)) fun _ h => held_take h) (by qperm) fun rj => ?_
  refine Passes.bind (held (p.2.set j none)) (Conditioned.passes_conditioned (PassesC.rzPiBy p.1 _) rj) (by qperm) ?_
  rintro ⟨ri, rj⟩
  refine Passes.pure _ ?_
  have e : (p.2.set j none).set j (some rj) = p.2.set j (some rj) := List.set_set _
  show ([ri] ++ held (p.2.set j (some rj))).Subperm _
  rw [← e]
  exact ((List.Subperm.refl _).append (held_set _ _ _)).trans (by qperm)

theorem passes_qfftCol (l : List (Option Reg)) (i : ℕ) : Passes (qfftCol l i : M β _) (held l) held := by
  unfold qfftCol
  refine Passes.bind [] (Passes.unwrapO (pre := held l) (post := fun r => [r] ++ held (l.set i none)) fun _ h => held_take h) (by qperm) fun ri => ?_
  refine Passes.bind [] (Passes.foldlM (fun p : Reg × List (Option Reg) => [p.1] ++ held p.2) (fun _ => []) _ (fun p j _ => ?_) (ri, l.set i none)) ?_ ?_
  · exact (passes_qfftRow i p j).mono (by qperm) fun _ => List.Subperm.refl _
  · rw [map_nil_flatten]
    qperm
  rintro ⟨ri, l⟩
  refine Passes.bind (held l) (passes_gate _ ri) (by qperm) fun ri => Passes.pure _ ?_
  exact (held_set l i (some ri)).trans (by qperm)

theorem passes_qfftSwap (l : List (Option Reg)) (i : ℕ) : Passes (qfftSwap l i : M β _) (held l) held := by
  unfold qfftSwap
  refine Passes.bind [] (Passes.unwrapO (pre := held l) (post := fun r => [r] ++ held (l.set i none)) fun _ h => held_take h) (by qperm) fun a => ?_
  refine Passes.bind [a] (Passes.unwrapO (pre := held (l.set i none)) (post := fun r => [r] ++ held ((l.set i none).set (l.length - 1 - i) none))
    fun _ h => held_take h) (by qperm) fun b => ?_
  refine Passes.bind (held ((l.set i none).set (l.length - 1 - i) none)) (passes_swap a b) (by qperm) ?_
  rintro ⟨a, b⟩
  refine Passes.pure _ ?_
  refine (held_set _ _ (some b)).trans (((List.Subperm.refl _).append (held_set _ i (some a))).trans ?_)
  qperm

theorem passes_qfft (r : Reg) : Passes (qfft r : M β _) [r] fun r => [r] := by
  unfold qfft
  refine Passes.bind [] (passes_splitAll r) (by qperm) fun rs => ?_
  refine Passes.bind [] (Passes.foldlM held (fun _ => []) _ (fun l i _ => (passes_qfftCol l i).mono (by qperm) fun _ => List.Subperm.refl _) (rs.map some)) ?_ fun l => ?_
  · rw [map_nil_flatten, held_map_some]
    qperm
  refine Passes.bind [] (Passes.foldlM held (fun _ => []) _ (fun l i _ => (passes_qfftSwap l i).mono (by qperm) fun _ => List.Subperm.refl _) l) ?_ fun l => ?_
  · rw [map_nil_flatten]
    qperm
  refine Passes.bind [] (Passes.unwrapO (pre := held l) (post := fun rs : List Reg => rs) fun rs h => ?_) (by qperm) fun rs => ?_
  · rw [held_mapM h]
  refine Passes.bind [] (passes_mergeRegisters rs) (by qperm) fun m => ?_
  cases m with
  | none => exact Passes.throw _
  | some r => exact Passes.pure _ (by qperm)

end

end Verif
