import Verif.Proofs.Doze
import Verif.Proofs.Client
import Verif.Proofs.Weighs
import Mathlib.Analysis.Normed.Field.UnitBall

/-! # Condition registers only grow -/

namespace Verif
open Classical Complex RegOps CircuitBuilder Rooted TempBuilder LawfulReg Ledger

/-- the conditions are those from before, possibly with qubits added -/
def Swell {β : Type} [Rooted β] (s s' : β) : Prop :=
  ∀ cs, ctl s = some cs → ∃ cs', ctl s' = some cs' ∧ List.Forall₂ (· <+: ·) cs cs'

theorem prefixes_refl : ∀ cs : List Reg, List.Forall₂ (· <+: ·) cs cs
  | [] => .nil
  | c :: cs => .cons (List.prefix_refl c) (prefixes_refl cs)

theorem prefixes_trans {a b c : List Reg} (h : List.Forall₂ (· <+: ·) a b) (h' : List.Forall₂ (· <+: ·) b c) : List.Forall₂ (· <+: ·) a c := by
  induction h generalizing c with
  | nil => cases h'; exact .nil
  | cons h _ ih =>
    cases h' with
    | cons h1 h2 => exact .cons (h.trans h1) (ih h2)

theorem Swell.refl {β : Type} [Rooted β] (s : β) : Swell s s := fun cs h => ⟨cs, h, prefixes_refl cs⟩

theorem Swell.of_eq {β : Type} [Rooted β] {s s' : β} (h : ctl s' = ctl s) : Swell s s' := fun cs hs => ⟨cs, h.trans hs, prefixes_refl cs⟩

theorem Swell.trans {β : Type} [Rooted β] {s s' s'' : β} (h : Swell s s') (h' : Swell s' s'') : Swell s s'' := by
  intro cs hs
  obtain ⟨cs', h1, h2⟩ := h cs hs
  obtain ⟨cs'', h3, h4⟩ := h' cs' h1
  exact ⟨cs'', h3, prefixes_trans h2 h4⟩

/-- owning registers, the conditions only growing; nothing is said after an `Err` -/
abbrev swell (β : Type) [Rooted β] [Ledger β] : Ledger β where
  Holds := Holds
  sub := Ledger.sub
  nodup := Ledger.nodup
  ne := Ledger.ne
  Spares s s' L := Spares s s' L ∧ Swell s s'
  spares_refl s L := ⟨Ledger.spares_refl s L, Swell.refl s⟩
  spares_trans h h' := ⟨Ledger.spares_trans h.1 h'.1, h.2.trans h'.2⟩
  spares_sub h h' := ⟨Ledger.spares_sub h h'.1, h'.2⟩
  Left _ _ := True
  left _ := trivial
  left_sub _ _ := trivial
  Scraps _ _ _ := True
  scraps _ := trivial
  scraps_trans _ _ := trivial
  scraps_sub _ _ := trivial

theorem Passes.swells {β α : Type} [Rooted β] [Ledger β] {m : M β α} {pre : List Reg} {post : α → List Reg} (h : Passes m pre post)
    (hs : ∀ s a s' L, Holds s (pre ++ L) → m s = .ok a s' → Swell s s') : @Passes β α (swell β) m pre post :=
  fun s L hl => ⟨fun a s' he => ⟨((h s L hl).1 a s' he).1, ((h s L hl).1 a s' he).2, hs s a s' L hl he⟩, fun _ _ => ⟨trivial, trivial⟩⟩

/-- a method that does not touch the conditions -/
def Still {β α : Type} [Rooted β] (m : M β α) : Prop := ∀ s a s', m s = .ok a s' → ctl s' = ctl s

theorem Still.local {α : Type} (m : M LocalBuilder α) : Still m := fun _ _ _ _ => rfl

theorem onParent_inv {β α : Type} {m : M β α} {s s' : Conditioned β} {a : α} (h : Conditioned.onParent m s = .ok a s') :
    ∃ p, m s.parent = .ok a p ∧ s' = { s with parent := p } := by
  unfold Conditioned.onParent at h
  rcases hm : m s.parent with ⟨b, p⟩ | ⟨e, p⟩
  · rw [hm] at h
    cases h
    exact ⟨p, rfl, rfl⟩
  · rw [hm] at h
    cases h

theorem takeCr_inv {β : Type} {s s' : Conditioned β} {cr : Reg} (h : Conditioned.takeCr s = .ok cr s') :
    s.cr = some cr ∧ s' = { s with cr := none } := by
  obtain ⟨p, _ | c⟩ := s
  · cases h
  · cases h
    exact ⟨rfl, rfl⟩

theorem Still.onParent {β α : Type} [Rooted β] {m : M β α} (h : Still m) : Still (Conditioned.onParent m) := by
  intro s a s' he
  obtain ⟨p, h1, rfl⟩ := onParent_inv he
  have := h _ _ _ h1
  unfold ctl instRootedConditioned
  simp only
  rw [this]

/-- what conditioned application gives back: the condition, possibly with qubits added, and the register or a single qubit -/
structure Yield (cr r : Reg) (p : Reg × Reg) : Prop where
  grows : cr <+: p.1
  kept : p.2 = r ∨ (p.2.length = 1 ∧ r.length ≠ 1)

/-- the methods leave the conditions alone, but for conditioned application -/
class GrownC (β : Type) [Conditionable β] [Rooted β] [Ledger β] : Prop extends LawfulReg β where
  register : ∀ n, Still (register n : M β Reg)
  makeTemp : Still (makeTempQubit : M β Reg)
  returnTemp : ∀ r, Still (returnTemp r : M β Unit)
  rz : ∀ r θ, Still (Rotations.rz r θ : M β Reg)
  rx : ∀ r θ, Still (Rotations.rx r θ : M β Reg)
  ry : ∀ r θ, Still (Rotations.ry r θ : M β Reg)
  rzRatio : ∀ r q, Still (Rotations.rzRatio r q : M β Reg)
  rxRatio : ∀ r q, Still (Rotations.rxRatio r q : M β Reg)
  ryRatio : ∀ r q, Still (Rotations.ryRatio r q : M β Reg)
  rzPiBy : ∀ r m, Still (Rotations.rzPiBy r m : M β Reg)
  rxPiBy : ∀ r m, Still (Rotations.rxPiBy r m : M β Reg)
  ryPiBy : ∀ r m, Still (Rotations.ryPiBy r m : M β Reg)
  applyCO : ∀ {s s' : β} {r r' : Reg} {c : CObj} {L : List Reg}, Holds s ([r] ++ L) → CircuitBuilder.applyCO r c s = .ok r' s' →
    Swell s s'
  tryCond : ∀ {s s' : β} {cr r : Reg} {c : CObj} {p : Reg × Reg} {L : List Reg}, Holds s ([cr, r] ++ L) →
    Conditionable.tryCond cr r c s = .ok p s' → Yield cr r p ∧ Swell s s'

/-- so do the methods for subcircuits -/
class GrownS (β : Type) [Stock] [Recursive β] [Rooted β] [Ledger β] : Prop extends GrownC β where
  applySub : ∀ {s s' : β} {r r' : Reg} {sc : Pipeline} {L : List Reg}, Holds s ([r] ++ L) →
    (∀ e ∈ sc, Stock.Given e.2) → Recursive.applySub sc r s = .ok r' s' → Swell s s'
  condSub : ∀ {s s' : β} {cr r : Reg} {sc : Pipeline} {p : Reg × Reg} {L : List Reg}, Holds s ([cr, r] ++ L) →
    (∀ e ∈ sc, Stock.Given e.2) → Recursive.applyCondSub sc cr r s = .ok p s' → cr <+: p.1 ∧ Swell s s'

theorem Still.liftE {β α : Type} [Rooted β] (e : Except Fail α) : Still (liftE e : M β α) := by
  intro s a s' h
  cases e <;> cases h
  rfl

section
variable {β : Type} [Stock] [Conditionable β] [Rooted β] [Ledger β] [PassesC β] [GrownC β]

theorem passesR_swell : @PassesR β _ (swell β) := @PassesR.mk β _ (swell β)
  (fun n => (PassesR.register n).swells fun _ _ _ _ _ h => .of_eq (GrownC.register n _ _ _ h))
  (fun a b => (PassesR.mergeTwo a b).swells fun s r s' L hl h => by
    have : a ++ b ≠ [] := by
      have := Ledger.ne hl a (by simp)
      simp [this]
    rw [mergeTwo_eq _ _ this] at h
    cases h
    exact Swell.refl _)
  (fun r idx hn => (PassesR.splitRel r idx hn).swells fun s a s' L _ h => by
    rw [splitRel_eq] at h
    exact .of_eq (Still.liftE _ _ _ _ h))

theorem passesT_swell : @PassesT β _ _ (swell β) := @PassesT.mk β _ _ (swell β) passesR_swell
  (fun r c hc => (PassesT.applyCO r c hc).swells fun s a s' L hl h => GrownC.applyCO hl h)
  ((PassesT.makeTemp).swells fun _ _ _ _ _ h => .of_eq (GrownC.makeTemp _ _ _ h))
  (fun r => (PassesT.returnTemp r).swells fun _ _ _ _ _ h => .of_eq (GrownC.returnTemp r _ _ _ h))
  PassesT.mat inferInstance inferInstance inferInstance inferInstance inferInstance inferInstance inferInstance

theorem passesC_swell : @PassesC β _ _ (swell β) := @PassesC.mk β _ _ (swell β) passesT_swell
  (fun r θ => (PassesC.rz r θ).swells fun _ _ _ _ _ h => .of_eq (GrownC.rz r θ _ _ _ h))
  (fun r θ => (PassesC.rx r θ).swells fun _ _ _ _ _ h => .of_eq (GrownC.rx r θ _ _ _ h))
  (fun r θ => (PassesC.ry r θ).swells fun _ _ _ _ _ h => .of_eq (GrownC.ry r θ _ _ _ h))
  (fun r θ => (PassesC.rzRatio r θ).swells fun _ _ _ _ _ h => .of_eq (GrownC.rzRatio r θ _ _ _ h))
  (fun r θ => (PassesC.rxRatio r θ).swells fun _ _ _ _ _ h => .of_eq (GrownC.rxRatio r θ _ _ _ h))
  (fun r θ => (PassesC.ryRatio r θ).swells fun _ _ _ _ _ h => .of_eq (GrownC.ryRatio r θ _ _ _ h))
  (fun r θ => (PassesC.rzPiBy r θ).swells fun _ _ _ _ _ h => .of_eq (GrownC.rzPiBy r θ _ _ _ h))
  (fun r θ => (PassesC.rxPiBy r θ).swells fun _ _ _ _ _ h => .of_eq (GrownC.rxPiBy r θ _ _ _ h))
  (fun r θ => (PassesC.ryPiBy r θ).swells fun _ _ _ _ _ h => .of_eq (GrownC.ryPiBy r θ _ _ _ h))
  (fun cr r c => (PassesC.tryCond cr r c).swells fun _ _ _ _ hl h => (GrownC.tryCond hl h).2)

end

/-! ## `LocalBuilder` -/

theorem splitLast_gives {r c : Reg} {o : Reg} {b b' : LocalBuilder} (h : splitLast r b = .ok (c, some o) b') : o.length = 1 := by
  unfold splitLast at h
  by_cases hr : r.length = 0
  · rw [if_pos hr] at h
    cases h
  rw [if_neg hr] at h
  obtain ⟨x, b1, h1, h⟩ := bind_inv h
  rw [splitRel_eq] at h1
  obtain ⟨y, ry⟩ : ∃ y, r[r.length - 1]? = some y := ⟨r[r.length - 1]'(by omega), List.getElem?_eq_getElem _⟩
  have hs : LocalBuilder.selectIndices r [r.length - 1] = some [y] := by simp [LocalBuilder.selectIndices, ry]
  unfold splitE at h1
  rw [hs] at h1
  simp only [List.cons_ne_nil, if_false] at h1
  split at h1
  · cases h1
    cases h
  · cases h1
    cases h
    rfl

theorem condPhase_single {g : Reg → M LocalBuilder Reg} {cr r : Reg} {b b' : LocalBuilder} {p : Reg × Reg}
    (h : LocalBuilder.condPhase g cr r b = .ok p b') : p.2.length = 1 := by
  unfold LocalBuilder.condPhase at h
  obtain ⟨_, _, -, h⟩ := bind_inv h
  obtain ⟨_, _, -, h⟩ := bind_inv h
  obtain ⟨_, _, -, h⟩ := bind_inv h
  obtain ⟨_, _, -, h⟩ := bind_inv h
  obtain ⟨_, _, -, h⟩ := bind_inv h
  obtain ⟨_, _, -, h⟩ := bind_inv h
  obtain ⟨⟨c, o⟩, _, h1, h⟩ := bind_inv h
  obtain ⟨r', _, h2, h⟩ := bind_inv h
  cases h
  show r'.length = 1
  obtain rfl : o = some r' := by
    cases o with
    | none => cases h2
    | some o => cases h2; rfl
  exact splitLast_gives h1

theorem calms_sphere (co : CObj) : Calms (Submonoid.unitSphere ℂ) co := by
  intro ρ _
  refine mem_sphere_zero_iff_norm.mpr ?_
  exact Complex.norm_exp_ofReal_mul_I _

/-- what conditioned application on a `LocalBuilder` gives back and does if the condition is not met -/
theorem tryCond_rests {G : Submonoid ℂ} {cr r : Reg} {co : CObj} {L : List ℕ} {b b' : LocalBuilder} {p : Reg × Reg} (hG : Calms G co) (hc : cr ≠ [])
    (hr : r ≠ []) (ho : Own b (cr ++ r ++ L)) (h : LocalBuilder.tryCond cr r co b = .ok p b') :
    Yield cr r p ∧ Rests G {x | ∃ q ∈ cr, x q = false} b b' := by
  have hi := tryCond_idles co hG hc hr ho h
  obtain ⟨e, he⟩ := hi.grows
  refine ⟨⟨⟨e, he.symm⟩, ?_⟩, hi.rests⟩
  by_cases hk : r.length = 1 ∨ (co.object ≠ .unitary .S ∧ co.object ≠ .unitary .T)
  · exact .inl (by rw [hi.kept hk])
  · push Not at hk
    obtain ⟨h1, h2⟩ := hk
    refine .inr ⟨?_, h1⟩
    obtain ⟨n, o⟩ := co
    by_cases hS : o = .unitary .S
    · subst hS
      exact condPhase_single (g := Gate.s) h
    · have := h2 hS
      dsimp only at this
      subst this
      exact condPhase_single (g := Gate.t) h

instance [Stock] : GrownC LocalBuilder where
  register _ := Still.local _
  makeTemp := Still.local _
  returnTemp _ := Still.local _
  rz _ _ := Still.local _
  rx _ _ := Still.local _
  ry _ _ := Still.local _
  rzRatio _ _ := Still.local _
  rxRatio _ _ := Still.local _
  ryRatio _ _ := Still.local _
  rzPiBy _ _ := Still.local _
  rxPiBy _ _ := Still.local _
  ryPiBy _ _ := Still.local _
  applyCO _ _ := .of_eq rfl
  tryCond {s s' cr r c p L} hl h := by
    obtain ⟨h1, h2, -⟩ := hl
    refine ⟨(tryCond_rests (L := L.flatten) (calms_sphere c) (h2 cr (by simp)) (h2 r (by simp)) ?_ h).1, .of_eq rfl⟩
    simpa using h1

/-! ## `Conditioned` -/

section
variable {β : Type} [Stock] [Conditionable β] [Rooted β] [Ledger β] [PassesC β] [GrownC β]

/-- the builder's own condition and those of its parent -/
theorem Swell.conditioned {s s' : Conditioned β} {cr cr' : Reg} (h : s.cr = some cr) (h' : s'.cr = some cr') (hp : cr <+: cr')
    (hs : Swell s.parent s'.parent) : Swell s s' := by
  intro cs hcs
  obtain ⟨cr1, ps, e1, e2, e3, rfl⟩ := ctl_conditioned hcs
  rw [h] at e1
  cases e1
  obtain ⟨ps', h1, h2⟩ := hs ps e3
  obtain ⟨p', c'⟩ := s'
  dsimp only at h'
  subst h'
  refine ⟨cr' :: ps', conditioned_ctl h1 ?_, .cons hp h2⟩
  rintro rfl
  exact e2 (List.prefix_nil.mp hp)

/-- a condition split off again -/
theorem splitCr_inv {s s' : Conditioned β} {cr ccr c' r : Reg} {p : Reg × Reg} (hc : cr ≠ []) (hcc : ccr ≠ []) (hp : cr ++ ccr <+: c') (hn : c'.Nodup)
    (h : (do
      match ← RegOps.splitRel c' (List.range cr.length) with
      | .split cr ccr => do
        Conditioned.putCr ccr
        pure (cr, r)
      | .selected _ => throw .panic
      | .unselected _ => throw .panic : M (Conditioned β) (Reg × Reg)) s = .ok p s') :
    ∃ ccr', p = (cr, r) ∧ ccr <+: ccr' ∧ s' = { s with cr := some ccr' } := by
  obtain ⟨e, rfl⟩ := hp
  rw [splitRel_eq, List.append_assoc, splitE_prefix cr (ccr ++ e) (by rw [← List.append_assoc]; exact hn) hc (by simp [hcc])] at h
  cases h
  exact ⟨ccr ++ e, rfl, ⟨e, rfl⟩, rfl⟩

theorem conditioned_applyCO_inv {s s' : Conditioned β} {r r' : Reg} {c : CObj} (h : Conditioned.applyCO r c s = .ok r' s') :
    ∃ cr cr' p, s.cr = some cr ∧ Conditionable.tryCond cr r c s.parent = .ok (cr', r') p ∧ s' = ⟨p, some cr'⟩ := by
  unfold Conditioned.applyCO at h
  obtain ⟨cr, s1, h1, h⟩ := bind_inv h
  obtain ⟨e1, rfl⟩ := takeCr_inv h1
  obtain ⟨⟨cr', r2⟩, s2, h2, h⟩ := bind_inv h
  obtain ⟨p, e2, rfl⟩ := onParent_inv h2
  cases h
  exact ⟨cr, cr', p, e1, e2, rfl⟩

theorem conditioned_tryCond_inv {s s' : Conditioned β} {cr r : Reg} {c : CObj} {p : Reg × Reg} {L : List Reg} (hl : Holds s ([cr, r] ++ L))
    (h : Conditioned.tryCond cr r c s = .ok p s') : ∃ ccr ccr' c' q, s.cr = some ccr ∧ Holds s.parent ([cr ++ ccr, r] ++ L) ∧
      Conditionable.tryCond (cr ++ ccr) r c s.parent = .ok (c', p.2) q ∧ p.1 = cr ∧ ccr <+: ccr' ∧ s' = ⟨q, some ccr'⟩ := by
  unfold Conditioned.tryCond at h
  obtain ⟨ccr, s1, h1, h⟩ := bind_inv h
  obtain ⟨e1, rfl⟩ := takeCr_inv h1
  have hl' : Holds s.parent ([ccr] ++ ([cr, r] ++ L)) := by
    have : Holds s.parent (s.cr.toList ++ ([cr, r] ++ L)) := hl
    rw [e1] at this
    exact this
  have hc : cr ≠ [] := Ledger.ne hl' cr (by simp)
  have hcc : ccr ≠ [] := Ledger.ne hl' ccr (by simp)
  have hm : Holds s.parent ([cr ++ ccr, r] ++ L) := by
    have := (PassesR.mergeTwo (β := β) cr ccr s.parent ([r] ++ L) (Ledger.sub (by qperm) hl')).1 (cr ++ ccr) s.parent (by
      rw [mergeTwo_eq _ _ (by simp [hc])]
      rfl)
    exact Ledger.sub (by qperm) this.1
  rw [mergeTwo_eq _ _ (by simp [hc]), pure_bind] at h
  obtain ⟨⟨c', r2⟩, s2, h2, h⟩ := bind_inv h
  obtain ⟨q, e2, rfl⟩ := onParent_inv h2
  have hg := (GrownC.tryCond hm e2).1.grows
  have hn : c'.Nodup := by
    have := Ledger.nodup (((PassesC.tryCond (cr ++ ccr) r c) _ _ hm).1 _ _ e2).1
    simp only [List.cons_append, List.flatten_cons] at this
    exact this.of_append_left
  obtain ⟨ccr', rfl, k1, rfl⟩ := splitCr_inv hc hcc hg hn h
  exact ⟨ccr, ccr', c', q, e1, hm, e2, rfl, k1, rfl⟩

instance : GrownC (Conditioned β) where
  register n := (GrownC.register n).onParent
  makeTemp := GrownC.makeTemp.onParent
  returnTemp r := (GrownC.returnTemp r).onParent
  rz r θ := (GrownC.rz r θ).onParent
  rx r θ := (GrownC.rx r θ).onParent
  ry r θ := (GrownC.ry r θ).onParent
  rzRatio r θ := (GrownC.rzRatio r θ).onParent
  rxRatio r θ := (GrownC.rxRatio r θ).onParent
  ryRatio r θ := (GrownC.ryRatio r θ).onParent
  rzPiBy r θ := (GrownC.rzPiBy r θ).onParent
  rxPiBy r θ := (GrownC.rxPiBy r θ).onParent
  ryPiBy r θ := (GrownC.ryPiBy r θ).onParent
  applyCO {s s' r r' c L} hl h := by
    obtain ⟨cr, cr', p, e1, e2, rfl⟩ := conditioned_applyCO_inv h
    have hl' : Holds s.parent ([cr, r] ++ L) := by
      have : Holds s.parent (s.cr.toList ++ ([r] ++ L)) := hl
      rw [e1] at this
      exact this
    obtain ⟨h1, h2⟩ := GrownC.tryCond hl' e2
    exact Swell.conditioned e1 rfl h1.grows h2
  tryCond {s s' cr r c p L} hl h := by
    obtain ⟨ccr, ccr', c', q, e1, hm, e2, e3, e4, rfl⟩ := conditioned_tryCond_inv hl h
    obtain ⟨h1, h2⟩ := GrownC.tryCond hm e2
    exact ⟨⟨by rw [e3], h1.kept⟩, Swell.conditioned e1 rfl e4 h2⟩

end

/-! ## subcircuits -/

theorem conditioned_inv {β α : Type} {cr : Reg} {m : M (Conditioned β) α} {s s' : β} {p : α × Reg} (h : Conditioned.conditioned cr m s = .ok p s') :
    m ⟨s, some cr⟩ = .ok p.1 ⟨s', some p.2⟩ := by
  unfold Conditioned.conditioned at h
  rcases hm : m ⟨s, some cr⟩ with ⟨a, ⟨q, _ | c⟩⟩ | ⟨e, q⟩
  · rw [hm] at h
    cases h
  · rw [hm] at h
    cases h
    rfl
  · rw [hm] at h
    cases h

instance [Stock] : GrownS LocalBuilder where
  applySub _ _ _ := .of_eq rfl
  condSub {s s' cr r sc p L} hl hsc h := by
    obtain ⟨⟨r', cr'⟩, s1, h1, h⟩ := bind_inv h
    cases h
    have h2 := conditioned_inv h1
    have hl' : Holds (⟨s, some cr⟩ : Conditioned LocalBuilder) ([r] ++ L) := hl
    have hp := @passes_applyPipelineObjects (Conditioned LocalBuilder) _ _ (swell _) passesT_swell sc hsc r
    have hs : Swell (⟨s, some cr⟩ : Conditioned LocalBuilder) ⟨s', some cr'⟩ := ((hp _ L hl').1 _ _ h2).2.2
    have hc : cr ≠ [] := Ledger.ne hl cr (by simp)
    obtain ⟨cs', e1, e2⟩ := hs [cr] (conditioned_ctl rfl hc)
    obtain ⟨cr1, ps, k1, -, -, rfl⟩ := ctl_conditioned e1
    cases k1
    cases e2 with
    | cons e2 _ => exact ⟨e2, .of_eq rfl⟩

section
variable {β : Type} [Stock] [Recursive β] [Rooted β] [Ledger β] [PassesS β] [GrownS β]

theorem conditioned_applySub_inv {s s' : Conditioned β} {r r' : Reg} {sc : Pipeline} (h : Recursive.applySub sc r s = .ok r' s') :
    ∃ cr cr' p, s.cr = some cr ∧ Recursive.applyCondSub sc cr r s.parent = .ok (cr', r') p ∧ s' = ⟨p, some cr'⟩ := by
  obtain ⟨cr, s1, h1, h⟩ := bind_inv h
  obtain ⟨e1, rfl⟩ := takeCr_inv h1
  obtain ⟨⟨cr', r2⟩, s2, h2, h⟩ := bind_inv h
  obtain ⟨p, e2, rfl⟩ := onParent_inv h2
  cases h
  exact ⟨cr, cr', p, e1, e2, rfl⟩

theorem conditioned_condSub_inv {s s' : Conditioned β} {cr r : Reg} {sc : Pipeline} {p : Reg × Reg} {L : List Reg} (hl : Holds s ([cr, r] ++ L))
    (hsc : ∀ e ∈ sc, Stock.Given e.2) (h : Recursive.applyCondSub sc cr r s = .ok p s') :
    ∃ ccr ccr' c' q, s.cr = some ccr ∧ Holds s.parent ([cr ++ ccr, r] ++ L) ∧
      Recursive.applyCondSub sc (cr ++ ccr) r s.parent = .ok (c', p.2) q ∧ p.1 = cr ∧ ccr <+: ccr' ∧ s' = ⟨q, some ccr'⟩ := by
  obtain ⟨ccr, s1, h1, h⟩ := bind_inv h
  obtain ⟨e1, rfl⟩ := takeCr_inv h1
  have hl' : Holds s.parent ([ccr] ++ ([cr, r] ++ L)) := by
    have : Holds s.parent (s.cr.toList ++ ([cr, r] ++ L)) := hl
    rw [e1] at this
    exact this
  have hc : cr ≠ [] := Ledger.ne hl' cr (by simp)
  have hcc : ccr ≠ [] := Ledger.ne hl' ccr (by simp)
  have hm : Holds s.parent ([cr ++ ccr, r] ++ L) := by
    have := (PassesR.mergeTwo (β := β) cr ccr s.parent ([r] ++ L) (Ledger.sub (by qperm) hl')).1 (cr ++ ccr) s.parent (by
      rw [mergeTwo_eq _ _ (by simp [hc])]
      rfl)
    exact Ledger.sub (by qperm) this.1
  rw [mergeTwo_eq _ _ (by simp [hc]), pure_bind] at h
  obtain ⟨⟨c', r2⟩, s2, h2, h⟩ := bind_inv h
  obtain ⟨q, e2, rfl⟩ := onParent_inv h2
  have hg := (GrownS.condSub hm hsc e2).1
  have hn : c'.Nodup := by
    have := Ledger.nodup (((PassesS.applyCondSub sc (cr ++ ccr) r hsc) _ _ hm).1 _ _ e2).1
    simp only [List.cons_append, List.flatten_cons] at this
    exact this.of_append_left
  obtain ⟨ccr', rfl, k1, rfl⟩ := splitCr_inv hc hcc hg hn h
  exact ⟨ccr, ccr', c', q, e1, hm, e2, rfl, k1, rfl⟩

instance : GrownS (Conditioned β) where
  applySub {s s' r r' sc L} hl hsc h := by
    obtain ⟨cr, cr', p, e1, e2, rfl⟩ := conditioned_applySub_inv h
    have hl' : Holds s.parent ([cr, r] ++ L) := by
      have : Holds s.parent (s.cr.toList ++ ([r] ++ L)) := hl
      rw [e1] at this
      exact this
    obtain ⟨h1, h2⟩ := GrownS.condSub hl' hsc e2
    exact Swell.conditioned e1 rfl h1 h2
  condSub {s s' cr r sc p L} hl hsc h := by
    obtain ⟨ccr, ccr', c', q, e1, hm, e2, e3, e4, rfl⟩ := conditioned_condSub_inv hl hsc h
    obtain ⟨h1, h2⟩ := GrownS.condSub hm hsc e2
    exact ⟨by rw [e3], Swell.conditioned e1 rfl e4 h2⟩

theorem passesS_swell : @PassesS β _ _ (swell β) := @PassesS.mk β _ _ (swell β) passesC_swell
  (fun sc r hsc => (PassesS.applySub sc r hsc).swells fun _ _ _ _ hl h => GrownS.applySub hl hsc h)
  (fun sc cr r hsc => (PassesS.applyCondSub sc cr r hsc).swells fun _ _ _ _ hl h => (GrownS.condSub hl hsc h).2)

/-- the condition of a block within conditions is only given qubits -/
theorem passes_conditioned_swell {α : Type} {m : M (Conditioned β) α} {pre : List Reg} {post : α → List Reg}
    (h : @Passes _ _ (swell (Conditioned β)) m pre post) (cr : Reg) :
    @Passes _ _ (swell β) (Conditioned.conditioned cr m) ([cr] ++ pre) fun p => [p.2] ++ post p.1 := by
  intro s L (hl : Holds s ([cr] ++ pre ++ L))
  refine ⟨fun p s' he => ?_, fun _ _ => ⟨trivial, trivial⟩⟩
  have h2 := conditioned_inv he
  have hl' : Holds (⟨s, some cr⟩ : Conditioned β) (pre ++ L) := by
    show Holds s ([cr] ++ (pre ++ L))
    rw [← List.append_assoc]
    exact hl
  obtain ⟨g1, g2, g3⟩ := (h _ L hl').1 _ _ h2
  refine ⟨?_, g2, fun cs hcs => ?_⟩
  · have : Holds s' ([p.2] ++ (post p.1 ++ L)) := g1
    rw [List.append_assoc]
    exact this
  · have hc : cr ≠ [] := Ledger.ne hl cr (by simp)
    obtain ⟨cs', e1, e2⟩ := g3 (cr :: cs) (conditioned_ctl hcs hc)
    obtain ⟨cr1, ps, -, -, k2, rfl⟩ := ctl_conditioned e1
    cases e2 with
    | cons _ e2 => exact ⟨ps, k2, e2⟩

end

instance NB.grown [Stock] : (k : ℕ) → GrownS (NB k)
  | 0 => inferInstanceAs (GrownS LocalBuilder)
  | k + 1 => letI := NB.grown k; inferInstanceAs (GrownS (Conditioned (NB k)))

end Verif
