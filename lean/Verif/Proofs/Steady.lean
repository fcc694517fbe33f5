import Verif.Spec.Steady
import Verif.Proofs.Swell

/-! # Conditions through whole programs -/

namespace Verif
open RegOps CircuitBuilder Rooted Ledger

theorem Steady.client {P : Method → Prop} {I : Prop} {ok : CObj → Prop} {k : ℕ} {f : List Reg → M (NB k) (List Reg)} (h : Steady P I ok k f) : Client ok k f := by
  induction h with
  | method m _ h1 h2 => exact .method m h1 h2
  | onLocal m => exact .onLocal m
  | keep σ h => exact .keep σ h
  | seq _ _ ihf ihg => exact .seq ihf ihg
  | on σ h _ ih => exact .on σ h ih
  | choose c _ ih => exact .choose c ih
  | cond _ ih => exact .cond ih
  | prog lines _ _ ihp ihc => exact .prog lines ihp ihc
  | invert _ h => exact .invert h
  | inverter _ h => exact .inverter h

theorem NB.conds_le : (k : ℕ) → (s : NB k) → (NB.conds k s).length ≤ k
  | 0, _ => le_of_eq rfl
  | k + 1, s => by
    have := NB.conds_le k (Conditioned.parent (β := NB k) s)
    show ((Conditioned.cr (β := NB k) s).toList ++ NB.conds k (Conditioned.parent (β := NB k) s)).length ≤ k + 1
    cases Conditioned.cr (β := NB k) s <;> simp <;> omega

/-- the conditions of a builder that has them all -/
theorem NB.ctl_conds : (k : ℕ) → (s : NB k) → (cs : List Reg) →
    (ctl s = some cs ↔ NB.conds k s = cs ∧ cs.length = k ∧ ∀ c ∈ cs, c ≠ [])
  | 0, s, cs => by
    constructor
    · intro h
      cases h
      exact ⟨rfl, rfl, by simp⟩
    · rintro ⟨rfl, -, -⟩
      rfl
  | k + 1, s, cs => by
    have ih := NB.ctl_conds k (Conditioned.parent (β := NB k) s)
    have e : NB.conds (k + 1) s = (Conditioned.cr (β := NB k) s).toList ++ NB.conds k (Conditioned.parent (β := NB k) s) := rfl
    constructor
    · intro h
      obtain ⟨cr, ps, h1, h2, h3, rfl⟩ := ctl_conditioned (β := NB k) (s := s) h
      obtain ⟨e1, e2, e3⟩ := (ih ps).mp h3
      rw [e, h1, e1]
      refine ⟨rfl, by simp [e2], ?_⟩
      intro c hc
      rcases List.mem_cons.mp hc with rfl | hc
      · exact h2
      · exact e3 c hc
    · rintro ⟨rfl, hl, hn⟩
      have hp := NB.conds_le k (Conditioned.parent (β := NB k) s)
      obtain ⟨p, _ | cr⟩ : Conditioned (NB k) := s
      · have : (NB.conds k p).length = k + 1 := hl
        have : (NB.conds k p).length ≤ k := hp
        omega
      · have e : NB.conds (k + 1) (⟨p, some cr⟩ : Conditioned (NB k)) = cr :: NB.conds k p := rfl
        rw [e] at hl hn ⊢
        exact conditioned_ctl (β := NB k) ((NB.ctl_conds k p _).mpr ⟨rfl, by simpa using hl, fun c hc => hn c (by simp [hc])⟩) (hn cr (by simp))

theorem passesA_of {β : Type} [Stock] [TempBuilder β] [Ledger β] [PassesT β] : PassesA β := inferInstance

section
variable {β : Type} [Ledger β]

theorem keeping_seq {f g : List Reg → M β (List Reg)} (hf : Keeping f) (hg : Keeping g) : Keeping fun rs => f rs >>= g :=
  fun rs => Passes.bind [] (hf rs) (by qperm) fun a => (hg a).mono (by qperm) fun _ => List.Subperm.refl _

theorem keeping_on {f : List Reg → M β (List Reg)} (σ : List Reg → List Reg × List Reg) (h : ∀ rs, ((σ rs).1 ++ (σ rs).2).Perm rs)
    (hf : Keeping f) : Keeping fun rs => (do
      let out ← f (σ rs).1
      pure (out ++ (σ rs).2) : M β (List Reg)) :=
  fun rs => Passes.bind (σ rs).2 (hf (σ rs).1) (h rs).subperm fun a => Passes.pure _ (by qperm)

theorem keeping_cond {f : List Reg → M (Conditioned β) (List Reg)}
    (hf : ∀ rs cr, Passes (Conditioned.conditioned cr (f rs)) ([cr] ++ rs) fun p => [p.2] ++ p.1) : Keeping fun rs => (match rs with
      | cr :: rs => do
        let p ← Conditioned.conditioned cr (f rs)
        pure (p.2 :: p.1)
      | [] => throw .panic : M β (List Reg)) := by
  intro rs
  cases rs with
  | nil => exact Passes.throw _
  | cons cr rs =>
    refine Passes.bind [] (hf rs cr) (by qperm) ?_
    rintro ⟨out, cr⟩
    exact Passes.pure _ (by qperm)

end

/-- a function of a program that never goes on after an `Err` passes ownership on and only adds to the conditions -/
theorem Steady.swells [Stock] {P : Method → Prop} {I : Prop} {ok : CObj → Prop} (hok : ∀ c, ok c → Stock.Given c) {k : ℕ} {f : List Reg → M (NB k) (List Reg)}
    (h : Steady P I ok k f) : @Keeping _ (swell (NB k)) f := by
  induction h with
  | method m _ hm ho => exact @keeping_method _ _ _ (swell _) passesS_swell m hm fun c hc => hok c (ho c hc)
  | onLocal m => exact fun rs => (keeping_localMethod m rs).swells fun _ _ _ _ _ _ => .of_eq rfl
  | keep σ h => exact fun rs => @Passes.pure _ _ (swell _) _ _ _ (h rs)
  | seq _ _ ihf ihg => exact @keeping_seq _ (swell _) _ _ ihf ihg
  | on σ h _ ih => exact @keeping_on _ (swell _) _ σ h ih
  | choose c _ ih => exact fun rs s L hs => ih (c s rs) rs s L hs
  | cond _ ih =>
    rename_i k f _
    exact @keeping_cond (NB k) (swell _) f fun rs cr => passes_conditioned_swell (β := NB k) (ih rs) cr
  | prog lines _ _ ihp ihc =>
    rename_i k _ _
    intro rs
    refine @passes_lines _ _ (swell _) (@passesA_of _ _ _ (swell _) passesT_swell) rs lines ?_
    rintro (⟨f, gs⟩ | ⟨mask, f, gs⟩) hl
    · exact ihp f gs hl
    · exact fun rs cr => passes_conditioned_swell (ihc mask f gs hl rs) cr
  | invert _ h => exact @keeping_invertFn _ _ _ (swell _) passesS_swell _ (h.keeping hok)
  | inverter _ h => exact @keeping_inverter _ _ _ (swell _) passesS_swell _ (h.keeping hok)

end Verif
