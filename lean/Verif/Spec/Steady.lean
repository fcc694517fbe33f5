import Verif.Spec.Client

/-!
# Specification: programs that do not go on after an `Err`

Programs as in `Client` that give up on the first `Err` (as with `?`), calling only the methods in `P` on builders. If `I` holds they
may have functions of their own inverted, in which they may do anything.
-/

namespace Verif

/-- functions of a program that never goes on after an `Err` -/
inductive Steady (P : Method → Prop) (I : Prop) (ok : CObj → Prop) : (k : ℕ) → (List Reg → M (NB k) (List Reg)) → Prop where
  | method {k} (m : Method) : P m → m.NoRepeat → (∀ c ∈ m.objects, ok c) → Steady P I ok k m.run
  | onLocal (m : LocalMethod) : Steady P I ok 0 m.run
  | keep {k} (σ : List Reg → List Reg) : (∀ rs, (σ rs).Subperm rs) → Steady P I ok k fun rs => pure (σ rs)
  | seq {k f g} : Steady P I ok k f → Steady P I ok k g → Steady P I ok k fun rs => f rs >>= g
  | on {k f} (σ : List Reg → List Reg × List Reg) : (∀ rs, ((σ rs).1 ++ (σ rs).2).Perm rs) → Steady P I ok k f →
      Steady P I ok k fun rs => do
        let out ← f (σ rs).1
        pure (out ++ (σ rs).2)
  | choose {k} {ι : Type} {F : ι → List Reg → M (NB k) (List Reg)} (c : NB k → List Reg → ι) : (∀ i, Steady P I ok k (F i)) →
      Steady P I ok k fun rs s => F (c s rs) rs s
  | cond {k f} : Steady P I ok (k + 1) f → Steady P I ok k fun rs =>
      match rs with
      | cr :: rs => do
        let p ← Conditioned.conditioned (β := NB k) cr (f rs)
        pure (p.2 :: p.1)
      | [] => throw .panic
  | prog {k} (lines : List (Line (NB k))) : (∀ f gs, Line.plain f gs ∈ lines → Steady P I ok k f) →
      (∀ mask f gs, Line.control mask f gs ∈ lines → Steady P I ok (k + 1) f) → Steady P I ok k fun rs => program rs lines
  | invert {k f} : I → Client ok 0 f → Steady P I ok k (invertFn f)
  | inverter {k f} : I → Client ok 0 f → Steady P I ok k fun rs => inverter rs f

end Verif
