import Lean.Elab.Tactic.Basic

/-! # Evaluation by the kernel -/

open Lean Elab Tactic Meta in
/-- closes `a = b` with `Eq.refl a`, leaving the comparison to the kernel (the elaborator's is too slow for whole
circuits) -/
elab "krfl" : tactic => do
  let g ← getMainGoal
  let t ← instantiateMVars (← g.getType)
  let some (α, a, _) := t.eq? | throwError "krfl: not an equation"
  let u ← getLevel α
  g.assign (mkApp2 (mkConst ``Eq.refl [u]) α a)
