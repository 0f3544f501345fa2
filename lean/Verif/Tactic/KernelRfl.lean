import Lean.Elab.Tactic.Basic

/-!
`krfl` closes a goal `a = b` with `Eq.refl a` and leaves the definitional check to the kernel (the elaborator is not asked).
Nothing is trusted: the kernel checks the term like any other.
-/

open Lean Meta Elab Tactic

elab "krfl" : tactic => do
  let g ← getMainGoal
  let t ← instantiateMVars (← g.getType)
  match t.consumeMData.eq? with
  | some (_, a, _) => g.assign (← mkEqRefl a); replaceMainGoal []
  | none => throwError "krfl: the goal is not an equation"
