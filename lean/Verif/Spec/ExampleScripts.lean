import Mathlib.Data.EReal.Basic

/-! # What it means to respect the bounds given to the solver (C99) -/

namespace Ceacoest.Spec

/-- Every entry of `d` is between the bounds. -/
def Between (L U : List EReal) (d : List ℝ) : Prop :=
  ∀ k < d.length, L.getD k ⊥ ≤ ((d.getD k 0 : ℝ) : EReal) ∧ ((d.getD k 0 : ℝ) : EReal) ≤ U.getD k ⊤

end Ceacoest.Spec
