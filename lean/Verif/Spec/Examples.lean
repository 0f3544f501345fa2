import Verif.Model.Examples
import Verif.Model.Problems
import Verif.Spec.Collocation

/-! # What the examples compute (C73) -/

namespace Ceacoest.Spec

/-- Every component of `x` is between the bounds; `none` is an infinite bound. -/
def WithinBounds (lower upper : List (Option ℝ)) (x : List ℝ) : Prop :=
  ∀ j, (∀ b, lower[j]? = some (some b) → b ≤ x.getD j 0) ∧ (∀ b, upper[j]? = some (some b) → x.getD j 0 ≤ b)

/-- The points among which the Bryson--Denham example looks for its minimum (with `P` pieces): no defects, and the states are within
the bounds. -/
structure BrysonDenhamFeasible (q : Problem ℝ) (P : Nat) (d : List ℝ) : Prop where
  length : d.length = q.ndec
  constr : ∃ cv, q.constr d = .ok cv ∧ ∀ a ∈ cv, a = 0
  bounds : ∀ r ≤ P * 2, WithinBounds (brysonDenhamLower (P * 2) r) (brysonDenhamUpper (P * 2) r) (ocX 2 d r)

/-- The solution of the problem of Bryson and Denham, if its two arcs have the duration `α` (`1 / 3` for the state constraint `1 / 9`). -/
noncomputable def brysonDenhamArc (α s : ℝ) : ℝ := max (1 - s / α) 0
noncomputable def brysonDenhamState (α s : ℝ) : List ℝ :=
  [α / 3 * (1 - brysonDenhamArc α s ^ 3 - brysonDenhamArc α (1 - s) ^ 3), brysonDenhamArc α s ^ 2 - brysonDenhamArc α (1 - s) ^ 2]
noncomputable def brysonDenhamInput (α s : ℝ) : List ℝ := [-(2 / α) * (brysonDenhamArc α s + brysonDenhamArc α (1 - s))]

end Ceacoest.Spec
