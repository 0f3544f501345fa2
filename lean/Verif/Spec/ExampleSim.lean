import Verif.Model.SymSDE

/-! # Simulated data (C104) -/

namespace Ceacoest.Spec
open SymSDE Matrix
variable {nx nw ny : Nat}

/-- The states follow from each other by the discretised model, at the times of multiples of `dt`. -/
structure IsSimulation (c : CtModel nx nw ny) (dt : ℝ) (x0 : Fin nx → ℝ) (w : Nat → Fin (nw + nw) → ℝ) (xs : List (Fin nx → ℝ)) : Prop where
  start : xs[0]? = some x0
  step : ∀ (k : Nat) x x', xs[k]? = some x → xs[k + 1]? = some x' → x' = itoF c dt k x + itoG c dt k x *ᵥ w k

/-- The entries of `b` are those of `a` at the multiples of `m`. -/
def IsEvery {α : Type} (m : Nat) (a b : List α) : Prop := b.length = (a.length + m - 1) / m ∧ ∀ j z, b[j]? = some z → a[j * m]? = some z

/-- The piecewise linear function through the points: on each interval that has `q`, the line through its ends. -/
def OnLine (xs ys : List ℝ) (q r : ℝ) : Prop := ∃ i x x' y y', xs[i]? = some x ∧ xs[i + 1]? = some x' ∧ ys[i]? = some y ∧ ys[i + 1]? = some y' ∧
  x ≤ q ∧ q ≤ x' ∧ (x' - x) * (r - y) = (y' - y) * (q - x)

end Ceacoest.Spec
