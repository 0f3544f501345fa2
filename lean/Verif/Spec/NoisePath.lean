import Mathlib.Data.Matrix.Basic
import Mathlib.Data.Real.Basic
import Mathlib.Algebra.BigOperators.Group.Finset.Basic

/-! # States and noise of joint MAP problems (C107) -/

namespace Ceacoest.Spec

/-- A table of `N + 1` rows and `N` columns as a matrix. -/
def rangeMat (jt : List (List ℝ)) (N : Nat) : Matrix (Fin (N + 1)) (Fin N) ℝ := Matrix.of fun l m => (jt.getD l []).getD m 0

/-- What the change of state `j` over interval `k` of a piece of length `len` leaves unexplained by the drift `f`. -/
noncomputable def stateResidual (J : List (List ℝ)) (f x : Nat → List ℝ) (N : Nat) (len : ℝ) (k j : Nat) : ℝ :=
  (x (k + 1)).getD j 0 - (x k).getD j 0 - (∑ l ∈ Finset.range (N + 1), (J.getD k []).getD l 0 * (f l).getD j 0) * len

/-- Entry `b` of the increment of a noise path `w` over interval `k` of a piece of unit length. -/
noncomputable def increment (J : List (List ℝ)) (w : Nat → List ℝ) (N k b : Nat) : ℝ :=
  ∑ l ∈ Finset.range (N + 1), (J.getD k []).getD l 0 * (w l).getD b 0

/-- The columns of `G`, given by its rows, are independent. -/
def IndependentColumns (G : Nat → List ℝ) (nx nw : Nat) : Prop :=
  ∀ a : Nat → ℝ, (∀ j < nx, ∑ b ∈ Finset.range nw, (G j).getD b 0 * a b = 0) → ∀ b < nw, a b = 0

/-- `r` is a combination of the columns of `G`, given by its rows. -/
def InColumns (G : Nat → List ℝ) (nx nw : Nat) (r : Nat → ℝ) : Prop :=
  ∃ a : Nat → ℝ, ∀ j < nx, r j = ∑ b ∈ Finset.range nw, (G j).getD b 0 * a b

end Ceacoest.Spec
