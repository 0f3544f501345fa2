import Verif.Spec.Transcription
import Mathlib.Analysis.Calculus.Deriv.Polynomial
import Mathlib.MeasureTheory.Integral.IntervalIntegral.Basic

/-!
# Collocation solutions of differential equations, and sampled solutions of control problems (C72)

In terms of functions of time.
-/

namespace Ceacoest.Spec
open Polynomial

/-- The time of point `l` of piece `i`, for pieces between the times `t` and points `c` in `[0, 1]`. -/
noncomputable def pointTime (t c : List ℝ) (i l : Nat) : ℝ := t.getD i 0 + (t.getD (i + 1) 0 - t.getD i 0) * c.getD l 0

/-- The interval of piece `i`. -/
def pieceOf (t : List ℝ) (i : Nat) : Set ℝ := Set.Icc (t.getD i 0) (t.getD (i + 1) 0)

/-- `z` is a continuous path, on each piece a polynomial of degree at most `N + 1`, which has the value `x i l` at point `l` of piece
`i` and there satisfies the differential equation with the right hand side `rhs i l`. -/
structure CollocationPath (t c : List ℝ) (rhs x : Nat → Nat → List ℝ) (P N nx : Nat) (z : Nat → ℝ → ℝ) : Prop where
  cont : ∀ j < nx, Continuous (z j)
  poly : ∀ i < P, ∀ j < nx, ∃ y : ℝ[X], y.natDegree ≤ N + 1 ∧ ∀ s ∈ pieceOf t i, z j s = y.eval s
  value : ∀ i < P, ∀ l ≤ N, ∀ j < nx, z j (pointTime t c i l) = (x i l).getD j 0
  ode : ∀ i < P, ∀ l ≤ N, ∀ j < nx, HasDerivWithinAt (z j) ((rhs i l).getD j 0) (pieceOf t i) (pointTime t c i l)

/-- A process of a control problem: states, inputs and parameters as functions of time, with the differential equation at all times. -/
structure Process (F : OCFunctions) (t : List ℝ) (P nx nu np : Nat) (z v : ℝ → List ℝ) (p : List ℝ) : Prop where
  lenx : ∀ s, (z s).length = nx
  lenu : ∀ s, (v s).length = nu
  lenp : p.length = np
  cont : ∀ j < nx, Continuous fun s => (z s).getD j 0
  ode : ∀ i < P, ∀ s ∈ pieceOf t i, ∀ j < nx, HasDerivWithinAt (fun s => (z s).getD j 0) ((F.f (z s) (v s) p).getD j 0) (pieceOf t i) s

/-- On each piece, `w` is a polynomial of degree at most `n`. -/
def PiecewisePoly (t : List ℝ) (P n : Nat) (w : ℝ → ℝ) : Prop := ∀ i < P, ∃ y : ℝ[X], y.natDegree ≤ n ∧ ∀ s ∈ pieceOf t i, w s = y.eval s

/-- The samples of a process at all points of all pieces, as a decision vector: states, inputs, parameters. -/
noncomputable def samples (tc : List ℝ) (z v : ℝ → List ℝ) (p : List ℝ) : List ℝ := tc.flatMap z ++ tc.flatMap v ++ p

end Ceacoest.Spec
