import Verif.Spec.Convergence

/-! # Linear systems (C86) -/

namespace Ceacoest.Spec
open Polynomial

/-- On each piece, `f x (v s) p = A x + b s` for states `x` with `nx` components and times `s`, where `b` is a polynomial of degree at most `n`: a
linear system, with inputs that are polynomials on each piece. -/
def LinearOn (f : List ℝ → List ℝ → List ℝ → List ℝ) (t : List ℝ) (P nx n : Nat) (A : Nat → Nat → ℝ) (v : ℝ → List ℝ) (p : List ℝ) : Prop :=
  ∀ i < P, ∃ b : Nat → ℝ[X], ∀ j < nx, (b j).natDegree ≤ n ∧
    ∀ s ∈ pieceOf t i, ∀ x : List ℝ, x.length = nx → (f x (v s) p).getD j 0 = ∑ k ∈ Finset.range nx, A j k * x.getD k 0 + (b j).eval s

/-- The sum of the absolute values in each row of `A` is at most `a`. -/
def RowSums (A : Nat → Nat → ℝ) (nx : Nat) (a : ℝ) : Prop := ∀ j < nx, ∑ k ∈ Finset.range nx, |A j k| ≤ a

/-- The bound on the error of the states at time `s`, for the step `h`. -/
noncomputable def meshError (a B e0 h : ℝ) (N : Nat) (t : List ℝ) (s : ℝ) : ℝ :=
  Real.exp (2 * a * (s - t.getD 0 0)) * (e0 + (s - t.getD 0 0) * (2 * B * a ^ (N - 1) / ((2 * N).factorial : ℝ) * (h / 2) ^ (2 * N)))

end Ceacoest.Spec
