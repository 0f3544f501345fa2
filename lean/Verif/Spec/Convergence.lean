import Verif.Spec.Collocation
import Mathlib.Analysis.SpecialFunctions.Exp
import Mathlib.Algebra.BigOperators.Group.Finset.Basic
import Mathlib.Algebra.Order.BigOperators.Group.Finset

/-! # Errors of the transcription (C76) -/

namespace Ceacoest.Spec
open Polynomial

/-- The sum of the absolute values of `J`. -/
noncomputable def jnorm (J : List (List ℝ)) (N : Nat) : ℝ := ∑ k ∈ Finset.range N, ∑ l ∈ Finset.range (N + 1), |(J.getD k []).getD l 0|

/-- On the arguments in `S`, none of the `m` components of `f` changes by more than `Lip` times the largest change of the `n` components of the
argument. -/
def LipschitzOn (f : List ℝ → List ℝ) (S : Set (List ℝ)) (n m : Nat) (Lip : ℝ) : Prop :=
  ∀ x ∈ S, ∀ x' ∈ S, ∀ E, (∀ j < n, |x.getD j 0 - x'.getD j 0| ≤ E) → ∀ j < m, |(f x).getD j 0 - (f x').getD j 0| ≤ Lip * E

/-- On each piece `i`, `w` is a polynomial of degree at most `n` up to `δ i`. -/
def NearPoly (t : List ℝ) (P n : Nat) (δ : Nat → ℝ) (w : ℝ → ℝ) : Prop :=
  ∀ i < P, ∃ T : ℝ[X], T.natDegree ≤ n ∧ ∀ s ∈ pieceOf t i, |w s - T.eval s| ≤ δ i

/-- No piece is longer than half of the reciprocal of `jnorm J N * Lip`. -/
def FineMesh (J : List (List ℝ)) (N : Nat) (t : List ℝ) (P : Nat) (Lip : ℝ) : Prop :=
  ∀ i < P, (t.getD (i + 1) 0 - t.getD i 0) * jnorm J N * Lip ≤ 1 / 2

/-- The bound on the error of the states at the points of piece `i`: the error `e0` of the initial state and what each piece `m` adds, which
is `δ m` times its length up to a factor, grow exponentially. -/
noncomputable def errorBound (J : List (List ℝ)) (N : Nat) (Lip : ℝ) (t : List ℝ) (δ : Nat → ℝ) (e0 : ℝ) (i : Nat) : ℝ :=
  Real.exp (2 * jnorm J N * Lip * (t.getD (i + 1) 0 - t.getD 0 0)) *
    (e0 + (N + jnorm J N) * ∑ m ∈ Finset.range (i + 1), δ m * (t.getD (m + 1) 0 - t.getD m 0))

end Ceacoest.Spec
