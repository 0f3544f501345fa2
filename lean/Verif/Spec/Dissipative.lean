import Verif.Spec.Pade

/-! # Dissipative linear systems (C88) -/

namespace Ceacoest.Spec
open Matrix

/-- The form `x · H x` is positive definite, and no solution of `x' = S x` increases it. -/
structure Dissipative {n : Nat} (H S : Matrix (Fin n) (Fin n) ℝ) : Prop where
  symm : Hᵀ = H
  pos : ∀ v, v ≠ 0 → 0 < v ⬝ᵥ H *ᵥ v
  decrease : ∀ v, v ⬝ᵥ H *ᵥ (S *ᵥ v) ≤ 0

/-- `φ x = S x + b` for all lists `x` of length `n`, with some `b`. -/
def AffineWith {n : Nat} (S : Matrix (Fin n) (Fin n) ℝ) (φ : List ℝ → List ℝ) : Prop :=
  ∀ x x' : List ℝ, x.length = n → x'.length = n → toVec n (φ x) - toVec n (φ x') = S *ᵥ (toVec n x - toVec n x')

end Ceacoest.Spec
