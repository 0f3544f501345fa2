import Verif.Model.ExamplePem
import Mathlib.Analysis.Calculus.ContDiff.Basic

/-! # Specification for C112: models with smooth functions -/

namespace Ceacoest.Pem
open Matrix
open scoped ContDiff
variable {nx nw ny nq : Nat}

/-- The functions of the model have derivatives of all orders, and `R` is symmetric. -/
structure Smooth (S : SDE nx nw ny nq) : Prop where
  f : ∀ i, ContDiff ℝ ∞ fun z : (Fin nq → ℝ) × ℝ × (Fin nx → ℝ) => S.f z.1 z.2.1 z.2.2 i
  g : ∀ i j, ContDiff ℝ ∞ fun z : (Fin nq → ℝ) × ℝ × (Fin nx → ℝ) => S.g z.1 z.2.1 z.2.2 i j
  h : ∀ i, ContDiff ℝ ∞ fun z : (Fin nq → ℝ) × ℝ × (Fin nx → ℝ) => S.h z.1 z.2.1 z.2.2 i
  R : ∀ i j, ContDiff ℝ ∞ fun q => S.R q i j
  x0 : ∀ i, ContDiff ℝ ∞ fun q => S.x0 q i
  Px0 : ∀ i j, ContDiff ℝ ∞ fun q => S.Px0 q i j
  symm : ∀ q, (S.R q)ᵀ = S.R q

end Ceacoest.Pem
