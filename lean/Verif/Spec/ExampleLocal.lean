import Verif.Spec.ExamplePem
import Verif.Spec.KalmanLocal

/-! # Specification for C116: models with smooth functions in a set of states -/

namespace Ceacoest.Pem
open Matrix Spec
open scoped ContDiff
variable {nx nw ny nq : Nat}

/-- Drift and diffusion have derivatives of all orders for states in the set, the other functions everywhere; `R` is symmetric. -/
structure SmoothOn (D : Set (Fin nx → ℝ)) (S : SDE nx nw ny nq) : Prop where
  f : ∀ i, ContDiffOn ℝ ∞ (fun z : (Fin nq → ℝ) × ℝ × (Fin nx → ℝ) => S.f z.1 z.2.1 z.2.2 i) {z | z.2.2 ∈ D}
  g : ∀ i j, ContDiffOn ℝ ∞ (fun z : (Fin nq → ℝ) × ℝ × (Fin nx → ℝ) => S.g z.1 z.2.1 z.2.2 i j) {z | z.2.2 ∈ D}
  h : ∀ i, ContDiff ℝ ∞ fun z : (Fin nq → ℝ) × ℝ × (Fin nx → ℝ) => S.h z.1 z.2.1 z.2.2 i
  R : ∀ i j, ContDiff ℝ ∞ fun q => S.R q i j
  x0 : ∀ i, ContDiff ℝ ∞ fun q => S.x0 q i
  Px0 : ∀ i j, ContDiff ℝ ∞ fun q => S.Px0 q i j
  symm : ∀ q, (S.R q)ᵀ = S.R q

/-- The means and sigma points from which the filter of `merit` predicts are in the set. -/
def Visits (S : SDE nx nw ny nq) (dt : ℝ) (y : List (MaskedRow (Fin ny))) (q : Fin nq → ℝ) (D : Set (Fin nx → ℝ)) : Prop :=
  ∀ ut, UT.init nx .cholesky 0 = .ok ut → StaysIn ut ut (ito S dt q) D y ⟨start S q, none, .never⟩

end Ceacoest.Pem
