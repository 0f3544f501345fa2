import Verif.Spec.KalmanInputs
import Mathlib.LinearAlgebra.Matrix.PosDef

/-! # Linear estimates, and more or less certain circumstances (C103) -/

namespace Ceacoest.Spec
open Matrix
variable {nx : Nat} {o p : Type} [Fintype o]

/-- The covariance of the error of `x + K (y - C x)`, for an `x` with an error of covariance `P` and measurements `y` of `C x` with
independent noise of covariance `R`. -/
def errorCov (P : Matrix (Fin nx) (Fin nx) ℝ) (R : Matrix o o ℝ) (C : Matrix o (Fin nx) ℝ) (K : Matrix (Fin nx) o ℝ) : Matrix (Fin nx) (Fin nx) ℝ :=
  (1 - K * C) * P * (1 - K * C)ᵀ + K * R * Kᵀ

/-- The gain uses no masked measurements. -/
def UsesOnly (y : MaskedRow o) (K : Matrix (Fin nx) o ℝ) : Prop := ∀ i j, y.mask j = true → K i j = 0

/-- `P` is the smallest covariance of all linear estimates that use no masked measurements, and it is that of one of them. -/
def IsBest (y : MaskedRow o) (P₀ : Matrix (Fin nx) (Fin nx) ℝ) (R : Matrix o o ℝ) (C : Matrix o (Fin nx) ℝ) (P : Matrix (Fin nx) (Fin nx) ℝ) : Prop :=
  (∀ K, UsesOnly y K → (errorCov P₀ R C K - P).PosSemidef) ∧ ∃ K, UsesOnly y K ∧ P = errorCov P₀ R C K

omit [Fintype o] in
/-- What is measured in the first row is measured in the second. -/
def Fewer (y y' : MaskedRow o) : Prop := ∀ j, y'.mask j = true → y.mask j = true

/-- Two affine models of the same `A` and `C`, the first with at least the noise of the second. -/
structure NoLessNoise (M M' : KModel nx o p) (A : ℤ → Matrix (Fin nx) (Fin nx) ℝ) (C : ℤ → Matrix o (Fin nx) ℝ) : Prop where
  affine : ∃ b c, AffineModel M A b C c
  affine' : ∃ b c, AffineModel M' A b C c
  Q : ∀ k x x', (M.Q k x - M'.Q k x').PosSemidef
  Qpsd : ∀ k x, (M.Q k x).PosSemidef
  Qpsd' : ∀ k x, (M'.Q k x).PosSemidef
  R : (M.R - M'.R).PosSemidef
  Rpsd : M.R.PosSemidef
  Rpsd' : M'.R.PosSemidef

/-- Calls of the same methods, with no more measured in the first history. -/
def FewerCalls : List (Option (MaskedRow o)) → List (Option (MaskedRow o)) → Prop := List.Forall₂ fun c c' => match c, c' with
  | none, none => True
  | some y, some y' => Fewer y y'
  | _, _ => False

end Ceacoest.Spec
