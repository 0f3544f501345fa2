import Mathlib.Analysis.Calculus.FDeriv.Basic
import Mathlib.Analysis.Calculus.FDeriv.Prod
import Mathlib.Analysis.Normed.Group.Constructions
import Mathlib.Analysis.Normed.Module.FiniteDimension

/-! # Gradients and Hessians of functions of finitely many real parameters (C44–C47) -/

namespace Ceacoest.Spec
variable {p n : Type} [Fintype p] [Fintype n]

/-- The linear form with coefficients `g`. -/
noncomputable def lin (g : p → ℝ) : (p → ℝ) →L[ℝ] ℝ := ∑ a, g a • ContinuousLinearMap.proj a

/-- `F` is (Fréchet) differentiable at `q` and `g` is its gradient. -/
def HasGrad (F : (p → ℝ) → ℝ) (g : p → ℝ) (q : p → ℝ) : Prop := HasFDerivAt F (lin g) q

/-- A function of parameters and of a vector is differentiable, with these partial derivatives. -/
def HasGrad₂ (F : (p → ℝ) → (n → ℝ) → ℝ) (gq : p → ℝ) (gx : n → ℝ) (q : p → ℝ) (x : n → ℝ) : Prop :=
  HasFDerivAt (fun z : (p → ℝ) × (n → ℝ) => F z.1 z.2) ((lin gq).coprod (lin gx)) (q, x)

/-- `F` has gradient `g q` at every `q` near `q₀`, and `h a b` is the derivative, at `q₀` and with respect to parameter `a`, of
entry `b` of the gradient. -/
def HasHess (F : (p → ℝ) → ℝ) (g : (p → ℝ) → p → ℝ) (h : p → p → ℝ) (q₀ : p → ℝ) : Prop :=
  (∀ᶠ q in nhds q₀, HasGrad F (g q) q) ∧ ∀ b, HasGrad (fun q => g q b) (fun a => h a b) q₀

end Ceacoest.Spec
