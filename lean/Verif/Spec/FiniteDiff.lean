import Mathlib.Analysis.Calculus.Deriv.Basic

/-! # Smoothness, for the errors of finite differences (C93) -/

namespace Ceacoest.Spec

/-- `F` is three times differentiable from `x - h` to `x + h`, its derivative at `x` is `D` and its third derivative is bounded by `M`. -/
def Thrice (F : ℝ → ℝ) (x h D M : ℝ) : Prop :=
  ∃ F1 F2 F3 : ℝ → ℝ, F1 x = D ∧ ∀ t ∈ Set.Icc (x - h) (x + h), HasDerivAt F (F1 t) t ∧ HasDerivAt F1 (F2 t) t ∧ HasDerivAt F2 (F3 t) t ∧ |F3 t| ≤ M

/-- `F` is twice differentiable from `x` to `x + h`, its derivative at `x` is `D` and its second derivative is bounded by `M`. -/
def Twice (F : ℝ → ℝ) (x h D M : ℝ) : Prop :=
  ∃ F1 F2 : ℝ → ℝ, F1 x = D ∧ ∀ t ∈ Set.Icc x (x + h), HasDerivAt F (F1 t) t ∧ HasDerivAt F1 (F2 t) t ∧ |F2 t| ≤ M

end Ceacoest.Spec
