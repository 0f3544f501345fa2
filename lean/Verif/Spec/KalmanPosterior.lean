import Verif.Spec.KalmanInputs
import Mathlib.MeasureTheory.Integral.Bochner.Basic
import Mathlib.MeasureTheory.Measure.Lebesgue.Basic

/-! # The joint density of states and measurements of a model with normal noise (C75) -/

namespace Ceacoest.Spec
open Matrix MeasureTheory
variable {nx : Nat} {o p : Type} [Fintype o] [LinearOrder o]

/-- The density of the state `x` at time `k + 1` if the state at time `k` is `z`. -/
noncomputable def transDensity (M : KModel nx o p) (k : ℤ) (z x : Fin nx → ℝ) : ℝ := gaussian (M.Q k z) (x - M.f k z)

/-- The density of the unmasked entries of `y` at time `k` if the state is `x`. -/
noncomputable def measDensity (M : KModel nx o p) (k : ℤ) (y : MaskedRow o) (x : Fin nx → ℝ) : ℝ :=
  gaussian (activeR y M.R) fun j : y.Active => y.data j.1 - M.h k x j.1

/-- The density of the measurements from time `k` on, and of the states after the first, given the first. -/
noncomputable def pathDensity (M : KModel nx o p) : ℤ → List (MaskedRow o) → List (Fin nx → ℝ) → ℝ
  | k, [y], [x] => measDensity M k y x
  | k, y :: y' :: ys, x :: x' :: xs => measDensity M k y x * transDensity M k x x' * pathDensity M (k + 1) (y' :: ys) (x' :: xs)
  | _, _, _ => 0

/-- The density of states and measurements, from a normal prior of the first state. -/
noncomputable def jointDensity (M : KModel nx o p) (k : ℤ) (prior : Moments nx) (ys : List (MaskedRow o)) : List (Fin nx → ℝ) → ℝ
  | [] => 0
  | x :: xs => gaussian prior.2 (x - prior.1) * pathDensity M k ys (x :: xs)

/-- The integral over a number of states, the first one outermost. -/
noncomputable def integralFirstOuter : Nat → (List (Fin nx → ℝ) → ℝ) → ℝ
  | 0, F => F []
  | n + 1, F => ∫ x, integralFirstOuter n fun xs => F (x :: xs)

/-- The integral over a number of states, the first one innermost. -/
noncomputable def integralFirstInner : Nat → (List (Fin nx → ℝ) → ℝ) → ℝ
  | 0, F => F []
  | n + 1, F => integralFirstInner n fun xs => ∫ x, F (x :: xs)

/-- The density of all measurements and of state number `j` at `z`: the other states are integrated out. -/
noncomputable def stateMarginal (M : KModel nx o p) (k : ℤ) (prior : Moments nx) (ys : List (MaskedRow o)) (j : Nat) (z : Fin nx → ℝ) : ℝ :=
  integralFirstOuter (ys.length - 1 - j) fun after => integralFirstInner j fun before => jointDensity M k prior ys (before ++ z :: after)

/-- The density of all measurements. -/
noncomputable def evidence (M : KModel nx o p) (k : ℤ) (prior : Moments nx) (ys : List (MaskedRow o)) : ℝ :=
  integralFirstInner ys.length (jointDensity M k prior ys)

/-- The density of state number `j` at `z`, given the measurements. -/
noncomputable def posterior (M : KModel nx o p) (k : ℤ) (prior : Moments nx) (ys : List (MaskedRow o)) (j : Nat) (z : Fin nx → ℝ) : ℝ :=
  stateMarginal M k prior ys j z / evidence M k prior ys

/-- How many entries are not masked. -/
def unmasked (ys : List (MaskedRow o)) : Nat := (ys.map fun y => Fintype.card y.Active).sum

end Ceacoest.Spec

namespace Ceacoest
open Matrix
variable {nx : Nat} {o p : Type} [Fintype o]

/-- An affine model with positive definite noise covariances, the one of the states not depending on the state. -/
structure GaussModel (M : KModel nx o p) (A : ℤ → Matrix (Fin nx) (Fin nx) ℝ) (b : ℤ → Fin nx → ℝ) (C : ℤ → Matrix o (Fin nx) ℝ)
    (c : ℤ → o → ℝ) : Prop extends AffineModel M A b C c where
  Q : ∀ k x x', M.Q k x = M.Q k x'
  Qpd : ∀ k x, (M.Q k x).PosDef
  Rpd : M.R.PosDef

end Ceacoest
