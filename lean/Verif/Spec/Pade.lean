import Verif.Spec.Superconvergence
import Mathlib.Data.Matrix.Mul
import Mathlib.Data.Real.Basic

/-! # The diagonal Padé approximants of the exponential function (C87) -/

namespace Ceacoest.Spec
open Matrix

/-- The coefficients of the numerator. -/
noncomputable def padeCoef (N j : Nat) : ℝ := ((2 * N - j).factorial * N.factorial : ℝ) / ((2 * N).factorial * j.factorial * (N - j).factorial)

/-- The numerator at a matrix; the denominator is the numerator at its negative. -/
noncomputable def padeNum {n : Nat} (N : Nat) (M : Matrix (Fin n) (Fin n) ℝ) : Matrix (Fin n) (Fin n) ℝ :=
  ∑ j ∈ Finset.range (N + 1), padeCoef N j • M ^ j

/-- A vector of the components of a list. -/
def toVec (n : Nat) (x : List ℝ) : Fin n → ℝ := fun j => x.getD j 0

end Ceacoest.Spec
