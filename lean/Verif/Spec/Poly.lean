import Mathlib.Algebra.Polynomial.BigOperators
import Mathlib.MeasureTheory.Integral.IntervalIntegral.Basic

/-! # Specification of polynomials and their integrals (C23 – C28) -/

namespace Ceacoest.Spec
open Polynomial

/-- The polynomial with the given coefficients, lowest degree first. -/
noncomputable def toPoly {F : Type} [Field F] (c : List F) : F[X] := ∑ i ∈ Finset.range c.length, C (c.getD i 0) * X ^ i

/-- Integral of a real polynomial. -/
noncomputable def integral (p : ℝ[X]) (a b : ℝ) : ℝ := ∫ x in a..b, p.eval x

end Ceacoest.Spec
