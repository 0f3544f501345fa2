import Mathlib.LinearAlgebra.Matrix.NonsingularInverse
import Mathlib.LinearAlgebra.Matrix.PosDef
import Mathlib.Analysis.SpecialFunctions.Exp
import Mathlib.Analysis.SpecialFunctions.Sqrt

/-! # Specification of Gaussian densities and singular value decompositions (C55, C56) -/

namespace Ceacoest.Spec

open Matrix

/-- Gaussian density without the factor `(2π)^(-n/2)`, for a deviation indexed by any finite type. -/
noncomputable def gauss {ι : Type} [Fintype ι] [DecidableEq ι] (cov : Matrix ι ι ℝ) (dev : ι → ℝ) : ℝ :=
  Real.exp (-(1 / 2) * ∑ i, ∑ j, dev i * cov⁻¹ i j * dev j) / Real.sqrt cov.det

/-- Marginal density of the entries that are not masked. -/
noncomputable def marginal {n : Nat} (cov : Matrix (Fin n) (Fin n) ℝ) (dev : Fin n → ℝ) (mask : Fin n → Bool) : ℝ :=
  gauss (cov.submatrix (fun i : {i // mask i = false} => i.1) fun i => i.1) fun i => dev i.1

/-- `a = u diag(s) vh` with orthogonal factors and nonnegative `s`: what `np.linalg.svd` returns. -/
structure IsSVD {n : Nat} (a u : Matrix (Fin n) (Fin n) ℝ) (s : Fin n → ℝ) (vh : Matrix (Fin n) (Fin n) ℝ) : Prop where
  u_orth : uᵀ * u = 1
  v_orth : vh * vhᵀ = 1
  nonneg : ∀ i, 0 ≤ s i
  prod : a = u * diagonal s * vh

end Ceacoest.Spec
