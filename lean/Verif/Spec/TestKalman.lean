import Verif.NumPy.Basic
import Mathlib.LinearAlgebra.Matrix.Charpoly.Basic
import Mathlib.Data.Real.Basic

/-! # What the tests of the filters rely on (C97) -/

namespace Ceacoest.Spec
open Matrix Polynomial

/-- `np.linalg.eig` of a symmetric matrix returns its eigenvalues, with multiplicity and in any order. -/
def EigOK (eig : ∀ n, Matrix (Fin n) (Fin n) ℝ → Py (Fin n → ℝ)) : Prop :=
  ∀ n (M : Matrix (Fin n) (Fin n) ℝ), Mᵀ = M → ∃ val, eig n M = .ok val ∧ M.charpoly = ∏ i, (X - C (val i))

/-- Every entry is as close to the desired one as the tests ask for. -/
def Close {ι : Type} (tol : ℝ) (a b : ι → ℝ) : Prop := ∀ i, |a i - b i| < tol + tol * |b i|

end Ceacoest.Spec
