import Verif.NumPy.Basic
import Mathlib.LinearAlgebra.Matrix.NonsingularInverse
import Mathlib.Analysis.SpecialFunctions.Exp
import Mathlib.Analysis.SpecialFunctions.Sqrt

/-!
# `ceacoest/modelling/stats.py`

Vectors and matrices are real functions on `Fin n`; batches are lists of rows.  Not modelled: NaN (the code multiplies
masked data by zero, which keeps a NaN).  `multivariate_normal_rvs` is in `Model/GenSDE`.
-/

namespace Ceacoest.Stats

open Matrix

/-- One row of the (broadcast) arguments `x` and `mean`; `mask i` is true where `x - mean` is masked. -/
structure Row (n : Nat) where
  x : Fin n → ℝ
  mean : Fin n → ℝ
  mask : Fin n → Bool

open Classical in
/-- `np.linalg.solve(a, b)`: LinAlgError for a singular matrix. -/
noncomputable def solve {n : Nat} (a : Matrix (Fin n) (Fin n) ℝ) (b : Fin n → ℝ) : Py (Fin n → ℝ) :=
  if a.det = 0 then .error .linAlgError else .ok (a⁻¹ *ᵥ b)

/-- stats.py:15-31: one row, after the masked entries of the deviation are set to zero. -/
noncomputable def pdfRow {n : Nat} (cov : Matrix (Fin n) (Fin n) ℝ) (dev : Fin n → ℝ) : Py ℝ := do
  let s ← solve cov dev
  return Real.exp (-(1 / 2) * (dev ⬝ᵥ s)) / Real.sqrt cov.det

/-- stats.py:7-31 `multivariate_normal_pdf` for a batch of rows and one covariance; `masked` tells whether `x - mean` is a
`MaskedArray`.  A fully masked *batch* returns ones; otherwise the masked entries of the deviation are zeroed. -/
noncomputable def pdf {n : Nat} (masked : Bool) (rows : List (Row n)) (cov : Matrix (Fin n) (Fin n) ℝ) : Py (List ℝ) :=
  if masked && rows.all (fun r => (List.finRange n).all r.mask) then .ok (rows.map fun _ => 1)
  else rows.mapM fun r => pdfRow cov fun i => if masked && r.mask i then 0 else r.x i - r.mean i

/-- stats.py:42-44 `svd_sqrt`, given the result `u, s` of `np.linalg.svd`: `u * s` scales the columns of `u`. -/
def svdSqrt {n : Nat} (u : Matrix (Fin n) (Fin n) ℝ) (s : Fin n → ℝ) : Matrix (Fin n) (Fin n) ℝ :=
  fun i j => u i j * s j

end Ceacoest.Stats
