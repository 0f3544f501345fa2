import Verif.Model.ExampleHFB
import Verif.Spec.ExampleModels

/-! # Specification: the functions of `examples/hfb320_long_oem.py` on numbers -/

namespace Ceacoest.Spec
open Ex

/-- Right hand side and log-likelihood of a row of measurements. -/
noncomputable def hfbFunctions (c : HFBConsts) : OEMFunctions where
  f x u p := List.ofFn (hfbF (hfbWith c p) (vec 4 x) (vec 2 u))
  L y x u p := ∑ j : Fin 7, (-(y.getD j 0 - hfbOutputs (hfbWith c p) (vec 4 x) (vec 2 u) j) ^ 2 / (2 * p.getD (15 + j) 0 ^ 2) - Real.log (p.getD (15 + j) 0))

/-- The bounds of hfb320_long_oem.py:109-111,132-133, on decision vectors for `P` pieces of two intervals: the states at the grid points, then the parameters. -/
structure HFBBounds (P : Nat) (d : List ℝ) : Prop where
  V : ∀ r ≤ P * 2, 2 ≤ d.getD (r * 4) 0
  V_std : 1e-3 ≤ d.getD ((P * 2 + 1) * 4 + 15) 0
  std : ∀ j, 1 ≤ j → j ≤ 6 → 1e-4 ≤ d.getD ((P * 2 + 1) * 4 + (15 + j)) 0

/-- The sum of the squared residuals of measurement `j` over `n` rows. -/
noncomputable def hfbResidual (c : HFBConsts) (n : Nat) (y u p d : List ℝ) (j : Fin 7) : ℝ :=
  ∑ k ∈ Finset.range n, ((rowAt y 0 7 k).getD j 0 - hfbOutputs (hfbWith c p) (vec 4 (rowAt d 0 4 (k * 2))) (vec 2 (rowAt u 0 2 (k * 2))) j) ^ 2

end Ceacoest.Spec
