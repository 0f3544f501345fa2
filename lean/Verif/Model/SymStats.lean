import Mathlib.Analysis.SpecialFunctions.Log.Basic
import Mathlib.Analysis.SpecialFunctions.Sqrt
import Mathlib.Analysis.SpecialFunctions.Trigonometric.Basic

/-!
# `ceacoest/modelling/symstats.py`

The symbolic expressions are evaluated at real numbers. `getmaskarray(x)` is a Boolean argument; `1.0 * ~mask` is
1 when the sample is not masked and 0 when it is. Simplification: samples are real numbers (no NaN under the mask).
-/

namespace Ceacoest.SymStats

/-- `1.0 * ~sym2num.getmaskarray(x)`. -/
def unmasked (mask : Bool) : ℝ := 1 * (if !mask then 1 else 0)

/-- symstats.py:8-12 `normal_logpdf`. -/
noncomputable def normalLogpdf (mask : Bool) (x mean std : ℝ) : ℝ :=
  let logpdf := -(x - mean) ^ 2 / (2 * std ^ 2) - Real.log std
  let logpdf := logpdf + -Real.log (2 * Real.pi) / 2
  unmasked mask * logpdf

/-- symstats.py:15-18 `normal_logpdf1`. -/
noncomputable def normalLogpdf1 (mask : Bool) (x mean std : ℝ) : ℝ :=
  let logpdf := -(x - mean) ^ 2 / (2 * std ^ 2) - Real.log std
  unmasked mask * logpdf

/-- symstats.py:21-24 `normal_pdf`. -/
noncomputable def normalPdf (x mean std : ℝ) : ℝ :=
  let dev := x - mean
  Real.exp (-(1 / 2) * (dev / std) ^ 2) / std / Real.sqrt (2 * Real.pi)

/-- symstats.py:27-30 `normal_pdf1`. -/
noncomputable def normalPdf1 (x mean std : ℝ) : ℝ :=
  let dev := x - mean
  Real.exp (-(1 / 2) * (dev / std) ^ 2) / std

end Ceacoest.SymStats
