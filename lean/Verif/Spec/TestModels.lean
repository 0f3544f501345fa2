import Verif.Spec.Transcription
import Mathlib.Analysis.SpecialFunctions.Pow.Real

/-! # Specification: the functions of the test models, on numbers -/

namespace Ceacoest.Spec.TestModels

/-- The optimal control model of test_oc.py. -/
noncomputable def oc : OCFunctions where
  f x u p := [x.getD 0 0 * Real.cos (x.getD 1 0), u.getD 0 0 * u.getD 1 0 * p.getD 0 0 * x.getD 1 0 ^ 2, u.getD 0 0 ^ 2 * x.getD 0 0 ^ 3 * Real.exp (p.getD 0 0)]
  g x u p := [(u.getD 0 0 ^ 2 + 2) ^ (x.getD 0 0 ^ 2 + 1) * p.getD 0 0, p.getD 0 0 ^ 3 * p.getD 1 0 ^ 2 * u.getD 0 0 ^ 2]
  h xe p := [xe.getD 0 0 * p.getD 0 0 ^ 3, xe.getD 0 0 * xe.getD 4 0 ^ 3 * p.getD 0 0]
  M xe p := xe.getD 5 0 ^ 3 * p.getD 1 0 ^ 3 + p.getD 0 0 * xe.getD 0 0 + xe.getD 3 0 * xe.getD 1 0 ^ 2
  L x u p := x.getD 0 0 ^ 2 + p.getD 1 0 ^ 4 + p.getD 0 0 * u.getD 1 0 * (x.getD 0 0 + 2) + (p.getD 1 0 + u.getD 0 0 + u.getD 1 0 + x.getD 0 0) ^ 2

/-- The output error model of test_oem.py. -/
noncomputable def oem : OEMFunctions where
  f x u p := [x.getD 0 0 * Real.cos (x.getD 1 0), u.getD 0 0 * p.getD 0 0 * x.getD 1 0 ^ 2, u.getD 0 0 ^ 2 * x.getD 0 0 ^ 3 * Real.exp (p.getD 0 0)]
  L y x u p := x.getD 0 0 ^ 2 + p.getD 1 0 ^ 4 + p.getD 0 0 * (x.getD 0 0 + 2) + (p.getD 1 0 + 2 * u.getD 0 0 + x.getD 0 0) ^ 2 + y.getD 0 0

end Ceacoest.Spec.TestModels
