import Mathlib.Analysis.SpecialFunctions.Complex.Arg
import Mathlib.Analysis.SpecialFunctions.Trigonometric.Inverse
import Mathlib.LinearAlgebra.Matrix.Notation

/-!
# `ceacoest/modelling/symquat.py`

The symbolic expressions are evaluated at real numbers: `0.5` is one half, `sympy.atan2(y, x)` is the argument of
`x + i y` (undefined, and here 0, at the origin), `sympy.asin` is the real arcsine.
-/

namespace Ceacoest.SymQuat

/-- symquat.py:8-16 `derivative`. -/
noncomputable def derivative (quat : Fin 4 → ℝ) (omega : Fin 3 → ℝ) (renormGain : ℝ) : Fin 4 → ℝ :=
  let q0 := quat 0
  let q1 := quat 1
  let q2 := quat 2
  let q3 := quat 3
  let p := omega 0
  let q := omega 1
  let r := omega 2
  let err := 1 - (q0 ^ 2 + q1 ^ 2 + q2 ^ 2 + q3 ^ 2)
  let q0dot := -(1 / 2) * (p * q1 + q * q2 + r * q3) + renormGain * err * q0
  let q1dot := -(1 / 2) * (-p * q0 - r * q2 + q * q3) + renormGain * err * q1
  let q2dot := -(1 / 2) * (-q * q0 + r * q1 - p * q3) + renormGain * err * q2
  let q3dot := -(1 / 2) * (-r * q0 - q * q1 + p * q2) + renormGain * err * q3
  ![q0dot, q1dot, q2dot, q3dot]

/-- symquat.py:19-26 `rotmat`. -/
def rotmat (quat : Fin 4 → ℝ) : Matrix (Fin 3) (Fin 3) ℝ :=
  let q0 := quat 0
  let q1 := quat 1
  let q2 := quat 2
  let q3 := quat 3
  !![q0 ^ 2 + q1 ^ 2 - q2 ^ 2 - q3 ^ 2, 2 * (q1 * q2 + q0 * q3), 2 * (q1 * q3 - q0 * q2);
     2 * (q1 * q2 - q0 * q3), q0 ^ 2 - q1 ^ 2 + q2 ^ 2 - q3 ^ 2, 2 * (q2 * q3 + q0 * q1);
     2 * (q1 * q3 + q0 * q2), 2 * (q2 * q3 - q0 * q1), q0 ^ 2 - q1 ^ 2 - q2 ^ 2 + q3 ^ 2]

/-- `sympy.atan2(y, x)`. -/
noncomputable def atan2 (y x : ℝ) : ℝ := Complex.arg ⟨x, y⟩

/-- symquat.py:29-35 `toeuler`: roll, pitch, yaw. -/
noncomputable def toeuler (quat : Fin 4 → ℝ) : Fin 3 → ℝ :=
  let q0 := quat 0
  let q1 := quat 1
  let q2 := quat 2
  let q3 := quat 3
  let roll := atan2 (2 * (q2 * q3 + q0 * q1)) (q0 ^ 2 - q1 ^ 2 - q2 ^ 2 + q3 ^ 2)
  let pitch := -Real.arcsin (2 * (q1 * q3 - q0 * q2))
  let yaw := atan2 (2 * (q1 * q2 + q0 * q3)) (q0 ^ 2 + q1 ^ 2 - q2 ^ 2 - q3 ^ 2)
  ![roll, pitch, yaw]

end Ceacoest.SymQuat
