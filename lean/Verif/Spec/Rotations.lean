import Mathlib.Analysis.SpecialFunctions.Trigonometric.Basic
import Mathlib.LinearAlgebra.Matrix.Notation

/-! # Specification of rotations (C50 – C52) -/

namespace Ceacoest.Spec

/-- Squared norm of a quaternion. -/
def normSq (q : Fin 4 → ℝ) : ℝ := ∑ i, q i ^ 2

/-- The matrix of the cross product with `w`. -/
def crossMat (w : Fin 3 → ℝ) : Matrix (Fin 3) (Fin 3) ℝ :=
  !![0, -w 2, w 1; w 2, 0, -w 0; -w 1, w 0, 0]

/-- Frame rotation by `a` about the first axis. -/
noncomputable def rotX (a : ℝ) : Matrix (Fin 3) (Fin 3) ℝ :=
  !![1, 0, 0; 0, Real.cos a, Real.sin a; 0, -Real.sin a, Real.cos a]

/-- Frame rotation by `a` about the second axis. -/
noncomputable def rotY (a : ℝ) : Matrix (Fin 3) (Fin 3) ℝ :=
  !![Real.cos a, 0, -Real.sin a; 0, 1, 0; Real.sin a, 0, Real.cos a]

/-- Frame rotation by `a` about the third axis. -/
noncomputable def rotZ (a : ℝ) : Matrix (Fin 3) (Fin 3) ℝ :=
  !![Real.cos a, Real.sin a, 0; -Real.sin a, Real.cos a, 0; 0, 0, 1]

end Ceacoest.Spec
