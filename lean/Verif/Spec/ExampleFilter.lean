import Mathlib.LinearAlgebra.Matrix.PosDef

/-! # What a filtering and smoothing run leaves behind (no model imports) -/

namespace Ceacoest.Spec

/-- `n` filtered and `n` smoothed moments, with positive semidefinite covariances, those of the smoothed ones not larger. -/
def Smoothed {nx : Nat} (n : Nat) (ms sm : List ((Fin nx → ℝ) × Matrix (Fin nx) (Fin nx) ℝ)) : Prop :=
  ms.length = n ∧ sm.length = n ∧ ∀ (k : Nat) m mk, ms[k]? = some m → sm[k]? = some mk → mk.2.PosSemidef ∧ (m.2 - mk.2).PosSemidef

end Ceacoest.Spec
