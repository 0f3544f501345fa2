import Verif.Spec.Transcription
import Verif.Model.Optim

/-! # Estimation with and without noise, in the terms of the reader (C101) -/

namespace Ceacoest.Spec

/-- The decision vector of a joint MAP problem without its noise coefficients: states, then parameters. -/
def dropNoise (P N nx nw : Nat) (d : List ℝ) : List ℝ := d.take ((P * N + 1) * nx) ++ d.drop ((P * N + 1) * nx + P * N * nw)

/-- States and parameters as decision vector of a joint MAP problem in which all noise coefficients are zero. -/
noncomputable def addZeroNoise (P N nx nw : Nat) (d : List ℝ) : List ℝ :=
  d.take ((P * N + 1) * nx) ++ List.replicate (P * N * nw) 0 ++ d.drop ((P * N + 1) * nx)

/-- No decision vector for which the `n` constraints are zero has an objective above `M`. -/
def FeasibleBound (obj : List ℝ → Py ℝ) (constr : List ℝ → Py (List ℝ)) (ndec n : Nat) (M : ℝ) : Prop :=
  ∀ d v : _, d.length = ndec → constr d = .ok (List.replicate n 0) → obj d = .ok v → v ≤ M

/-- The energy of the noise: the quadrature of its square over all pieces. `w i l` is the noise at point `l` of piece `i`. -/
noncomputable def noiseEnergy (w : Nat → Nat → List ℝ) (K len : List ℝ) (P N nw : Nat) : ℝ :=
  ∑ i ∈ Finset.range P, (∑ l ∈ Finset.range (N + 1), (∑ b ∈ Finset.range nw, (w i l).getD b 0 ^ 2) * K.getD l 0) * len.getD i 0

end Ceacoest.Spec
