import Mathlib.Probability.Distributions.Gaussian.Real
import Mathlib.MeasureTheory.Constructions.Pi

/-! # Specification of random draws (C77) -/

namespace Ceacoest.Spec
open MeasureTheory ProbabilityTheory

/-- The law of a vector of independent standard normal variables: what `np.random.randn(m)` draws. -/
noncomputable def randn (m : Nat) : Measure (Fin m → ℝ) := Measure.pi fun _ => gaussianReal 0 1

/-- The probability, over the numbers drawn, that a sampler returns a value in `A`. -/
noncomputable def probOf {n m : Nat} (sample : (Fin m → ℝ) → Except ε (Fin n → ℝ)) (A : Set (Fin n → ℝ)) : ENNReal :=
  randn m {w | ∃ z ∈ A, sample w = .ok z}

/-- `p` is, up to its constant factor `c`, the density of the values of the sampler. -/
def IsDensityOf {n m : Nat} (c : ℝ) (p : (Fin n → ℝ) → ℝ) (sample : (Fin m → ℝ) → Except ε (Fin n → ℝ)) : Prop :=
  (∀ z, 0 ≤ p z) ∧ ∀ A, MeasurableSet A → probOf sample A = ∫⁻ z in A, ENNReal.ofReal (p z / c)

end Ceacoest.Spec
