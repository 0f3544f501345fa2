import Verif.Lemmas.Gaussian
import Verif.Spec.GenSDE
import Mathlib.Probability.Distributions.Gaussian.Multivariate

/-! # The law of `f + g w` for a vector `w` of independent standard normal variables -/

namespace Ceacoest
open MeasureTheory ProbabilityTheory Matrix WithLp Spec

instance (m : Nat) : IsProbabilityMeasure (randn m) := by unfold randn; infer_instance

variable {n m : Nat}

theorem affine_measurable (f : Fin n → ℝ) (g : Matrix (Fin n) (Fin m) ℝ) : Measurable fun w => f + g *ᵥ w := by
  have : Measurable fun w : Fin m → ℝ => g *ᵥ w := (Matrix.mulVecLin g).continuous_of_finiteDimensional.measurable
  exact measurable_const.add this

theorem toLp_measurable (f : Fin n → ℝ) (g : Matrix (Fin n) (Fin m) ℝ) : Measurable fun w => toLp 2 (f + g *ᵥ w) :=
  (PiLp.continuous_toLp 2 _).measurable.comp (affine_measurable f g)

theorem randn_charFun (t : EuclideanSpace ℝ (Fin m)) : charFun ((randn m).map (toLp 2)) t = Complex.exp (-‖t‖ ^ 2 / 2) := by
  unfold randn
  rw [map_pi_eq_stdGaussian, charFun_stdGaussian]

/-- For every gain `g`, also one of deficient rank, the law is the normal law with mean `f` and covariance `g gᵀ`. -/
theorem normal_law (f : Fin n → ℝ) (g : Matrix (Fin n) (Fin m) ℝ) :
    (randn m).map (fun w => toLp 2 (f + g *ᵥ w)) = multivariateGaussian (toLp 2 f) (g * gᵀ) := by
  have hpsd : (g * gᵀ).PosSemidef := by
    have := posSemidef_self_mul_conjTranspose g
    rwa [conjTranspose_eq_transpose_of_trivial] at this
  have hm := toLp_measurable f g
  have : IsProbabilityMeasure ((randn m).map (fun w => toLp 2 (f + g *ᵥ w))) := Measure.isProbabilityMeasure_map hm.aemeasurable
  apply Measure.ext_of_charFun
  ext t
  rw [charFun_multivariateGaussian hpsd, charFun_apply, integral_map hm.aemeasurable (by fun_prop)]
  have h1 := randn_charFun (toLp 2 (gᵀ *ᵥ t.ofLp))
  rw [charFun_apply, integral_map (by fun_prop) (by fun_prop)] at h1
  have h2 : ∀ w : Fin m → ℝ, Complex.exp (inner ℝ (toLp 2 (f + g *ᵥ w)) t * Complex.I) =
      Complex.exp (inner ℝ t (toLp 2 f) * Complex.I) * Complex.exp (inner ℝ (toLp 2 w) (toLp 2 (gᵀ *ᵥ t.ofLp)) * Complex.I) := by
    intro w
    rw [← Complex.exp_add, ← add_mul, ← Complex.ofReal_add]
    congr 3
    simp only [EuclideanSpace.inner_eq_star_dotProduct, star_trivial]
    rw [dotProduct_add, dotProduct_comm t.ofLp f, dotProduct_mulVec, mulVec_transpose]
  simp only [h2]
  rw [integral_const_mul, h1, ← Complex.exp_add]
  congr 1
  rw [sub_eq_add_neg]
  congr 1
  rw [neg_div]
  congr 2
  rw [← Complex.ofReal_pow, Complex.ofReal_inj, EuclideanSpace.real_norm_sq_eq]
  simp only [← mulVec_mulVec]
  rw [dotProduct_mulVec, ← mulVec_transpose, dotProduct]
  simp [pow_two]

theorem randn_density : randn m = volume.withDensity fun u => ENNReal.ofReal (stdNormal u) := by
  unfold randn
  refine Measure.pi_eq fun s hs => ?_
  have hms : MeasurableSet (Set.univ.pi s) := MeasurableSet.univ_pi hs
  rw [withDensity_apply _ hms, ← ofReal_integral_eq_lintegral_ofReal std_integrable.integrableOn
    (ae_of_all _ fun u => Finset.prod_nonneg fun i _ => gaussianPDFReal_nonneg 0 1 _), ← integral_indicator hms]
  have h : ∀ u : Fin m → ℝ, (Set.univ.pi s).indicator (fun u => stdNormal u) u = ∏ i, (s i).indicator (gaussianPDFReal 0 1) (u i) := by
    intro u
    by_cases hu : u ∈ Set.univ.pi s
    · rw [Set.indicator_of_mem hu, stdNormal]
      exact Finset.prod_congr rfl fun i _ => (Set.indicator_of_mem (hu i trivial) _).symm
    · rw [Set.indicator_of_notMem hu, eq_comm, Finset.prod_eq_zero_iff]
      simp only [Set.mem_pi, not_forall] at hu
      obtain ⟨i, -, hi⟩ := hu
      exact ⟨i, Finset.mem_univ _, Set.indicator_of_notMem hi _⟩
  simp only [h]
  rw [volume_pi, integral_fintype_prod_eq_prod (fun i => (s i).indicator (gaussianPDFReal 0 1)),
    ENNReal.ofReal_prod_of_nonneg fun i _ => integral_nonneg fun x => Set.indicator_nonneg (fun x _ => gaussianPDFReal_nonneg 0 1 x) x]
  refine Finset.prod_congr rfl fun i _ => ?_
  rw [integral_indicator (hs i), gaussianReal_apply_eq_integral 0 one_ne_zero]

/-- With a positive definite covariance the law has the normal density. -/
theorem normal_density (f : Fin n → ℝ) (g : Matrix (Fin n) (Fin m) ℝ) (hS : (g * gᵀ).PosDef) :
    (randn m).map (fun w => f + g *ᵥ w) = volume.withDensity fun x => ENNReal.ofReal (gaussian (g * gᵀ) (x - f)) := by
  obtain ⟨B, hB, htr⟩ := gaussian_transfer hS
  have hsame : (randn m).map (fun w => f + g *ᵥ w) = (randn n).map (fun w => f + B *ᵥ w) := by
    have h := (normal_law f g).trans ((normal_law f B).trans (by rw [hB])).symm
    have h' := congrArg (Measure.map (ofLp (p := 2) (V := Fin n → ℝ))) h
    have ho : Measurable (ofLp (p := 2) (V := Fin n → ℝ)) := (PiLp.continuous_ofLp 2 _).measurable
    rwa [Measure.map_map ho (toLp_measurable f g), Measure.map_map ho (toLp_measurable f B)] at h'
  rw [hsame]
  ext A hA
  rw [Measure.map_apply (affine_measurable f B) hA, withDensity_apply _ hA, randn_density, withDensity_apply _ (affine_measurable f B hA)]
  have hint : Integrable fun x => gaussian (g * gᵀ) (x - f) := by
    by_contra hc
    have := gaussian_integral hS f
    rw [integral_undef hc] at this
    exact zero_ne_one this
  rw [← ofReal_integral_eq_lintegral_ofReal std_integrable.integrableOn
    (ae_of_all _ fun u => Finset.prod_nonneg fun i _ => gaussianPDFReal_nonneg 0 1 _), ← ofReal_integral_eq_lintegral_ofReal hint.integrableOn
    (ae_of_all _ fun u => (gaussian_pos hS _).le), ← integral_indicator hA, ← integral_indicator (affine_measurable f B hA)]
  congr 1
  have := htr f (A.indicator 1)
  rw [eq_comm]
  refine (integral_congr_ae (ae_of_all _ fun x => ?_)).trans (this.trans (integral_congr_ae (ae_of_all _ fun x => ?_)))
  · by_cases hx : x ∈ A <;> simp [hx]
  · by_cases hx : B *ᵥ x + f ∈ A
    · simp [hx, add_comm f]
    · simp [hx, add_comm f]

end Ceacoest
