import Verif.Lemmas.KalmanBayes
import Verif.Lemmas.Chol
import Mathlib.LinearAlgebra.Matrix.SchurComplement
import Mathlib.Probability.Distributions.Gaussian.Real
import Mathlib.Analysis.SpecialFunctions.Gaussian.GaussianIntegral
import Mathlib.MeasureTheory.Integral.Pi
import Mathlib.MeasureTheory.Measure.Lebesgue.Basic

/-! # Normal densities: their integral, mean and covariance, and the theorem of Bayes for linear measurements -/

namespace Ceacoest
open Matrix Spec MeasureTheory
variable {n : Type} [Fintype n] [DecidableEq n]

/-- Change of variables. -/
theorem integral_linear (B : Matrix n n ℝ) (hB : B.det ≠ 0) (F : (n → ℝ) → ℝ) : ∫ x, F x = |B.det| * ∫ u, F (B *ᵥ u) := by
  have h := Real.map_matrix_volume_pi_eq_smul_volume_pi hB
  have hm : MeasurableEmbedding (toLin' B) := by
    have hinj : Function.Injective (toLin' B) := by
      intro a b hab
      have := congrArg (B⁻¹ *ᵥ ·) hab
      simpa [mulVec_mulVec, nonsing_inv_mul _ (isUnit_iff_ne_zero.2 hB)] using this
    exact (LinearMap.isClosedEmbedding_of_injective (LinearMap.ker_eq_bot.2 hinj)).measurableEmbedding
  have h2 := hm.integral_map (μ := volume) F
  rw [h, integral_smul_measure] at h2
  have h3 : (ENNReal.ofReal |(B.det)⁻¹|).toReal = |B.det|⁻¹ := by rw [ENNReal.toReal_ofReal (abs_nonneg _), abs_inv]
  rw [h3] at h2
  change |B.det|⁻¹ * _ = ∫ u, F (B *ᵥ u) at h2
  rw [← h2, ← mul_assoc, mul_inv_cancel₀ (abs_ne_zero.2 hB), one_mul]

/-- The standard normal density. -/
noncomputable def stdNormal (u : n → ℝ) : ℝ := ∏ i, ProbabilityTheory.gaussianPDFReal 0 1 (u i)

theorem stdNormal_eq (u : n → ℝ) : stdNormal u = (Real.sqrt ((2 * Real.pi) ^ Fintype.card n))⁻¹ * Real.exp (-(u ⬝ᵥ u) / 2) := by
  unfold stdNormal ProbabilityTheory.gaussianPDFReal
  rw [Finset.prod_mul_distrib, Finset.prod_const, ← Real.exp_sum]
  congr 1
  · rw [inv_pow, NNReal.coe_one, mul_one, Finset.card_univ]
    congr 1
    rw [eq_comm, Real.sqrt_eq_iff_mul_self_eq_of_pos (by positivity), ← mul_pow, Real.mul_self_sqrt (by positivity)]
  · congr 1
    simp only [dotProduct, NNReal.coe_one, ← Finset.sum_div, sub_zero]
    rw [← Finset.sum_neg_distrib]
    simp [pow_two]

theorem pdf_integrable (k : Nat) : Integrable fun x : ℝ => ProbabilityTheory.gaussianPDFReal 0 1 x * x ^ k := by
  have h := (integrable_rpow_mul_exp_neg_mul_sq (b := 1 / 2) (by norm_num) (s := k) (by have : (0 : ℝ) ≤ k := k.cast_nonneg; linarith)).const_mul
    (Real.sqrt (2 * Real.pi))⁻¹
  refine h.congr (ae_of_all _ fun x => ?_)
  simp only [ProbabilityTheory.gaussianPDFReal, NNReal.coe_one, mul_one, sub_zero, Real.rpow_natCast]
  have : -(1 / 2) * x ^ 2 = -x ^ 2 / 2 := by ring
  rw [this]
  ring

theorem pdf_zero : ∫ x : ℝ, ProbabilityTheory.gaussianPDFReal 0 1 x = 1 := ProbabilityTheory.integral_gaussianPDFReal_eq_one 0 one_ne_zero

theorem pdf_one : ∫ x : ℝ, ProbabilityTheory.gaussianPDFReal 0 1 x * x = 0 := by
  have h := ProbabilityTheory.integral_id_gaussianReal (μ := 0) (v := 1)
  rwa [ProbabilityTheory.integral_gaussianReal_eq_integral_smul one_ne_zero] at h

theorem pdf_two : ∫ x : ℝ, ProbabilityTheory.gaussianPDFReal 0 1 x * x ^ 2 = 1 := by
  have h := ProbabilityTheory.variance_fun_id_gaussianReal (μ := 0) (v := 1)
  rw [ProbabilityTheory.variance_eq_integral (by fun_prop), ProbabilityTheory.integral_id_gaussianReal,
    ProbabilityTheory.integral_gaussianReal_eq_integral_smul one_ne_zero] at h
  simpa using h

theorem std_prod (g : n → ℝ → ℝ) : ∫ u : n → ℝ, stdNormal u * ∏ i, g i (u i) = ∏ i, ∫ x, ProbabilityTheory.gaussianPDFReal 0 1 x * g i x := by
  rw [← integral_fintype_prod_volume_eq_prod]
  simp only [stdNormal, Finset.prod_mul_distrib]

theorem std_prod_integrable (g : n → ℝ → ℝ) (hg : ∀ i, Integrable fun x => ProbabilityTheory.gaussianPDFReal 0 1 x * g i x) :
    Integrable fun u : n → ℝ => stdNormal u * ∏ i, g i (u i) := by
  have := Integrable.fintype_prod_dep (f := fun i x => ProbabilityTheory.gaussianPDFReal 0 1 x * g i x) hg
  simp only [Finset.prod_mul_distrib] at this
  exact this

theorem std_integral : ∫ u : n → ℝ, stdNormal u = 1 := by
  have := std_prod (n := n) fun _ _ => 1
  simpa [pdf_zero] using this

theorem std_integrable : Integrable fun u : n → ℝ => stdNormal u := by
  have := std_prod_integrable (n := n) (fun _ _ => 1) fun _ => by simpa using pdf_integrable 0
  simpa using this

/-- One coordinate as a product. -/
theorem coord (u : n → ℝ) (k : n) : u k = ∏ i, if i = k then u i else 1 := by simp

theorem std_mean (k : n) : ∫ u : n → ℝ, stdNormal u * u k = 0 := by
  have := std_prod (n := n) fun i x => if i = k then x else 1
  simp only [← coord] at this
  rw [this]
  exact Finset.prod_eq_zero (Finset.mem_univ k) (by simp [pdf_one])

theorem std_mean_integrable (k : n) : Integrable fun u : n → ℝ => stdNormal u * u k := by
  have := std_prod_integrable (n := n) (fun i x => if i = k then x else 1) fun i => by
    by_cases h : i = k
    · simpa [h] using pdf_integrable 1
    · simpa [h] using pdf_integrable 0
  simpa only [← coord] using this

theorem std_cov (k l : n) : ∫ u : n → ℝ, stdNormal u * (u k * u l) = if k = l then 1 else 0 := by
  have := std_prod (n := n) fun i x => (if i = k then x else 1) * if i = l then x else 1
  simp only [Finset.prod_mul_distrib, ← coord] at this
  rw [this]
  by_cases h : k = l
  · subst h
    rw [if_pos rfl]
    refine Finset.prod_eq_one fun i _ => ?_
    by_cases hi : i = k
    · simp only [hi, if_true]
      simpa only [pow_two] using pdf_two
    · simp [hi, pdf_zero]
  · rw [if_neg h]
    exact Finset.prod_eq_zero (Finset.mem_univ k) (by simp [h, pdf_one])

theorem std_cov_integrable (k l : n) : Integrable fun u : n → ℝ => stdNormal u * (u k * u l) := by
  have := std_prod_integrable (n := n) (fun i x => (if i = k then x else 1) * if i = l then x else 1) fun i => by
    by_cases h : i = k <;> by_cases h' : i = l
    · simp only [h, if_true, if_pos (h.symm.trans h')]
      simpa only [pow_two] using pdf_integrable 2
    · have : k ≠ l := fun e => h' (h.trans e)
      simpa [h, this] using pdf_integrable 1
    · have : ¬l = k := fun e => h (h'.trans e)
      simpa [h', this] using pdf_integrable 1
    · simpa [h, h'] using pdf_integrable 0
  simpa only [Finset.prod_mul_distrib, ← coord] using this

variable {N : Nat} {S : Matrix (Fin N) (Fin N) ℝ}

/-- Every normal density comes from the standard one. -/
theorem gaussian_transfer (hS : S.PosDef) : ∃ B : Matrix (Fin N) (Fin N) ℝ, B * Bᵀ = S ∧ ∀ (m : Fin N → ℝ) (F : (Fin N → ℝ) → ℝ),
    ∫ x, gaussian S (x - m) * F x = ∫ u, stdNormal u * F (B *ᵥ u + m) := by
  obtain ⟨B, hB⟩ := exists_isChol hS
  have hdet : S.det = B.det ^ 2 := by rw [← hB.eq, det_mul, det_transpose, pow_two]
  have hB0 : B.det ≠ 0 := fun h => hS.det_pos.ne' (by rw [hdet, h]; simp)
  refine ⟨B, hB.eq, fun m F => ?_⟩
  have h1 : ∫ x, gaussian S (x - m) * F x = ∫ x, gaussian S x * F (x + m) := by
    rw [← integral_add_right_eq_self _ m]
    simp only [add_sub_cancel_right]
  have h2 : ∀ u, gaussian S (B *ᵥ u) = |B.det|⁻¹ * stdNormal u := by
    intro u
    have hq : B *ᵥ u ⬝ᵥ S⁻¹ *ᵥ (B *ᵥ u) = u ⬝ᵥ u := by
      rw [← hB.eq, Matrix.mul_inv_rev, ← mulVec_mulVec, mulVec_mulVec _ B⁻¹ B, nonsing_inv_mul _ (isUnit_iff_ne_zero.2 hB0), one_mulVec,
        ← transpose_nonsing_inv, dotProduct_mulVec, vecMul_transpose, mulVec_mulVec, nonsing_inv_mul _ (isUnit_iff_ne_zero.2 hB0), one_mulVec]
    rw [gaussian, stdNormal_eq, hq, hdet, Real.sqrt_mul (by positivity), Real.sqrt_sq_eq_abs, mul_inv]
    ring
  rw [h1, integral_linear B hB0, ← integral_const_mul]
  refine integral_congr_ae (ae_of_all _ fun u => ?_)
  simp only [h2]
  field_simp

/-- A normal density is positive and integrates to one, … -/
theorem gaussian_integral (hS : S.PosDef) (m : Fin N → ℝ) : ∫ x, gaussian S (x - m) = 1 := by
  obtain ⟨B, -, h⟩ := gaussian_transfer hS
  have := h m fun _ => 1
  simpa [std_integral] using this

/-- … its mean is the one it says, … -/
theorem gaussian_mean (hS : S.PosDef) (m : Fin N → ℝ) (i : Fin N) : ∫ x, gaussian S (x - m) * x i = m i := by
  obtain ⟨B, -, h⟩ := gaussian_transfer hS
  rw [h m fun x => x i]
  have e : ∀ u, stdNormal u * (B *ᵥ u + m) i = (∑ k, B i k * (stdNormal u * u k)) + m i * stdNormal u := by
    intro u
    rw [Pi.add_apply, mul_add, mulVec, dotProduct, Finset.mul_sum]
    congr 1
    · exact Finset.sum_congr rfl fun k _ => by ring
    · ring
  simp only [e]
  rw [integral_add (integrable_finset_sum _ fun k _ => (std_mean_integrable k).const_mul _) (std_integrable.const_mul _),
    integral_finset_sum _ fun k _ => (std_mean_integrable k).const_mul _, integral_const_mul, std_integral]
  simp [integral_const_mul, std_mean]

/-- … and so is its covariance. -/
theorem gaussian_cov (hS : S.PosDef) (m : Fin N → ℝ) (i j : Fin N) : ∫ x, gaussian S (x - m) * ((x i - m i) * (x j - m j)) = S i j := by
  obtain ⟨B, hB, h⟩ := gaussian_transfer hS
  rw [h m fun x => (x i - m i) * (x j - m j)]
  have e : ∀ u, stdNormal u * (((B *ᵥ u + m) i - m i) * ((B *ᵥ u + m) j - m j)) = ∑ k, ∑ l, B i k * B j l * (stdNormal u * (u k * u l)) := by
    intro u
    rw [Pi.add_apply, Pi.add_apply, add_sub_cancel_right, add_sub_cancel_right, mulVec, mulVec, dotProduct, dotProduct, Finset.sum_mul_sum,
      Finset.mul_sum]
    refine Finset.sum_congr rfl fun k _ => ?_
    rw [Finset.mul_sum]
    exact Finset.sum_congr rfl fun l _ => by ring
  simp only [e]
  rw [integral_finset_sum _ fun k _ => integrable_finset_sum _ fun l _ => (std_cov_integrable k l).const_mul _]
  simp only [integral_finset_sum _ fun l _ => (std_cov_integrable _ l).const_mul _, integral_const_mul, std_cov]
  rw [← hB, mul_apply]
  simp

theorem gaussian_pos {n : Type} [Fintype n] [DecidableEq n] {S : Matrix n n ℝ} (hS : S.PosDef) (e : n → ℝ) : 0 < gaussian S e := by
  have := hS.det_pos
  unfold gaussian
  positivity

section bayes
variable {nx : Nat} {a : Type} [Fintype a] [DecidableEq a]
variable {P : Matrix (Fin nx) (Fin nx) ℝ} {H : Matrix (Fin nx) a ℝ} {R S : Matrix a a ℝ}

theorem innovation_pd (hP : P.PosDef) (hR : R.PosDef) : (Hᵀ * (P * H) + R).PosDef := by
  have h0 := psd_conj hP.posSemidef Hᵀ
  rw [transpose_transpose, Matrix.mul_assoc] at h0
  exact PosDef.posSemidef_add h0 hR

theorem posterior_pd (hP : P.PosDef) (hR : R.PosDef) (hS : S = Hᵀ * (P * H) + R) : (P - P * H * S⁻¹ * S * (P * H * S⁻¹)ᵀ).PosDef := by
  have hSp : S.PosDef := hS ▸ innovation_pd hP hR
  have h1 := info_cov hP hR hS (pd_unit hSp)
  have h2 : P - P * H * S⁻¹ * S * (P * H * S⁻¹)ᵀ = (P⁻¹ + H * R⁻¹ * Hᵀ)⁻¹ := (inv_eq_right_inv h1).symm
  rw [h2]
  exact (info_pd hP hR).inv

theorem bayes_det (hP : P.PosDef) (hR : R.PosDef) (hS : S = Hᵀ * (P * H) + R) :
    P.det * R.det = S.det * (P - P * H * S⁻¹ * S * (P * H * S⁻¹)ᵀ).det := by
  have hSp : S.PosDef := hS ▸ innovation_pd hP hR
  have h1 := congrArg det (info_cov hP hR hS (pd_unit hSp))
  rw [det_mul, det_one] at h1
  have h2 : P⁻¹ + H * R⁻¹ * Hᵀ = P⁻¹ * (1 + P * H * (R⁻¹ * Hᵀ)) := by
    rw [Matrix.mul_add, Matrix.mul_one, Matrix.mul_assoc P, ← Matrix.mul_assoc P⁻¹, nonsing_inv_mul _ (pd_unit hP), Matrix.one_mul, Matrix.mul_assoc]
  have h3 : S = R * (1 + R⁻¹ * Hᵀ * (P * H)) := by
    rw [Matrix.mul_add, Matrix.mul_one, Matrix.mul_assoc R⁻¹, ← Matrix.mul_assoc R, mul_nonsing_inv _ (pd_unit hR), Matrix.one_mul, hS, add_comm]
  have h4 : S.det = R.det * (1 + P * H * (R⁻¹ * Hᵀ)).det := by
    conv_lhs => rw [h3]
    rw [det_mul, det_one_add_mul_comm]
  rw [h2, det_mul, det_nonsing_inv, Ring.inverse_eq_inv'] at h1
  have hp := hP.det_pos.ne'
  rw [h4]
  generalize (P - P * H * S⁻¹ * S * (P * H * S⁻¹)ᵀ).det = D at h1 ⊢
  field_simp at h1
  linear_combination R.det * -h1

theorem bayes_cost (hP : P.PosDef) (hR : R.PosDef) (hS : S = Hᵀ * (P * H) + R) (e : a → ℝ) (z : Fin nx → ℝ) :
    z ⬝ᵥ P⁻¹ *ᵥ z + (e - Hᵀ *ᵥ z) ⬝ᵥ R⁻¹ *ᵥ (e - Hᵀ *ᵥ z) =
      e ⬝ᵥ S⁻¹ *ᵥ e + (z - (P * H * S⁻¹) *ᵥ e) ⬝ᵥ (P - P * H * S⁻¹ * S * (P * H * S⁻¹)ᵀ)⁻¹ *ᵥ (z - (P * H * S⁻¹) *ᵥ e) := by
  have hSp : S.PosDef := hS ▸ innovation_pd hP hR
  have hSu := pd_unit hSp
  have hu : (P⁻¹ + H * R⁻¹ * Hᵀ) *ᵥ ((P * H * S⁻¹) *ᵥ e) = (H * R⁻¹) *ᵥ e := by rw [mulVec_mulVec, info_gain hP hR hS hSu]
  have h1 : (P - P * H * S⁻¹ * S * (P * H * S⁻¹)ᵀ)⁻¹ = P⁻¹ + H * R⁻¹ * Hᵀ := inv_eq_left_inv (info_cov hP hR hS hSu)
  have h0 := cost_eq hP hR e _ 0 hu
  rw [cost_eq hP hR e _ z hu, h1]
  simp only [mulVec_zero, zero_sub, sub_zero, zero_dotProduct, zero_add, mulVec_neg, neg_dotProduct, dotProduct_neg, neg_neg, hu] at h0
  have h2 : (P * H * S⁻¹) *ᵥ e ⬝ᵥ (H * R⁻¹) *ᵥ e = e ⬝ᵥ R⁻¹ *ᵥ e - e ⬝ᵥ S⁻¹ *ᵥ e := by
    have h3 : (P * H * S⁻¹)ᵀ * (H * R⁻¹) = R⁻¹ - S⁻¹ := by
      have hH : Hᵀ * P * H = S - R := by rw [hS, Matrix.mul_assoc]; simp
      rw [transpose_mul, transpose_mul, transpose_nonsing_inv, pd_symm hSp, pd_symm hP, Matrix.mul_assoc, ← Matrix.mul_assoc (Hᵀ * P), hH, Matrix.sub_mul,
        mul_nonsing_inv _ (pd_unit hR), Matrix.mul_sub, ← Matrix.mul_assoc, nonsing_inv_mul _ hSu, Matrix.one_mul, Matrix.mul_one]
    rw [← vecMul_transpose, ← dotProduct_mulVec, mulVec_mulVec, h3, sub_mulVec, dotProduct_sub]
  rw [h2] at h0
  linarith

/-- The theorem of Bayes for a linear measurement `d + Hᵀ (x - m)`. -/
theorem bayes (hP : P.PosDef) (hR : R.PosDef) (hS : S = Hᵀ * (P * H) + R) (m x : Fin nx → ℝ) (y d : a → ℝ) :
    gaussian P (x - m) * gaussian R (y - (d + Hᵀ *ᵥ (x - m))) =
      gaussian S (y - d) * gaussian (P - P * H * S⁻¹ * S * (P * H * S⁻¹)ᵀ) (x - (m + (P * H * S⁻¹) *ᵥ (y - d))) := by
  have hSp : S.PosDef := hS ▸ innovation_pd hP hR
  have hV := posterior_pd hP hR hS
  have hc := bayes_cost hP hR hS (y - d) (x - m)
  have hd := bayes_det hP hR hS
  rw [← sub_sub, ← sub_sub]
  generalize P - P * H * S⁻¹ * S * (P * H * S⁻¹)ᵀ = V at hV hc hd ⊢
  have p1 := hP.det_pos
  have p2 := hR.det_pos
  have p3 := hSp.det_pos
  have p4 := hV.det_pos
  have hpi := Real.pi_pos
  unfold gaussian
  rw [mul_mul_mul_comm, mul_mul_mul_comm (Real.sqrt ((2 * Real.pi) ^ Fintype.card a * S.det))⁻¹, ← Real.exp_add, ← Real.exp_add, ← mul_inv, ← mul_inv, ← Real.sqrt_mul (by positivity),
    ← Real.sqrt_mul (by positivity)]
  congr 1
  · congr 2
    linear_combination (2 * Real.pi) ^ Fintype.card (Fin nx) * (2 * Real.pi) ^ Fintype.card a * hd
  · congr 1
    linarith

/-- The measurement alone. -/
theorem bayes_integral (hP : P.PosDef) (hR : R.PosDef) (hS : S = Hᵀ * (P * H) + R) (m : Fin nx → ℝ) (y d : a → ℝ) :
    ∫ x, gaussian P (x - m) * gaussian R (y - (d + Hᵀ *ᵥ (x - m))) = gaussian S (y - d) := by
  simp only [bayes hP hR hS]
  rw [integral_const_mul, gaussian_integral (posterior_pd hP hR hS), mul_one]

end bayes

end Ceacoest
