import Verif.Model.SymStats
import Mathlib.Probability.Distributions.Gaussian.Real

/-! # C53: symbolic normal densities -/

namespace Ceacoest.SymStats

/-- The log-density of an unmasked sample is the logarithm of the density. -/
theorem C53_logpdf (x mean std : ℝ) (h : 0 < std) : normalLogpdf false x mean std = Real.log (normalPdf x mean std) := by
  have h2 : (0 : ℝ) < 2 * Real.pi := by positivity
  simp only [normalLogpdf, normalPdf, unmasked]
  rw [Real.log_div (by positivity) (by positivity), Real.log_div (Real.exp_pos _).ne' h.ne', Real.log_exp, Real.log_sqrt h2.le]
  simp
  field_simp
  ring

/-- The short log-density is the logarithm of the unnormalised density and differs by a constant. -/
theorem C53_logpdf1 (x mean std : ℝ) (h : 0 < std) :
    normalLogpdf1 false x mean std = Real.log (normalPdf1 x mean std) ∧
    normalLogpdf1 false x mean std - normalLogpdf false x mean std = Real.log (2 * Real.pi) / 2 ∧
    normalPdf x mean std = normalPdf1 x mean std / Real.sqrt (2 * Real.pi) := by
  refine ⟨?_, ?_, rfl⟩
  · simp only [normalLogpdf1, normalPdf1, unmasked]
    rw [Real.log_div (Real.exp_pos _).ne' h.ne', Real.log_exp]
    simp
    field_simp
  · simp only [normalLogpdf, normalLogpdf1, unmasked]
    simp
    ring

/-- Masked samples contribute exactly zero, whatever the other arguments. -/
theorem C53_masked (x mean std : ℝ) : normalLogpdf true x mean std = 0 ∧ normalLogpdf1 true x mean std = 0 := by
  simp [normalLogpdf, normalLogpdf1, unmasked]

/-- The density is the Gaussian density with this mean and variance `std²`. -/
theorem C53_pdf (x mean std : ℝ) (h : 0 < std) :
    normalPdf x mean std = ProbabilityTheory.gaussianPDFReal mean (Real.toNNReal (std ^ 2)) x := by
  rw [ProbabilityTheory.gaussianPDFReal_def]
  simp only [normalPdf, Real.coe_toNNReal _ (sq_nonneg std)]
  rw [Real.sqrt_mul (x := 2 * Real.pi) (by positivity) (std ^ 2), Real.sqrt_sq h.le]
  have e : -(1 / 2) * ((x - mean) / std) ^ 2 = -(x - mean) ^ 2 / (2 * std ^ 2) := by field_simp
  rw [e]
  field_simp

/-- The density integrates to one. -/
theorem C53_integral (mean std : ℝ) (h : 0 < std) : ∫ x, normalPdf x mean std = 1 := by
  simp only [C53_pdf _ mean std h]
  refine ProbabilityTheory.integral_gaussianPDFReal_eq_one mean ?_
  simpa using h.ne'

/-- The total log-density of a masked record is the sum over the samples that are present. -/
theorem C53_record (s : List (Bool × ℝ)) (mean std : ℝ) :
    (s.map fun a => normalLogpdf1 a.1 a.2 mean std).sum =
      ((s.filter fun a => !a.1).map fun a => normalLogpdf1 false a.2 mean std).sum := by
  induction s with
  | nil => rfl
  | cons a s ih =>
    obtain ⟨m, x⟩ := a
    cases m
    · simp [ih]
    · simp [ih, (C53_masked x mean std).2]

example : normalLogpdf1 false 3 1 2 = -(1 / 2) - Real.log 2 := by simp [normalLogpdf1, unmasked]; norm_num

end Ceacoest.SymStats
