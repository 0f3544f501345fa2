import Verif.Lemmas.KalmanCore

/-! # The information form of a linear correction -/

namespace Ceacoest
open Matrix
variable {nx : Nat} {a : Type} [Fintype a] [DecidableEq a]
variable {P : Matrix (Fin nx) (Fin nx) ℝ} {H : Matrix (Fin nx) a ℝ} {R S : Matrix a a ℝ}

theorem pd_symm {n : Type} [Fintype n] {A : Matrix n n ℝ} (h : A.PosDef) : Aᵀ = A := psd_symm h.posSemidef

theorem pd_unit {n : Type} [Fintype n] [DecidableEq n] {A : Matrix n n ℝ} (h : A.PosDef) : IsUnit A.det := isUnit_iff_ne_zero.2 h.det_pos.ne'

theorem info_gain (hP : P.PosDef) (hR : R.PosDef) (hS : S = Hᵀ * (P * H) + R) (hSu : IsUnit S.det) :
    (P⁻¹ + H * R⁻¹ * Hᵀ) * (P * H * S⁻¹) = H * R⁻¹ := by
  have e : (P⁻¹ + H * R⁻¹ * Hᵀ) * (P * H) = H * R⁻¹ * S := by
    rw [Matrix.add_mul, ← Matrix.mul_assoc P⁻¹, nonsing_inv_mul _ (pd_unit hP), Matrix.one_mul, hS, Matrix.mul_add, Matrix.mul_assoc H R⁻¹ R,
      nonsing_inv_mul _ (pd_unit hR), Matrix.mul_one, Matrix.mul_assoc (H * R⁻¹)]
    abel
  rw [← Matrix.mul_assoc, e, Matrix.mul_assoc, mul_nonsing_inv _ hSu, Matrix.mul_one]

theorem info_cov (hP : P.PosDef) (hR : R.PosDef) (hS : S = Hᵀ * (P * H) + R) (hSu : IsUnit S.det) :
    (P⁻¹ + H * R⁻¹ * Hᵀ) * (P - P * H * S⁻¹ * S * (P * H * S⁻¹)ᵀ) = 1 := by
  have hSs : Sᵀ = S := by
    rw [hS, transpose_add, transpose_mul, transpose_mul, transpose_transpose, pd_symm hP, pd_symm hR, Matrix.mul_assoc]
  have e : P * H * S⁻¹ * S * (P * H * S⁻¹)ᵀ = P * H * S⁻¹ * (Hᵀ * P) := by
    rw [Matrix.mul_assoc (P * H), nonsing_inv_mul _ hSu, Matrix.mul_one, transpose_mul, transpose_nonsing_inv, hSs, transpose_mul, pd_symm hP]
    simp only [Matrix.mul_assoc]
  rw [e, Matrix.mul_sub, ← Matrix.mul_assoc _ (P * H * S⁻¹), info_gain hP hR hS hSu, Matrix.add_mul, nonsing_inv_mul _ (pd_unit hP), Matrix.mul_assoc (H * R⁻¹)]
  abel

theorem info_pd (hP : P.PosDef) (hR : R.PosDef) : (P⁻¹ + H * R⁻¹ * Hᵀ).PosDef := PosDef.add_posSemidef hP.inv (psd_conj hR.inv.posSemidef H)

/-- Completing the square. -/
theorem cost_eq (hP : P.PosDef) (hR : R.PosDef) (e : a → ℝ) (u z : Fin nx → ℝ) (hu : (P⁻¹ + H * R⁻¹ * Hᵀ) *ᵥ u = (H * R⁻¹) *ᵥ e) :
    z ⬝ᵥ P⁻¹ *ᵥ z + (e - Hᵀ *ᵥ z) ⬝ᵥ R⁻¹ *ᵥ (e - Hᵀ *ᵥ z) =
      (u ⬝ᵥ P⁻¹ *ᵥ u + (e - Hᵀ *ᵥ u) ⬝ᵥ R⁻¹ *ᵥ (e - Hᵀ *ᵥ u)) + (z - u) ⬝ᵥ (P⁻¹ + H * R⁻¹ * Hᵀ) *ᵥ (z - u) := by
  have hRi : (R⁻¹)ᵀ = R⁻¹ := pd_symm hR.inv
  have hA : (P⁻¹ + H * R⁻¹ * Hᵀ)ᵀ = P⁻¹ + H * R⁻¹ * Hᵀ := pd_symm (info_pd hP hR)
  have key : ∀ z : Fin nx → ℝ, z ⬝ᵥ P⁻¹ *ᵥ z + (e - Hᵀ *ᵥ z) ⬝ᵥ R⁻¹ *ᵥ (e - Hᵀ *ᵥ z) =
      z ⬝ᵥ (P⁻¹ + H * R⁻¹ * Hᵀ) *ᵥ z - 2 * (z ⬝ᵥ (H * R⁻¹) *ᵥ e) + e ⬝ᵥ R⁻¹ *ᵥ e := by
    intro z
    have h1 : Hᵀ *ᵥ z ⬝ᵥ R⁻¹ *ᵥ e = z ⬝ᵥ (H * R⁻¹) *ᵥ e := by
      rw [← mulVec_mulVec, dotProduct_mulVec z, ← mulVec_transpose]
    have h2 : e ⬝ᵥ R⁻¹ *ᵥ (Hᵀ *ᵥ z) = Hᵀ *ᵥ z ⬝ᵥ R⁻¹ *ᵥ e := by
      rw [dotProduct_mulVec, ← mulVec_transpose, hRi, dotProduct_comm]
    have h3 : Hᵀ *ᵥ z ⬝ᵥ R⁻¹ *ᵥ (Hᵀ *ᵥ z) = z ⬝ᵥ (H * R⁻¹ * Hᵀ) *ᵥ z := by
      rw [← mulVec_mulVec, ← mulVec_mulVec, dotProduct_mulVec z, ← mulVec_transpose]
    rw [mulVec_sub, sub_dotProduct, dotProduct_sub, dotProduct_sub, h2, h1, h3, add_mulVec, dotProduct_add]
    ring
  have hsym : u ⬝ᵥ (P⁻¹ + H * R⁻¹ * Hᵀ) *ᵥ z = z ⬝ᵥ (P⁻¹ + H * R⁻¹ * Hᵀ) *ᵥ u := by
    rw [dotProduct_mulVec, ← mulVec_transpose, hA, dotProduct_comm]
  rw [key z, key u, ← hu, mulVec_sub, sub_dotProduct, dotProduct_sub, dotProduct_sub, hsym]
  ring

end Ceacoest
