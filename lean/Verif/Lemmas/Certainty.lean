import Verif.Spec.Certainty
import Verif.Lemmas.KalmanCore
import Verif.Lemmas.KalmanLoops

/-! # Lemmas for C103 -/

namespace Ceacoest
open Matrix Spec
variable {nx : Nat} {o p : Type} [Fintype o] [LinearOrder o]

omit [LinearOrder o] in
theorem sum_active (y : MaskedRow o) (g : o → ℝ) (hg : ∀ j, y.mask j = true → g j = 0) : ∑ j, g j = ∑ j : y.Active, g j.1 := by
  classical
  rw [← Fintype.sum_subtype_add_sum_subtype (fun j => y.mask j = false) g]
  rw [Finset.sum_eq_zero (s := (Finset.univ : Finset {j // ¬y.mask j = false})) fun j _ => hg j.1 (by simpa using j.2), add_zero]

/-- The entries for the active outputs. -/
def restrictGain (y : MaskedRow o) (K : Matrix (Fin nx) o ℝ) : Matrix (Fin nx) y.Active ℝ := of fun i j => K i j.1

/-- Zero for the others. -/
def extendGain (y : MaskedRow o) (K : Matrix (Fin nx) y.Active ℝ) : Matrix (Fin nx) o ℝ := of fun i j => if h : y.mask j = false then K i ⟨j, h⟩ else 0

omit [Fintype o] [LinearOrder o] in
theorem extend_restrict (y : MaskedRow o) (K : Matrix (Fin nx) y.Active ℝ) : restrictGain y (extendGain y K) = K := by
  ext i j
  simp [restrictGain, extendGain, j.2]

omit [LinearOrder o] in
theorem extend_only (y : MaskedRow o) (K : Matrix (Fin nx) y.Active ℝ) : UsesOnly y (extendGain y K) := fun i j h => by
  simp [extendGain, h]

omit [LinearOrder o] in
theorem errorCov_active {y : MaskedRow o} {K : Matrix (Fin nx) o ℝ} (hK : UsesOnly y K) (P : Matrix (Fin nx) (Fin nx) ℝ) (R : Matrix o o ℝ)
    (C : Matrix o (Fin nx) ℝ) : errorCov P R C K = (1 - restrictGain y K * (activeH y fun i j => C j i)ᵀ) * P * (1 - restrictGain y K * (activeH y fun i j => C j i)ᵀ)ᵀ +
      restrictGain y K * activeR y R * (restrictGain y K)ᵀ := by
  have e1 : K * C = restrictGain y K * (activeH y fun i j => C j i)ᵀ := by
    ext i l
    simp only [mul_apply, restrictGain, activeH, transpose_apply, of_apply]
    exact sum_active y (fun j => K i j * C j l) fun j hj => by rw [hK i j hj, zero_mul]
  have e2 : K * R * Kᵀ = restrictGain y K * activeR y R * (restrictGain y K)ᵀ := by
    ext i l
    simp only [mul_apply, restrictGain, activeR, transpose_apply, of_apply]
    rw [sum_active y _ fun j hj => by rw [hK l j hj, mul_zero]]
    refine Finset.sum_congr rfl fun j _ => ?_
    rw [sum_active y (fun k => K i k * R k j.1) fun k hk => by rw [hK i k hk, zero_mul]]
  unfold errorCov
  rw [e1, e2]

/-- Completing the square. -/
theorem square {a : Type} [Fintype a] [DecidableEq a] {P : Matrix (Fin nx) (Fin nx) ℝ} {H : Matrix (Fin nx) a ℝ} {R : Matrix a a ℝ} (hP : Pᵀ = P)
    (hS : (Hᵀ * (P * H) + R)ᵀ = Hᵀ * (P * H) + R) (hdet : (Hᵀ * (P * H) + R).det ≠ 0) (K : Matrix (Fin nx) a ℝ) :
    (1 - K * Hᵀ) * P * (1 - K * Hᵀ)ᵀ + K * R * Kᵀ = P - P * H * (Hᵀ * (P * H) + R)⁻¹ * (Hᵀ * (P * H) + R) * (P * H * (Hᵀ * (P * H) + R)⁻¹)ᵀ +
      (K - P * H * (Hᵀ * (P * H) + R)⁻¹) * (Hᵀ * (P * H) + R) * (K - P * H * (Hᵀ * (P * H) + R)⁻¹)ᵀ := by
  have hu := isUnit_iff_ne_zero.2 hdet
  have h1 : (1 - K * Hᵀ) * P * (1 - K * Hᵀ)ᵀ + K * R * Kᵀ = P - K * (P * H)ᵀ - P * H * Kᵀ + K * (Hᵀ * (P * H) + R) * Kᵀ := by
    rw [transpose_sub, transpose_one, transpose_mul, transpose_mul, transpose_transpose, hP]
    simp only [Matrix.sub_mul, Matrix.mul_sub, Matrix.one_mul, Matrix.mul_one, Matrix.mul_assoc, Matrix.add_mul, Matrix.mul_add]
    abel
  rw [h1]
  generalize hSd : Hᵀ * (P * H) + R = S at *
  generalize hG : P * H * S⁻¹ = G
  have h2 : G * S = P * H := by rw [← hG, Matrix.mul_assoc, nonsing_inv_mul _ hu, Matrix.mul_one]
  have h3 : S * Gᵀ = (P * H)ᵀ := by rw [← h2, transpose_mul, hS]
  rw [transpose_sub, Matrix.mul_sub, Matrix.sub_mul, Matrix.sub_mul, Matrix.sub_mul, h2, Matrix.mul_assoc K S Gᵀ, h3]
  abel

omit [LinearOrder o] in
theorem errorCov_zero (P : Matrix (Fin nx) (Fin nx) ℝ) (R : Matrix o o ℝ) (C : Matrix o (Fin nx) ℝ) : errorCov P R C 0 = P := by
  simp [errorCov]

/-- The extended filter finds the best linear estimate. -/
theorem ekf_best {M : KModel nx o p} {y : MaskedRow o} {s s' : EKF nx o p} {m : Moments nx} (hs : s.Px.PosSemidef) (hR : M.R.PosSemidef)
    (h : EKF.correct M y s = .ok (m, s')) : IsBest y s.Px M.R (of fun j i => M.dh_dx s.k s.x i j) m.2 := by
  rcases ekf_correct_cases h with ⟨hy, rfl, rfl⟩ | ⟨-, d, hd, rfl⟩
  · have h0 : ∀ K : Matrix (Fin nx) o ℝ, UsesOnly y K → K = 0 := fun K hK => by
      ext i j
      exact hK i j (hy j)
    refine ⟨fun K hK => ?_, 0, fun _ _ _ => rfl, (errorCov_zero _ _ _).symm⟩
    rw [h0 K hK, errorCov_zero, sub_self]
    exact PosSemidef.zero
  · have hc := ekf_core_ok hd
    have hpsd := ekf_psd hs (activeR_psd y hR) (H := activeH y (M.dh_dx s.k s.x))
    have sq := square (psd_symm hs) (psd_symm hpsd) hc.det
    have e : ∀ K, UsesOnly y K → errorCov s.Px M.R (of fun j i => M.dh_dx s.k s.x i j) K = m.2 + _ := fun K hK => by
      rw [errorCov_active hK, hc.cov]
      exact sq (restrictGain y K)
    refine ⟨fun K hK => ?_, extendGain y d.K, extend_only y _, ?_⟩
    · rw [e K hK, add_sub_cancel_left]
      exact psd_conj hpsd _
    · rw [e _ (extend_only y _), extend_restrict, hc.K, sub_self, Matrix.zero_mul, Matrix.zero_mul, add_zero]

omit [LinearOrder o] in
theorem errorCov_mono {P P' : Matrix (Fin nx) (Fin nx) ℝ} {R R' : Matrix o o ℝ} (hP : (P - P').PosSemidef) (hR : (R - R').PosSemidef)
    (C : Matrix o (Fin nx) ℝ) (K : Matrix (Fin nx) o ℝ) : (errorCov P R C K - errorCov P' R' C K).PosSemidef := by
  have e : errorCov P R C K - errorCov P' R' C K = (1 - K * C) * (P - P') * (1 - K * C)ᵀ + K * (R - R') * Kᵀ := by
    unfold errorCov
    simp only [Matrix.mul_sub, Matrix.sub_mul]
    abel
  rw [e]
  exact (psd_conj hP _).add (psd_conj hR _)

omit [LinearOrder o] in
/-- The best estimate is no less certain if more is measured, with less noise, from a more certain state. -/
theorem best_mono {y y' : MaskedRow o} {P P' Pc Pc' : Matrix (Fin nx) (Fin nx) ℝ} {R R' : Matrix o o ℝ} {C : Matrix o (Fin nx) ℝ} (hy : Fewer y y')
    (hP : (P - P').PosSemidef) (hR : (R - R').PosSemidef) (h : IsBest y P R C Pc) (h' : IsBest y' P' R' C Pc') : (Pc - Pc').PosSemidef := by
  obtain ⟨K, hK, rfl⟩ := h.2
  have h1 := h'.1 K fun i j hj => hK i j (hy j hj)
  have h2 := errorCov_mono hP hR C K
  have := h2.add h1
  rwa [sub_add_sub_cancel] at this

omit [LinearOrder o] in
theorem best_unique {y : MaskedRow o} {P₀ P P' : Matrix (Fin nx) (Fin nx) ℝ} {R : Matrix o o ℝ} {C : Matrix o (Fin nx) ℝ} (h : IsBest y P₀ R C P)
    (h' : IsBest y P₀ R C P') : (P - P').PosSemidef ∧ (P' - P).PosSemidef := by
  obtain ⟨K, hK, e⟩ := h.2
  obtain ⟨K', hK', e'⟩ := h'.2
  exact ⟨by rw [e]; exact h'.1 K hK, by rw [e']; exact h.1 K' hK'⟩

/-- Matrices that are each no larger than the other are equal. -/
theorem psd_antisymm {P P' : Matrix (Fin nx) (Fin nx) ℝ} (h : (P - P').PosSemidef) (h' : (P' - P).PosSemidef) : P = P' := by
  have hz : ∀ v : Fin nx → ℝ, v ⬝ᵥ (P - P') *ᵥ v = 0 := fun v => by
    have h1 := h.dotProduct_mulVec_nonneg v
    have h2 := h'.dotProduct_mulVec_nonneg v
    rw [← neg_sub P P', neg_mulVec, dotProduct_neg] at h2
    simp only [star_trivial] at h1 h2
    linarith
  refine sub_eq_zero.1 ?_
  ext i j
  have h3 := hz (Pi.single i 1)
  have h4 := hz (Pi.single j 1)
  have h5 := hz (Pi.single i 1 + Pi.single j 1)
  have hs : (P - P') j i = (P - P') i j := congrFun (congrFun (psd_symm h) i) j
  simp only [mulVec_add, add_dotProduct, dotProduct_add, single_one_dotProduct, mulVec_single_one, col_apply] at h3 h4 h5
  rw [Matrix.zero_apply]
  linarith

end Ceacoest
