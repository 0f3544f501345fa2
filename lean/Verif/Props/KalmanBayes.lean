import Verif.Lemmas.KalmanBayes
import Verif.Props.KalmanSteps

/-! # C38: the correction of the extended filter is the linear-Gaussian posterior -/

namespace Ceacoest
open Matrix Spec
variable {nx : Nat} {o p : Type} [Fintype o] [LinearOrder o]

/-- Minus twice the logarithm of the posterior density of the state `z`, up to a constant, when the prior has mean `x` and covariance `P` and
the measurement is `h + Hᵀ (z - x)` with noise of covariance `R`. -/
noncomputable def posteriorCost {a : Type} [Fintype a] [DecidableEq a] (x : Fin nx → ℝ) (P : Matrix (Fin nx) (Fin nx) ℝ) (y h : a → ℝ)
    (H : Matrix (Fin nx) a ℝ) (R : Matrix a a ℝ) (z : Fin nx → ℝ) : ℝ :=
  (z - x) ⬝ᵥ P⁻¹ *ᵥ (z - x) + (y - (h + Hᵀ *ᵥ (z - x))) ⬝ᵥ R⁻¹ *ᵥ (y - (h + Hᵀ *ᵥ (z - x)))

/-- **C38.** With positive definite `Px` and `R`, the correction returns, on whatever entries are not masked; the inverse of the new covariance is
`Px⁻¹ + H R⁻¹ Hᵀ`; and the new mean is the only minimiser of the cost. -/
theorem C38_posterior (model : KModel nx o p) (hR : model.R.PosDef) (y : MaskedRow o) (s : EKF nx o p) (hP : s.Px.PosDef) :
    ∃ m s', EKF.correct model y s = .ok (m, s') ∧ s'.x = m.1 ∧ s'.Px = m.2 ∧ m.2.PosDef ∧
      (m.2)⁻¹ = s.Px⁻¹ + activeH y (model.dh_dx s.k s.x) * (activeR y model.R)⁻¹ * (activeH y (model.dh_dx s.k s.x))ᵀ ∧
      ∀ z, z ≠ m.1 →
        posteriorCost s.x s.Px (fun j : y.Active => y.data j.1) (fun j => model.h s.k s.x j.1) (activeH y (model.dh_dx s.k s.x)) (activeR y model.R) m.1 <
        posteriorCost s.x s.Px (fun j : y.Active => y.data j.1) (fun j => model.h s.k s.x j.1) (activeH y (model.dh_dx s.k s.x)) (activeR y model.R) z := by
  have hRa := activeR_pd y hR
  set H := activeH y (model.dh_dx s.k s.x)
  set R := activeR y model.R
  set yy : y.Active → ℝ := fun j => y.data j.1
  set hh : y.Active → ℝ := fun j => model.h s.k s.x j.1
  have hpd := info_pd (H := H) hP hRa
  have hmin : ∀ u, (s.Px⁻¹ + H * R⁻¹ * Hᵀ) *ᵥ (u - s.x) = (H * R⁻¹) *ᵥ (yy - hh) → ∀ z, z ≠ u →
      posteriorCost s.x s.Px yy hh H R u < posteriorCost s.x s.Px yy hh H R z := by
    intro u hu z hz
    unfold posteriorCost
    simp only [← sub_sub]
    rw [cost_eq hP hRa (yy - hh) (u - s.x) (z - s.x) hu]
    have := hpd.dotProduct_mulVec_pos (x := z - s.x - (u - s.x)) (by rw [sub_sub_sub_cancel_right]; exact sub_ne_zero.2 hz)
    rw [star_trivial] at this
    linarith
  by_cases hy : ∀ j, y.mask j = true
  · have hempty : IsEmpty y.Active := ⟨fun j => by have := hy j.1; rw [j.2] at this; cases this⟩
    have h0 : H * R⁻¹ * Hᵀ = 0 := by
      ext i j
      rw [mul_apply]
      simp
    refine ⟨_, _, ekf_correct_masked model hy s, rfl, rfl, hP, by rw [h0, add_zero], hmin s.x ?_⟩
    have e : yy - hh = 0 := funext fun j => hempty.elim j
    rw [sub_self, e, mulVec_zero, mulVec_zero]
  · have hS : (Hᵀ * (s.Px * H) + R).PosDef := by
      have h0 := psd_conj hP.posSemidef Hᵀ
      rw [transpose_transpose, Matrix.mul_assoc] at h0
      exact PosDef.posSemidef_add h0 hRa
    obtain ⟨m, d, hd⟩ := ekf_core_of (x := s.x) (y := yy) (h := hh) hS.det_pos.ne'
    have hc := ekf_core_ok hd
    refine ⟨m, { s with x := m.1, Px := m.2, last := .data y d }, ?_, rfl, rfl, ekf_correct_pd hP hRa hc, ?_, hmin m.1 ?_⟩
    · refine (ekf_correct_active model hy s).trans ?_
      rw [hd]
      rfl
    · rw [hc.cov]
      exact inv_eq_left_inv (info_cov hP hRa rfl (pd_unit hS))
    · rw [hc.mean, add_sub_cancel_left, mulVec_mulVec]
      exact congrArg (fun M => M *ᵥ (yy - hh)) (info_gain hP hRa rfl (pd_unit hS))

example : ∃ m s', EKF.correct (Demo.model 2) Demo.half Demo.ekf = .ok (m, s') ∧ m.2.PosDef :=
  let ⟨m, s', h, _, _, hpd, _⟩ := C38_posterior (Demo.model 2) PosDef.one Demo.half Demo.ekf PosDef.one
  ⟨m, s', h, hpd⟩

end Ceacoest
