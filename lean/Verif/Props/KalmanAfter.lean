import Verif.Props.KalmanSteps

/-! # C48: what the extended filter raises after a correction -/

namespace Ceacoest
open Matrix Spec
variable {nx : Nat} {o p : Type} [Fintype o] [LinearOrder o]

/-- **C48** (after corrections). After a correction with an entry that is not masked, `correction_diff` of the extended filter changes nothing, and the second derivatives, the likelihood and its derivatives
raise AttributeError; so do all five before any correction. -/
theorem C48_ekf_after (model : KModel nx o p) (y : MaskedRow o) (hy : ∃ j, y.mask j = false) {s s' : EKF nx o p} {m : Moments nx} (h : EKF.correct model y s = .ok (m, s')) :
    EKF.correctionDiff s' = .ok s' ∧ EKF.correctionDiff2 s' = .error .attributeError ∧ EKF.updateLikelihood s' = .error .attributeError ∧
      EKF.likelihoodDiff s' = .error .attributeError ∧ EKF.likelihoodDiff2 s' = .error .attributeError := by
  rcases ekf_correct_cases h with ⟨hm, -⟩ | ⟨-, d, -, rfl⟩
  · obtain ⟨j, hj⟩ := hy
    rw [hm j] at hj
    cases hj
  · exact ⟨rfl, rfl, rfl, rfl, rfl⟩

theorem C48_ekf_before (s : EKF nx o p) (h : s.last = .never) :
    EKF.correctionDiff s = .error .attributeError ∧ EKF.correctionDiff2 s = .error .attributeError ∧ EKF.updateLikelihood s = .error .attributeError ∧
      EKF.likelihoodDiff s = .error .attributeError ∧ EKF.likelihoodDiff2 s = .error .attributeError := by
  simp only [EKF.correctionDiff, EKF.correctionDiff2, EKF.updateLikelihood, EKF.likelihoodDiff, EKF.likelihoodDiff2, h, and_self]

/-- The demonstration model with one of the outputs measured. -/
example : ∃ m s', EKF.correct (Demo.model 2) Demo.half Demo.ekf = .ok (m, s') ∧ EKF.correctionDiff2 s' = .error .attributeError := by
  obtain ⟨s', h, -⟩ := C36_ekf_returns (Demo.model 2) (fun _ _ => PosSemidef.one) PosDef.one [some Demo.half] Demo.ekf PosSemidef.one
  obtain ⟨⟨m, s1⟩, hr, h⟩ := py_bind_eq_ok h
  have hr : EKF.correct (Demo.model 2) Demo.half Demo.ekf = .ok (m, s1) := hr
  exact ⟨m, s1, hr, (C48_ekf_after (Demo.model 2) Demo.half (by unfold Demo.half; decide) hr).2.1⟩

end Ceacoest
