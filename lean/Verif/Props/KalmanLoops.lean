import Verif.Lemmas.KalmanCore
import Verif.Lemmas.KalmanDemo
import Mathlib.LinearAlgebra.Matrix.Notation
import Mathlib.Tactic.NormNum

/-! # C39, C40: the loops of the filters -/

namespace Ceacoest
open Matrix Spec
variable {nx : Nat} {Y p σ o : Type} (F : FilterClass nx Y p σ)

/-- **C39.** `filter` corrects with every sample in turn, predicts between any two, and returns the corrected moments, one for each sample;
this for any class of filters. -/
theorem C39_filter (y : List Y) (s : σ) :
    F.filter y s = schedule F.correct F.predict y s ∧ ∀ ms s', F.filter y s = .ok (ms, s') → ms.length = y.length := by
  exact ⟨filter_eq F y s, fun ms s' h => schedule_length ((filter_eq F y s) ▸ h)⟩

/-- **C39** (rows). `y[k]` is the row at `k`; past the last one it raises IndexError. -/
theorem C39_rows (y : List Y) (k : Nat) : (∀ r, FilterClass.row y k = .ok r ↔ y[k]? = some r) ∧ (y.length ≤ k → FilterClass.row y k = .error .indexError) := by
  unfold FilterClass.row
  refine ⟨fun r => ?_, fun h => by rw [List.getElem?_eq_none h]⟩
  cases y[k]? <;> simp

/-- Filtering a concatenation is filtering the first part, predicting, and filtering the second part. -/
theorem C39_split (y z : List Y) (hy : y ≠ []) (hz : z ≠ []) (s : σ) : F.filter (y ++ z) s = (do
    let (ms, s) ← F.filter y s
    let (_, s) ← F.predict s
    let (ms', s) ← F.filter z s
    return (ms ++ ms', s)) := by
  simp only [filter_eq]
  exact schedule_append F.correct F.predict y z hy hz s

variable [Fintype o] [LinearOrder o]

/-- The time index of the extended filter advances by one less than the number of samples (and not at all without samples). -/
theorem C39_index_ekf (model : KModel nx o p) (y : List (MaskedRow o)) (s s' : EKF nx o p) (ms : List (Moments nx))
    (h : (EKF.cls model).filter y s = .ok (ms, s')) : s'.k = s.k + ((y.length - 1 : ℕ) : ℤ) := by
  rw [filter_eq] at h
  refine (schedule_count (fun s : EKF nx o p => s.k) (fun y s m s' hc => ?_) (fun s m s' hp => ?_) h).1
  · rcases ekf_correct_cases hc with ⟨-, -, rfl⟩ | ⟨-, d, -, rfl⟩ <;> rfl
  · have hp : EKF.predict model s = .ok (m, s') := hp
    rw [ekf_predict_eq] at hp
    cases hp
    rfl

/-- The same for the unscented filter. -/
theorem C39_index_ukf (put cut : UT nx) (model : KModel nx o p) (y : List (MaskedRow o)) (s s' : UKF nx cut.nsigma put.nsigma o p)
    (ms : List (Moments nx)) (h : (UKF.cls put cut model).filter y s = .ok (ms, s')) : s'.k = s.k + ((y.length - 1 : ℕ) : ℤ) := by
  rw [filter_eq] at h
  refine (schedule_count (fun s : UKF nx cut.nsigma put.nsigma o p => s.k) (fun y s m s' hc => ?_) (fun s m s' hp => ?_) h).1
  · rcases ukf_correct_cases hc with ⟨-, -, rfl⟩ | ⟨-, d, -, rfl⟩ <;> rfl
  · obtain ⟨d, -, -, rfl⟩ := ukf_predict_cases hp
    rfl

/-- **C40.** A `smooth` that returns has filtered as `filter` does and leaves the filter in the same state; its last sample is the filtered
one; and sample `k` comes from the filtered one by the backward recursion, from the moments `prs[k]` that were predicted for sample
`k + 1`, with their cross covariance. -/
theorem C40_smooth (y : List Y) (s s' : σ) (sm : List (Moments nx)) (h : F.smooth y s = .ok (sm, s')) :
    ∃ ms prs, F.filter y s = .ok (ms, s') ∧ scheduleWith F.correct F.predict F.predictionCrosscov y s = .ok (ms, prs, s') ∧
      ms.length = y.length ∧ prs.length = y.length - 1 ∧ sm.length = y.length ∧ y ≠ [] ∧
      sm[y.length - 1]? = ms[y.length - 1]? ∧ ∀ k, k + 1 < y.length → ∃ mk pr sm' smk, ms[k]? = some mk ∧ prs[k]? = some pr ∧
        sm[k + 1]? = some sm' ∧ sm[k]? = some smk ∧ SmoothStep mk pr.1 pr.2 sm' smk := by
  obtain ⟨ms, prs, h1, h2, h3, h4, h5⟩ := smooth_ok F h
  obtain ⟨g1, g2, g3⟩ := scheduleWith_schedule h1
  exact ⟨ms, prs, by rw [filter_eq]; exact g1, h1, g2, g3, h3, h2, h4, h5⟩

/-- Without samples it raises; with samples, it returns if the forward pass does and the predicted covariances are invertible. -/
theorem C40_returns (s : σ) : F.smooth [] s = .error .valueError ∧
    ∀ y ms prs s', y ≠ [] → scheduleWith F.correct F.predict F.predictionCrosscov y s = .ok (ms, prs, s') →
      (∀ pr ∈ prs, pr.1.2.det ≠ 0) → ∃ sm, F.smooth y s = .ok (sm, s') :=
  ⟨rfl, fun _ _ _ _ hy h hd => smooth_of F hy h hd⟩

/-- The cross covariance that `smooth` uses: of the state before and after the prediction, as linearised, … -/
theorem C40_cross_ekf (model : KModel nx o p) (s s' : EKF nx o p) (m : Moments nx) (h : (EKF.cls model).predict s = .ok (m, s')) :
    (EKF.cls model).predictionCrosscov s' = .ok (s.Px * of (model.df_dx s.k s.x)) := by
  have h : EKF.predict model s = .ok (m, s') := h
  rw [ekf_predict_eq] at h
  cases h
  rfl

/-- … or of the sigma points and their images. -/
theorem C40_cross_ukf (put cut : UT nx) (kind : SqrtKind (Fin nx)) (kappa : ℝ) (hi : UT.init nx kind kappa = .ok put) (model : KModel nx o p)
    (s s' : UKF nx cut.nsigma put.nsigma o p) (m : Moments nx) (h : (UKF.cls put cut model).predict s = .ok (m, s')) :
    ∃ S idev isigma, put.sigmaPoints s.x s.Px = .ok (S, idev, isigma) ∧
      (UKF.cls put cut model).predictionCrosscov s' = .ok (wcov put.weights isigma fun k => model.f s.k (isigma k)) := by
  obtain ⟨d, hd, -, rfl⟩ := ukf_predict_cases h
  have ts := transform_spec hd
  refine ⟨d.S, d.idev, d.isigma, ?_, ?_⟩
  · unfold UT.sigmaPoints
    rw [ts.S]
    have e : d.isigma = fun k => d.idev k + s.x := by funext k j; exact ts.isigma k j
    rw [e, ts.idev]
    rfl
  · refine congrArg Except.ok ?_
    have hm : wmean put.weights d.isigma = s.x := by
      funext j
      simp only [wmean, ts.isigma, mul_add]
      rw [Finset.sum_add_distrib, ts.idev, idev_mean hi d.S j, ← Finset.sum_mul, weights_sum hi]
      ring
    have hm' : wmean put.weights (fun k => model.f s.k (d.isigma k)) = d.mean := by
      funext j
      exact (ts.mean j).symm
    ext i j
    simp only [UT.crosscov, of_apply, wcov, hm, hm']
    refine Finset.sum_congr rfl fun k _ => ?_
    rw [ts.isigma, ts.odev]
    ring

/-- The smoother of the extended filter returns, on any samples, if `Q` and `R` are positive definite. -/
theorem C40_ekf_returns (model : KModel nx o p) (hQ : ∀ k x, (model.Q k x).PosDef) (hR : model.R.PosDef) (y : List (MaskedRow o)) (hy : y ≠ [])
    (s : EKF nx o p) (hs : s.Px.PosSemidef) : ∃ sm s', (EKF.cls model).smooth y s = .ok (sm, s') ∧ sm.length = y.length := by
  obtain ⟨ms, prs, s', h1, -, h2⟩ := scheduleWith_returns (c₁ := (EKF.cls model).correct) (p₁ := (EKF.cls model).predict)
    (x₁ := (EKF.cls model).predictionCrosscov) (fun s : EKF nx o p => s.Px.PosSemidef)
    (by
      intro y s hs
      by_cases hy : ∀ j, y.mask j = true
      · exact ⟨_, _, ekf_correct_masked model hy s, hs⟩
      · have hpd : ((activeH y (model.dh_dx s.k s.x))ᵀ * (s.Px * activeH y (model.dh_dx s.k s.x)) + activeR y model.R).PosDef := by
          have h0 := psd_conj hs (activeH y (model.dh_dx s.k s.x))ᵀ
          rw [transpose_transpose, Matrix.mul_assoc] at h0
          exact PosDef.posSemidef_add h0 (activeR_pd y hR)
        obtain ⟨m, d, hd⟩ := ekf_core_of (x := s.x) (y := fun j : y.Active => y.data j.1) (h := fun j => model.h s.k s.x j.1) hpd.det_pos.ne'
        refine ⟨m, { s with x := m.1, Px := m.2, last := .data y d }, ?_, ekf_correct_psd hs (activeR_psd y hR.posSemidef) (ekf_core_ok hd)⟩
        refine (ekf_correct_active model hy s).trans ?_
        rw [hd]
        rfl)
    (fun m => m.2.PosDef)
    (fun s hs => by
      have h0 := psd_conj hs (of (model.df_dx s.k s.x))ᵀ
      rw [transpose_transpose, Matrix.mul_assoc] at h0
      exact ⟨_, _, _, ekf_predict_eq model s, (PosDef.posSemidef_add h0 (hQ _ _)).posSemidef, PosDef.posSemidef_add h0 (hQ _ _), rfl⟩) y hs
  obtain ⟨sm, h⟩ := smooth_of (EKF.cls model) hy h1 fun pr hpr => (h2 pr hpr).det_pos.ne'
  exact ⟨sm, s', h, by obtain ⟨_, _, _, _, _, _, hl, -⟩ := C40_smooth _ _ _ _ _ h; exact hl⟩

/-- Three samples of the demonstration model, one half masked and one masked: `filter` and `smooth` return, and the index advances by two. -/
example : ∃ ms sm s', (EKF.cls (Demo.model 2)).filter [Demo.both, Demo.half, Demo.none] Demo.ekf = .ok (ms, s') ∧
    (EKF.cls (Demo.model 2)).smooth [Demo.both, Demo.half, Demo.none] Demo.ekf = .ok (sm, s') ∧ ms.length = 3 ∧ sm.length = 3 ∧ s'.k = 2 := by
  obtain ⟨sm, s', h, hl⟩ := C40_ekf_returns (Demo.model 2) (fun _ _ => PosDef.one) PosDef.one [Demo.both, Demo.half, Demo.none] (by simp) Demo.ekf
    PosSemidef.one
  obtain ⟨ms, prs, h1, -, h3, -⟩ := C40_smooth _ _ _ _ _ h
  exact ⟨ms, sm, s', h1, h, h3, hl, (C39_index_ekf _ _ _ _ _ h1).trans (by simp [Demo.ekf, Demo.attrs])⟩

end Ceacoest
