import Verif.Lemmas.KalmanSmooth
import Verif.Props.KalmanLoops
import Verif.Props.KalmanSteps

/-! # C89: smoothing does not increase the covariances -/

namespace Ceacoest
open Matrix Spec
variable {nx : Nat} {o p : Type} [Fintype o] [LinearOrder o]

/-- **C89.** The extended filter, with positive semidefinite noise covariances: each smoothed covariance is positive semidefinite, and not larger than the filtered one. -/
theorem C89_ekf (model : KModel nx o p) (hQ : ∀ k x, (model.Q k x).PosSemidef) (hR : model.R.PosSemidef) (y : List (MaskedRow o)) (s s' s'' : EKF nx o p)
    (hs : s.Px.PosSemidef) (ms sm : List (Moments nx)) (hf : (EKF.cls model).filter y s = .ok (ms, s'')) (h : (EKF.cls model).smooth y s = .ok (sm, s')) :
    ms.length = y.length ∧ sm.length = y.length ∧
      ∀ (k : Nat) m mk, ms[k]? = some m → sm[k]? = some mk → mk.2.PosSemidef ∧ (m.2 - mk.2).PosSemidef ∧ ∀ i, 0 ≤ mk.2 i i ∧ mk.2 i i ≤ m.2 i i := by
  refine ⟨(C39_filter _ y s).2 _ _ hf, by obtain ⟨_, _, _, _, _, _, hl, -⟩ := C40_smooth _ _ _ _ _ h; exact hl, fun k m mk hk hk' => ?_⟩
  have hc := fun (y : MaskedRow o) s m s' (hs : ((EKF.cls model).attrs s).Px.PosSemidef) (hc : (EKF.cls model).correct y s = .ok (m, s')) =>
    show ((EKF.cls model).attrs s').Px = m.2 ∧ m.2.PosSemidef ∧ (((EKF.cls model).attrs s).Px - m.2).PosSemidef by
      obtain ⟨h1, h2, -⟩ := C37_ekf model hR y s s' hs m hc
      refine ⟨h2, ?_, h1⟩
      rw [← h2]
      exact C36_ekf model hQ hR [some y] s s' hs (by simp only [history, hc, py_bind_ok])
  have hp := fun s pr s' c (hs : ((EKF.cls model).attrs s).Px.PosSemidef) (hp : (EKF.cls model).predict s = .ok (pr, s')) (hx : (EKF.cls model).predictionCrosscov s' = .ok c) =>
    show ((EKF.cls model).attrs s').Px = pr.2 ∧ pr.2.PosSemidef ∧ (pr.2.det ≠ 0 → (unexplained ((EKF.cls model).attrs s).Px pr.2 c).PosSemidef) by
      have hx' := C40_cross_ekf model s s' pr hp
      obtain rfl := Except.ok.inj (hx'.symm.trans hx)
      have hp : EKF.predict model s = .ok (pr, s') := hp
      rw [ekf_predict_eq] at hp
      cases hp
      refine ⟨rfl, ekf_psd hs (hQ _ _), fun hd => ?_⟩
      exact unexplained_psd (ekf_psd hs (hQ _ _)) hd (hQ _ _) fun K => ekf_joseph hs K
  obtain ⟨a, b⟩ := smooth_psd (EKF.cls model) hc hp hs hf h k m mk hk hk'
  exact ⟨a, b, fun i => ⟨a.diag_nonneg, sub_nonneg.1 b.diag_nonneg⟩⟩

/-- **C89.** The unscented filter, with positive semidefinite noise covariances, when `kappa` is not negative in its transforms and their square roots are what they should be. -/
theorem C89_ukf (put cut : UT nx) (kind kind' : SqrtKind (Fin nx)) (kappa kappa' : ℝ) (hput : UT.init nx kind kappa = .ok put)
    (hcut : UT.init nx kind' kappa' = .ok cut) (hk : 0 ≤ kappa) (hk' : 0 ≤ kappa') (hroot : RootOK kind) (hroot' : RootOK kind') (model : KModel nx o p)
    (hQ : ∀ k x, (model.Q k x).PosSemidef) (hR : model.R.PosSemidef) (y : List (MaskedRow o)) (s s' s'' : UKF nx cut.nsigma put.nsigma o p)
    (hs : s.Px.PosSemidef) (ms sm : List (Moments nx)) (hf : (UKF.cls put cut model).filter y s = .ok (ms, s''))
    (h : (UKF.cls put cut model).smooth y s = .ok (sm, s')) :
    ms.length = y.length ∧ sm.length = y.length ∧
      ∀ (k : Nat) m mk, ms[k]? = some m → sm[k]? = some mk → mk.2.PosSemidef ∧ (m.2 - mk.2).PosSemidef ∧ ∀ i, 0 ≤ mk.2 i i ∧ mk.2 i i ≤ m.2 i i := by
  refine ⟨(C39_filter _ y s).2 _ _ hf, by obtain ⟨_, _, _, _, _, _, hl, -⟩ := C40_smooth _ _ _ _ _ h; exact hl, fun k m mk hk1 hk2 => ?_⟩
  have hc := fun (y : MaskedRow o) s m s' (hs : ((UKF.cls put cut model).attrs s).Px.PosSemidef) (hc : (UKF.cls put cut model).correct y s = .ok (m, s')) =>
    show ((UKF.cls put cut model).attrs s').Px = m.2 ∧ m.2.PosSemidef ∧ (((UKF.cls put cut model).attrs s).Px - m.2).PosSemidef by
      obtain ⟨h1, h2, -⟩ := C37_ukf cut model (psd_symm hR) y s s' m hc
      refine ⟨h2, ?_, h1⟩
      rw [← h2]
      exact C36_ukf put cut kind kind' kappa kappa' hput hcut hk hk' hroot' model hQ hR [some y] s s' hs (by simp only [history, hc, py_bind_ok])
  have hp := fun s pr s' c (hs : ((UKF.cls put cut model).attrs s).Px.PosSemidef) (hp : (UKF.cls put cut model).predict s = .ok (pr, s')) (hx : (UKF.cls put cut model).predictionCrosscov s' = .ok c) =>
    show ((UKF.cls put cut model).attrs s').Px = pr.2 ∧ pr.2.PosSemidef ∧ (pr.2.det ≠ 0 → (unexplained ((UKF.cls put cut model).attrs s).Px pr.2 c).PosSemidef) by
      obtain ⟨d, hd, rfl, rfl⟩ := ukf_predict_cases hp
      obtain rfl : put.crosscov d = c := Except.ok.inj hx
      have hPo := ukf_Po_psd hput hk hd
      refine ⟨rfl, hPo.add (hQ _ _), fun hdet => ?_⟩
      exact unexplained_psd (hPo.add (hQ _ _)) hdet (hQ _ _) fun K => ukf_joseph hput hk hd (transform_exact hput (by positivity) hroot hs hd) K
  obtain ⟨a, b⟩ := smooth_psd (UKF.cls put cut model) hc hp hs hf h k m mk hk1 hk2
  exact ⟨a, b, fun i => ⟨a.diag_nonneg, sub_nonneg.1 b.diag_nonneg⟩⟩

/-- Three samples of the demonstration model: the smoothed variances are between zero and the filtered ones. -/
example : ∃ ms sm s', (EKF.cls (Demo.model 2)).filter [Demo.both, Demo.half, Demo.none] Demo.ekf = .ok (ms, s') ∧
    (EKF.cls (Demo.model 2)).smooth [Demo.both, Demo.half, Demo.none] Demo.ekf = .ok (sm, s') ∧ ms.length = 3 ∧ sm.length = 3 ∧
    ∀ (k : Nat) m mk, ms[k]? = some m → sm[k]? = some mk → mk.2.PosSemidef ∧ (m.2 - mk.2).PosSemidef ∧ ∀ i, 0 ≤ mk.2 i i ∧ mk.2 i i ≤ m.2 i i := by
  obtain ⟨sm, s', h, hl⟩ := C40_ekf_returns (Demo.model 2) (fun _ _ => PosDef.one) PosDef.one [Demo.both, Demo.half, Demo.none] (by simp) Demo.ekf
    PosSemidef.one
  obtain ⟨ms, prs, h1, -⟩ := C40_smooth _ _ _ _ _ h
  exact ⟨ms, sm, s', h1, h, C89_ekf (Demo.model 2) (fun _ _ => PosSemidef.one) PosSemidef.one _ _ s' s' PosSemidef.one ms sm h1 h⟩

end Ceacoest
