import Verif.Lemmas.KalmanCore
import Verif.Lemmas.KalmanDemo

/-! # C34, C36, C37: corrections and predictions -/

namespace Ceacoest
open Matrix Spec
variable {nx : Nat} {o p : Type} [Fintype o] [LinearOrder o]

/-! ### C34: every output masked -/

/-- **C34.** With every entry masked, the extended filter returns and keeps its mean, its covariance and every other attribute, … -/
theorem C34_ekf (model : KModel nx o p) (y : MaskedRow o) (hy : ∀ j, y.mask j = true) (s : EKF nx o p) :
    ∃ s', EKF.correct model y s = .ok ((s.x, s.Px), s') ∧ s'.toFilterAttrs = s.toFilterAttrs ∧ s'.Pxf = s.Pxf ∧
      EKF.correctionDiff s' = .ok s' ∧ EKF.correctionDiff2 s' = .ok s' ∧ EKF.updateLikelihood s' = .ok s' ∧
      EKF.likelihoodDiff s' = .ok s' ∧ EKF.likelihoodDiff2 s' = .ok s' :=
  ⟨_, ekf_correct_masked model hy s, rfl, rfl, rfl, rfl, rfl, rfl, rfl⟩

/-- … and so does the unscented one; the likelihood and derivative updates after it change nothing. -/
theorem C34_ukf {ns' : Nat} (cut : UT nx) (model : KModel nx o p) (y : MaskedRow o) (hy : ∀ j, y.mask j = true) (s : UKF nx cut.nsigma ns' o p) :
    ∃ s', UKF.correct cut model y s = .ok ((s.x, s.Px), s') ∧ s'.toFilterAttrs = s.toFilterAttrs ∧ s'.pred = s.pred ∧
      UKF.correctionDiff cut model s' = .ok s' ∧ UKF.correctionDiff2 cut model s' = .ok s' ∧ UKF.updateLikelihood s' = .ok s' ∧
      UKF.likelihoodDiff s' = .ok s' ∧ UKF.likelihoodDiff2 s' = .ok s' :=
  ⟨_, ukf_correct_masked model hy s, rfl, rfl, rfl, rfl, rfl, rfl, rfl⟩

example : ∃ s', EKF.correct (Demo.model 2) Demo.none Demo.ekf = .ok ((fun _ => 1, 1), s') :=
  let ⟨s', h, _⟩ := C34_ekf (Demo.model 2) Demo.none Demo.none_masked Demo.ekf
  ⟨s', h⟩

/-! ### C36: positive semidefinite covariances -/

/-- **C36.** For the extended filter, with positive semidefinite noise covariances: whatever calls are made that do not raise, the covariance
remains positive semidefinite. -/
theorem C36_ekf (model : KModel nx o p) (hQ : ∀ k x, (model.Q k x).PosSemidef) (hR : model.R.PosSemidef) (cs : List (Option (MaskedRow o)))
    (s s' : EKF nx o p) (hs : s.Px.PosSemidef) (h : history (EKF.cls model).correct (EKF.cls model).predict cs s = .ok s') : s'.Px.PosSemidef := by
  refine history_inv (fun s : EKF nx o p => s.Px.PosSemidef) (fun y s m s' hs hc => ?_) (fun s m s' hs hp => ?_) hs h
  · rcases ekf_correct_cases hc with ⟨-, -, rfl⟩ | ⟨-, d, hd, rfl⟩
    · exact hs
    · exact ekf_correct_psd hs (activeR_psd y hR) (ekf_core_ok hd)
  · have hp : EKF.predict model s = .ok (m, s') := hp
    rw [ekf_predict_eq] at hp
    cases hp
    exact ekf_psd hs (hQ _ _)

/-- With a positive definite `R` no call raises. -/
theorem C36_ekf_returns (model : KModel nx o p) (hQ : ∀ k x, (model.Q k x).PosSemidef) (hR : model.R.PosDef) (cs : List (Option (MaskedRow o)))
    (s : EKF nx o p) (hs : s.Px.PosSemidef) : ∃ s', history (EKF.cls model).correct (EKF.cls model).predict cs s = .ok s' ∧ s'.Px.PosSemidef := by
  have key : ∃ s', history (EKF.cls model).correct (EKF.cls model).predict cs s = .ok s' := by
    induction cs generalizing s with
    | nil => exact ⟨s, rfl⟩
    | cons c cs ih =>
      cases c with
      | none => exact ih _ (ekf_psd hs (hQ _ _))
      | some y =>
        by_cases hy : ∀ j, y.mask j = true
        · have e : (EKF.cls model).correct y s = _ := ekf_correct_masked model hy s
          obtain ⟨s', h'⟩ := ih { s with last := .masked } hs
          exact ⟨s', by simp only [history, e, py_bind_ok]; exact h'⟩
        · have hpd : ((activeH y (model.dh_dx s.k s.x))ᵀ * (s.Px * activeH y (model.dh_dx s.k s.x)) + activeR y model.R).PosDef := by
            have h0 := psd_conj hs (activeH y (model.dh_dx s.k s.x))ᵀ
            rw [transpose_transpose, Matrix.mul_assoc] at h0
            exact PosDef.posSemidef_add h0 (activeR_pd y hR)
          obtain ⟨m, d, hd⟩ := ekf_core_of (x := s.x) (y := fun j : y.Active => y.data j.1) (h := fun j => model.h s.k s.x j.1) hpd.det_pos.ne'
          have e : (EKF.cls model).correct y s = .ok (m, { s with x := m.1, Px := m.2, last := .data y d }) := by
            refine (ekf_correct_active model hy s).trans ?_
            rw [hd]
            rfl
          obtain ⟨s', h'⟩ := ih { s with x := m.1, Px := m.2, last := .data y d } (ekf_correct_psd hs (activeR_psd y hR.posSemidef) (ekf_core_ok hd))
          exact ⟨s', by simp only [history, e, py_bind_ok]; exact h'⟩
  obtain ⟨s', h'⟩ := key
  exact ⟨s', h', C36_ekf model hQ hR.posSemidef cs s s' hs h'⟩

/-- The same for the unscented filter, when `kappa` is not negative in its transforms and their square roots are what they should be. -/
theorem C36_ukf (put cut : UT nx) (kind kind' : SqrtKind (Fin nx)) (kappa kappa' : ℝ) (hput : UT.init nx kind kappa = .ok put)
    (hcut : UT.init nx kind' kappa' = .ok cut) (hk : 0 ≤ kappa) (hk' : 0 ≤ kappa') (hroot' : RootOK kind') (model : KModel nx o p)
    (hQ : ∀ k x, (model.Q k x).PosSemidef) (hR : model.R.PosSemidef) (cs : List (Option (MaskedRow o)))
    (s s' : UKF nx cut.nsigma put.nsigma o p) (hs : s.Px.PosSemidef)
    (h : history (UKF.cls put cut model).correct (UKF.cls put cut model).predict cs s = .ok s') : s'.Px.PosSemidef := by
  refine history_inv (fun s : UKF nx cut.nsigma put.nsigma o p => s.Px.PosSemidef) (fun y s m s' hs hc => ?_) (fun s m s' hs hp => ?_) hs h
  · rcases ukf_correct_cases hc with ⟨-, -, rfl⟩ | ⟨-, d, hd, rfl⟩
    · exact hs
    · obtain ⟨ht, hcs, -⟩ := ukf_core_ok (activeR_symm y (psd_symm hR)) hd
      exact ukf_correct_psd hcut hk' ht (transform_exact hcut (by positivity) hroot' hs ht) (activeR_psd y hR) hcs
  · obtain ⟨d, hd, rfl, rfl⟩ := ukf_predict_cases hp
    exact (ukf_Po_psd hput hk hd).add (hQ _ _)

/-- With a positive definite `R`, and covariances of which the square roots exist (positive definite ones for Cholesky factors), no call raises. -/
theorem C36_ukf_returns (put cut : UT nx) (kind kind' : SqrtKind (Fin nx)) (kappa kappa' : ℝ) (hput : UT.init nx kind kappa = .ok put)
    (hcut : UT.init nx kind' kappa' = .ok cut) (hk : 0 ≤ kappa) (hk' : 0 ≤ kappa') (model : KModel nx o p)
    (hQ : ∀ k x, RootDom kind (model.Q k x) ∧ RootDom kind' (model.Q k x)) (hR : model.R.PosDef) (cs : List (Option (MaskedRow o)))
    (s : UKF nx cut.nsigma put.nsigma o p) (hs : RootDom kind s.Px ∧ RootDom kind' s.Px) :
    ∃ s', history (UKF.cls put cut model).correct (UKF.cls put cut model).predict cs s = .ok s' ∧ RootDom kind s'.Px ∧ RootDom kind' s'.Px := by
  have hpos : 0 < (nx : ℝ) + kappa := lt_of_le_of_ne (by positivity) (Ne.symm (ut_init_ok hput).1)
  have hpos' : 0 < (nx : ℝ) + kappa' := lt_of_le_of_ne (by positivity) (Ne.symm (ut_init_ok hcut).1)
  induction cs generalizing s with
  | nil => exact ⟨s, rfl, hs⟩
  | cons c cs ih =>
    cases c with
    | none =>
      obtain ⟨d, hd⟩ := transform_of hput hpos s.x (model.f s.k) hs.1
      have e : (UKF.cls put cut model).predict s = _ := ukf_predict_of s hd
      have hPo := ukf_Po_psd hput hk hd
      obtain ⟨s', h', h''⟩ := ih { s with pred := some ⟨s.x, d, none⟩, k := s.k + 1, x := d.mean, Px := d.Po + model.Q s.k s.x }
        ⟨(hQ _ _).1.psd_add hPo, (hQ _ _).2.psd_add hPo⟩
      exact ⟨s', by simp only [history, e, py_bind_ok]; exact h', h''⟩
    | some y =>
      by_cases hy : ∀ j, y.mask j = true
      · have e : (UKF.cls put cut model).correct y s = _ := ukf_correct_masked model hy s
        obtain ⟨s', h', h''⟩ := ih { s with last := .masked } hs
        exact ⟨s', by simp only [history, e, py_bind_ok]; exact h', h''⟩
      · obtain ⟨t, ht⟩ := transform_of hcut hpos' s.x (fun x (j : y.Active) => model.h s.k x j.1) hs.2
        have hPo := ukf_Po_psd hcut hk' ht
        obtain ⟨m, d, hd⟩ := ukf_core_of (p := p) (y := fun j : y.Active => y.data j.1) ht (PosDef.posSemidef_add hPo (activeR_pd y hR))
        have e : (UKF.cls put cut model).correct y s = .ok (m, { s with x := m.1, Px := m.2, last := .data y d }) := by
          refine (ukf_correct_active model hy s).trans ?_
          rw [hd]
          rfl
        obtain ⟨ht', hcs, -⟩ := ukf_core_ok (activeR_symm y (psd_symm hR.posSemidef)) hd
        have hex := transform_exact hcut hpos'.le hs.2.root hs.2.psd ht'
        have hpsd := ukf_correct_psd hcut hk' ht' hex (activeR_psd y hR.posSemidef) hcs
        have hpd : s.Px.PosDef → m.2.PosDef := fun h => ukf_correct_pd hcut hk' ht' hex h (activeR_pd y hR) hcs
        obtain ⟨s', h', h''⟩ := ih { s with x := m.1, Px := m.2, last := .data y d } ⟨hs.1.keep hpsd hpd, hs.2.keep hpsd hpd⟩
        exact ⟨s', by simp only [history, e, py_bind_ok]; exact h', h''⟩

example : ∃ s', history (EKF.cls (Demo.model 2)).correct (EKF.cls (Demo.model 2)).predict [some Demo.half, none, none, some Demo.both] Demo.ekf = .ok s' ∧
    s'.Px.PosSemidef :=
  C36_ekf_returns (Demo.model 2) (fun _ _ => PosSemidef.one) PosDef.one _ _ PosSemidef.one

example : ∃ put s', UT.init 1 .cholesky (1 : ℝ) = .ok put ∧
    history (UKF.cls put put (Demo.model 2)).correct (UKF.cls put put (Demo.model 2)).predict [some Demo.half, none, none, some Demo.both]
      (Demo.ukf put.nsigma put.nsigma) = .ok s' ∧ s'.Px.PosDef := by
  obtain ⟨put, h⟩ := Demo.exists_ut
  obtain ⟨s', h1, h2, -⟩ := C36_ukf_returns put put .cholesky .cholesky 1 1 h h zero_le_one zero_le_one (Demo.model 2)
    (fun _ _ => ⟨PosDef.one, PosDef.one⟩) PosDef.one [some Demo.half, none, none, some Demo.both] (Demo.ukf put.nsigma put.nsigma) ⟨PosDef.one, PosDef.one⟩
  exact ⟨put, s', h, h1, h2⟩

/-! ### C37: corrections do not increase the covariance -/

/-- **C37.** For the extended filter. -/
theorem C37_ekf (model : KModel nx o p) (hR : model.R.PosSemidef) (y : MaskedRow o) (s s' : EKF nx o p) (hs : s.Px.PosSemidef) (m : Moments nx)
    (h : EKF.correct model y s = .ok (m, s')) : (s.Px - m.2).PosSemidef ∧ s'.Px = m.2 ∧ s'.x = m.1 := by
  rcases ekf_correct_cases h with ⟨-, rfl, rfl⟩ | ⟨-, d, hd, rfl⟩
  · exact ⟨by simpa using PosSemidef.zero, rfl, rfl⟩
  · refine ⟨?_, rfl, rfl⟩
    rw [(ekf_core_ok hd).cov, sub_sub_cancel]
    exact psd_conj (ekf_psd hs (activeR_psd y hR)) _

/-- For the unscented filter, it is enough that `R` is symmetric: a correction that returns has found a positive definite innovation covariance. -/
theorem C37_ukf {ns' : Nat} (cut : UT nx) (model : KModel nx o p) (hR : model.Rᵀ = model.R) (y : MaskedRow o) (s s' : UKF nx cut.nsigma ns' o p)
    (m : Moments nx) (h : UKF.correct cut model y s = .ok (m, s')) : (s.Px - m.2).PosSemidef ∧ s'.Px = m.2 ∧ s'.x = m.1 := by
  rcases ukf_correct_cases h with ⟨-, rfl, rfl⟩ | ⟨-, d, hd, rfl⟩
  · exact ⟨by simpa using PosSemidef.zero, rfl, rfl⟩
  · refine ⟨?_, rfl, rfl⟩
    obtain ⟨-, hcs, -, hch, -⟩ := ukf_core_ok (activeR_symm y hR) hd
    rw [hcs.cov, sub_sub_cancel]
    exact psd_conj hch.posDef.posSemidef _

example : ∃ m s', EKF.correct (Demo.model 2) Demo.half Demo.ekf = .ok (m, s') ∧ (Demo.ekf.Px - m.2).PosSemidef := by
  obtain ⟨s', h, -⟩ := C36_ekf_returns (Demo.model 2) (fun _ _ => PosSemidef.one) PosDef.one [some Demo.half] Demo.ekf PosSemidef.one
  obtain ⟨⟨m, s''⟩, hr, -⟩ := py_bind_eq_ok h
  have hr : EKF.correct (Demo.model 2) Demo.half Demo.ekf = .ok (m, s'') := hr
  exact ⟨m, s'', hr, (C37_ekf (Demo.model 2) PosSemidef.one Demo.half Demo.ekf s'' PosSemidef.one m hr).1⟩

example : ∃ cut m s', UT.init 1 .cholesky (1 : ℝ) = .ok cut ∧ UKF.correct cut (Demo.model 2) Demo.half (Demo.ukf cut.nsigma cut.nsigma) = .ok (m, s') ∧
    ((Demo.ukf cut.nsigma cut.nsigma).Px - m.2).PosSemidef := by
  obtain ⟨cut, hi⟩ := Demo.exists_ut
  obtain ⟨s', h, -⟩ := C36_ukf_returns cut cut .cholesky .cholesky 1 1 hi hi zero_le_one zero_le_one (Demo.model 2)
    (fun _ _ => ⟨PosDef.one, PosDef.one⟩) PosDef.one [some Demo.half] (Demo.ukf cut.nsigma cut.nsigma) ⟨PosDef.one, PosDef.one⟩
  obtain ⟨⟨m, s''⟩, hr, -⟩ := py_bind_eq_ok h
  have hr : UKF.correct cut (Demo.model 2) Demo.half (Demo.ukf cut.nsigma cut.nsigma) = .ok (m, s'') := hr
  exact ⟨cut, m, s'', hi, hr, (C37_ukf cut (Demo.model 2) (transpose_one) Demo.half _ s'' m hr).1⟩

end Ceacoest
