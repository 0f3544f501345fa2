import Verif.Props.UT
import Verif.Props.KalmanSteps
import Verif.Props.KalmanLoops
import Verif.Lemmas.KalmanDemo

/-! # C43: on affine models the unscented and the extended filter coincide -/

namespace Ceacoest
open Matrix Spec
variable {nx : Nat} {o p : Type} [Fintype o] [LinearOrder o]

theorem affine_transform {ut : UT nx} {kind : SqrtKind (Fin nx)} {kappa : ℝ} (hi : UT.init nx kind kappa = .ok ut) (hk : 0 ≤ (nx : ℝ) + kappa)
    (hr : RootOK kind) {o : Type} [Fintype o] {x : Fin nx → ℝ} {P : Matrix (Fin nx) (Fin nx) ℝ} {f : (Fin nx → ℝ) → o → ℝ} {A : Matrix o (Fin nx) ℝ} {b : o → ℝ}
    (hf : f = fun x => A *ᵥ x + b) {d : UTData ut.nsigma (Fin nx) o} (hP : P.PosSemidef) (h : ut.transform x P f = .ok d) :
    d.mean = A *ᵥ x + b ∧ d.Po = A * P * Aᵀ ∧ ut.crosscov d = P * Aᵀ := by
  have hS := (transform_spec h).S
  rw [(ut_init_ok hi).2.1] at hS
  obtain ⟨d', hd', h1⟩ := C42_affine hi x P d.S hS (transform_exact hi hk hr hP h) A b
  rw [hf, hd'] at h
  cases h
  exact h1

section
variable {M : KModel nx o p} {A : ℤ → Matrix (Fin nx) (Fin nx) ℝ} {b : ℤ → Fin nx → ℝ} {C : ℤ → Matrix o (Fin nx) ℝ} {c : ℤ → o → ℝ}
variable {put cut : UT nx} {kind kind' : SqrtKind (Fin nx)} {kappa kappa' : ℝ}

/-- **C43.** If a prediction of the unscented filter returns, the extended one, at the same moments, returns the same moments, … -/
theorem C43_predict (hM : AffineModel M A b C c) (hput : UT.init nx kind kappa = .ok put) (hk : 0 < (nx : ℝ) + kappa) (hr : RootOK kind)
    (s : UKF nx cut.nsigma put.nsigma o p) (t : EKF nx o p) (hst : s.toFilterAttrs = t.toFilterAttrs) (hP : s.Px.PosSemidef)
    (m : Moments nx) (s' : UKF nx cut.nsigma put.nsigma o p) (h : UKF.predict put M s = .ok (m, s')) :
    ∃ t', EKF.predict M t = .ok (m, t') ∧ s'.toFilterAttrs = t'.toFilterAttrs ∧ UKF.predictionCrosscov put s' = EKF.predictionCrosscov t' ∧
      ∃ c, EKF.predictionCrosscov t' = .ok c := by
  obtain ⟨att, pxf, last⟩ := t
  cases hst
  obtain ⟨d, hd, rfl, rfl⟩ := ukf_predict_cases h
  obtain ⟨h1, h2, h3⟩ := affine_transform hput hk.le hr (f := M.f s.k) (funext fun x => hM.f s.k x) hP hd
  have hF : (of (M.df_dx s.k s.x) : Matrix (Fin nx) (Fin nx) ℝ) = (A s.k)ᵀ := by
    ext i j
    exact hM.df_dx s.k s.x i j
  have e1 : d.mean = M.f s.k s.x := by rw [h1, hM.f]
  have e2 : d.Po = (of (M.df_dx s.k s.x))ᵀ * (s.Px * of (M.df_dx s.k s.x)) := by rw [h2, hF, transpose_transpose, Matrix.mul_assoc]
  have e3 : put.crosscov d = s.Px * of (M.df_dx s.k s.x) := by rw [h3, hF]
  have hx : UKF.predictionCrosscov put { s with pred := some ⟨s.x, d, none⟩, k := s.k + 1, x := d.mean, Px := d.Po + M.Q s.k s.x } =
      .ok (s.Px * of (M.df_dx s.k s.x)) := congrArg Except.ok e3
  rw [e1, e2] at hx ⊢
  exact ⟨_, ekf_predict_eq M _, rfl, hx, _, rfl⟩

/-- … and so for corrections. -/
theorem C43_correct {ns' : Nat} (hM : AffineModel M A b C c) (hcut : UT.init nx kind' kappa' = .ok cut) (hk : 0 < (nx : ℝ) + kappa') (hr : RootOK kind')
    (hR : M.Rᵀ = M.R) (y : MaskedRow o) (s : UKF nx cut.nsigma ns' o p) (t : EKF nx o p) (hst : s.toFilterAttrs = t.toFilterAttrs)
    (hP : s.Px.PosSemidef) (m : Moments nx) (s' : UKF nx cut.nsigma ns' o p) (h : UKF.correct cut M y s = .ok (m, s')) :
    ∃ t', EKF.correct M y t = .ok (m, t') ∧ s'.toFilterAttrs = t'.toFilterAttrs := by
  obtain ⟨att, pxf, last⟩ := t
  cases hst
  rcases ukf_correct_cases h with ⟨hy, rfl, rfl⟩ | ⟨hy, d, hd, rfl⟩
  · exact ⟨_, ekf_correct_masked M hy _, rfl⟩
  · obtain ⟨ht, hcs, -⟩ := ukf_core_ok (activeR_symm y hR) hd
    let Ca : Matrix y.Active (Fin nx) ℝ := of fun j i => C s.k j.1 i
    obtain ⟨h1, h2, h3⟩ := affine_transform hcut hk.le hr (A := Ca) (b := fun j => c s.k j.1)
      (funext fun x => funext fun j => congrFun (hM.h s.k x) j.1) hP ht
    have hH : activeH y (M.dh_dx s.k s.x) = Caᵀ := by
      ext i j
      exact hM.dh_dx s.k s.x i j.1
    have e1 : d.ut.mean = fun j : y.Active => M.h s.k s.x j.1 := by
      rw [h1]
      funext j
      exact (congrFun (hM.h s.k s.x) j.1).symm
    have e2 : d.ut.Po = (activeH y (M.dh_dx s.k s.x))ᵀ * (s.Px * activeH y (M.dh_dx s.k s.x)) := by
      rw [h2, hH, transpose_transpose, Matrix.mul_assoc]
    have e3 : cut.crosscov d.ut = s.Px * activeH y (M.dh_dx s.k s.x) := by rw [h3, hH]
    rw [e1, e2, e3] at hcs
    obtain ⟨m', d', hd'⟩ := ekf_core_of (x := s.x) (y := fun j : y.Active => y.data j.1) (h := fun j => M.h s.k s.x j.1) hcs.det
    have hcs' := ekf_core_ok hd'
    obtain rfl : m = m' := Prod.ext (hcs.mean.trans hcs'.mean.symm) (hcs.cov.trans hcs'.cov.symm)
    refine ⟨⟨{ s.toFilterAttrs with x := m.1, Px := m.2 }, pxf, .data y d'⟩, ?_, rfl⟩
    refine (ekf_correct_active M hy _).trans ?_
    rw [hd']
    rfl

/-- Equal attributes, with a positive semidefinite covariance. -/
def Same {ns ns' : Nat} (s : UKF nx ns ns' o p) (t : EKF nx o p) : Prop := s.toFilterAttrs = t.toFilterAttrs ∧ s.Px.PosSemidef

theorem same_correct {ns' : Nat} (hM : AffineModel M A b C c) (hcut : UT.init nx kind' kappa' = .ok cut) (hk : 0 < (nx : ℝ) + kappa') (hr : RootOK kind')
    (hR : M.R.PosSemidef) (y : MaskedRow o) (s : UKF nx cut.nsigma ns' o p) (t : EKF nx o p) (m : Moments nx) (s' : UKF nx cut.nsigma ns' o p)
    (hst : Same s t) (h : UKF.correct cut M y s = .ok (m, s')) : ∃ t', EKF.correct M y t = .ok (m, t') ∧ Same s' t' := by
  obtain ⟨t', ht, he⟩ := C43_correct hM hcut hk hr (psd_symm hR) y s t hst.1 hst.2 m s' h
  refine ⟨t', ht, he, ?_⟩
  have hP : t.Px.PosSemidef := congrArg FilterAttrs.Px hst.1 ▸ hst.2
  have e : s'.Px = t'.Px := congrArg FilterAttrs.Px he
  rw [e]
  rcases ekf_correct_cases ht with ⟨-, -, rfl⟩ | ⟨-, d, hd, rfl⟩
  · exact hP
  · exact ekf_correct_psd hP (activeR_psd y hR) (ekf_core_ok hd)

theorem same_predict (hM : AffineModel M A b C c) (hput : UT.init nx kind kappa = .ok put) (hk : 0 < (nx : ℝ) + kappa) (hr : RootOK kind)
    (hQ : ∀ k x, (M.Q k x).PosSemidef) (s : UKF nx cut.nsigma put.nsigma o p) (t : EKF nx o p) (m : Moments nx)
    (s' : UKF nx cut.nsigma put.nsigma o p) (hst : Same s t) (h : UKF.predict put M s = .ok (m, s')) :
    ∃ t', EKF.predict M t = .ok (m, t') ∧ Same s' t' ∧ ∀ c, UKF.predictionCrosscov put s' = .ok c → EKF.predictionCrosscov t' = .ok c := by
  obtain ⟨t', ht, he, hx, -⟩ := C43_predict hM hput hk hr s t hst.1 hst.2 m s' h
  refine ⟨t', ht, ⟨he, ?_⟩, fun c hc => hx ▸ hc⟩
  have hP : t.Px.PosSemidef := congrArg FilterAttrs.Px hst.1 ▸ hst.2
  have e : s'.Px = t'.Px := congrArg FilterAttrs.Px he
  rw [e]
  rw [ekf_predict_eq] at ht
  cases ht
  exact ekf_psd hP (hQ _ _)

/-- **C43, `filter`.** On an affine model, what the unscented filter returns, the extended one returns too: the same moments for every
sample, whichever entries are masked, and the same attributes at the end. -/
theorem C43_filter (hM : AffineModel M A b C c) (hput : UT.init nx kind kappa = .ok put) (hcut : UT.init nx kind' kappa' = .ok cut)
    (hk : 0 < (nx : ℝ) + kappa) (hk' : 0 < (nx : ℝ) + kappa') (hr : RootOK kind) (hr' : RootOK kind') (hQ : ∀ k x, (M.Q k x).PosSemidef)
    (hR : M.R.PosSemidef) (y : List (MaskedRow o)) (s s' : UKF nx cut.nsigma put.nsigma o p) (t : EKF nx o p)
    (hst : s.toFilterAttrs = t.toFilterAttrs) (hP : s.Px.PosSemidef) (ms : List (Moments nx)) (h : (UKF.cls put cut M).filter y s = .ok (ms, s')) :
    ∃ t', (EKF.cls M).filter y t = .ok (ms, t') ∧ s'.toFilterAttrs = t'.toFilterAttrs := by
  rw [filter_eq] at h
  obtain ⟨t', ht, hS⟩ := schedule_sim (c₂ := (EKF.cls M).correct) (p₂ := (EKF.cls M).predict) Same
    (fun y s t m s' => same_correct hM hcut hk' hr' hR y s t m s')
    (fun s t m s' h1 h2 => by
      obtain ⟨t', a, b, -⟩ := same_predict hM hput hk hr hQ s t m s' h1 h2
      exact ⟨t', a, b⟩) (t := t) ⟨hst, hP⟩ h
  exact ⟨t', by rw [filter_eq]; exact ht, hS.1⟩

/-- **C43, `smooth`.** -/
theorem C43_smooth (hM : AffineModel M A b C c) (hput : UT.init nx kind kappa = .ok put) (hcut : UT.init nx kind' kappa' = .ok cut)
    (hk : 0 < (nx : ℝ) + kappa) (hk' : 0 < (nx : ℝ) + kappa') (hr : RootOK kind) (hr' : RootOK kind') (hQ : ∀ k x, (M.Q k x).PosSemidef)
    (hR : M.R.PosSemidef) (y : List (MaskedRow o)) (s s' : UKF nx cut.nsigma put.nsigma o p) (t : EKF nx o p)
    (hst : s.toFilterAttrs = t.toFilterAttrs) (hP : s.Px.PosSemidef) (sm : List (Moments nx)) (h : (UKF.cls put cut M).smooth y s = .ok (sm, s')) :
    ∃ t', (EKF.cls M).smooth y t = .ok (sm, t') ∧ s'.toFilterAttrs = t'.toFilterAttrs := by
  obtain ⟨t', ht, hS⟩ := smooth_sim (F := UKF.cls put cut M) (G := EKF.cls M) Same
    (fun s t h => ⟨congrArg FilterAttrs.x h.1, congrArg FilterAttrs.Px h.1⟩)
    (fun y s t m s' => same_correct hM hcut hk' hr' hR y s t m s')
    (fun s t m s' h1 h2 => same_predict hM hput hk hr hQ s t m s' h1 h2) (t := t) ⟨hst, hP⟩ h
  exact ⟨t', ht, hS.1⟩

/-- The unscented filter does return, for any positive `nx + kappa`, if the initial covariance and `Q` have square roots of its kind and `R` is
positive definite; and so does its smoother, if `Q` is positive definite. -/
theorem C43_returns (hM : AffineModel M A b C c) (hput : UT.init nx kind kappa = .ok put) (hcut : UT.init nx kind' kappa' = .ok cut)
    (hk : 0 < (nx : ℝ) + kappa) (hk' : 0 < (nx : ℝ) + kappa') (hQ : ∀ k x, RootDom kind (M.Q k x) ∧ RootDom kind' (M.Q k x)) (hR : M.R.PosDef)
    (y : List (MaskedRow o)) (s : UKF nx cut.nsigma put.nsigma o p) (hs : RootDom kind s.Px ∧ RootDom kind' s.Px) :
    (∃ ms s', (UKF.cls put cut M).filter y s = .ok (ms, s')) ∧
      (y ≠ [] → (∀ k x, (M.Q k x).PosDef) → ∃ sm s', (UKF.cls put cut M).smooth y s = .ok (sm, s')) := by
  obtain ⟨ms, prs, s', h1, -, h2⟩ := scheduleWith_returns (c₁ := (UKF.cls put cut M).correct) (p₁ := (UKF.cls put cut M).predict)
    (x₁ := (UKF.cls put cut M).predictionCrosscov) (fun s : UKF nx cut.nsigma put.nsigma o p => RootDom kind s.Px ∧ RootDom kind' s.Px)
    (by
      intro y s hs
      by_cases hy : ∀ j, y.mask j = true
      · exact ⟨_, _, ukf_correct_masked M hy s, hs⟩
      · obtain ⟨u, hu⟩ := transform_of hcut hk' s.x (fun x (j : y.Active) => M.h s.k x j.1) hs.2
        let Ca : Matrix y.Active (Fin nx) ℝ := of fun j i => C s.k j.1 i
        obtain ⟨-, a2, a3⟩ := affine_transform hcut hk'.le hs.2.root (A := Ca) (b := fun j => c s.k j.1)
          (funext fun x => funext fun j => congrFun (hM.h s.k x) j.1) hs.2.psd hu
        have hPo : u.Po.PosSemidef := a2 ▸ psd_conj hs.2.psd _
        obtain ⟨m, d, hd⟩ := ukf_core_of (p := p) (y := fun j : y.Active => y.data j.1) hu (PosDef.posSemidef_add hPo (activeR_pd y hR))
        have e : (UKF.cls put cut M).correct y s = .ok (m, { s with x := m.1, Px := m.2, last := .data y d }) := by
          refine (ukf_correct_active M hy s).trans ?_
          rw [hd]
          rfl
        obtain ⟨hu', hcs, -⟩ := ukf_core_ok (activeR_symm y (psd_symm hR.posSemidef)) hd
        obtain rfl : u = d.ut := by rw [hu] at hu'; exact Except.ok.inj hu'
        rw [a2, a3, ← transpose_transpose Ca, Matrix.mul_assoc, transpose_transpose Caᵀ] at hcs
        have hpsd := ekf_correct_psd hs.2.psd (activeR_psd y hR.posSemidef) hcs
        have hpd : s.Px.PosDef → m.2.PosDef := fun h => ekf_correct_pd h (activeR_pd y hR) hcs
        exact ⟨_, _, e, hs.1.keep hpsd hpd, hs.2.keep hpsd hpd⟩)
    (fun m => (∀ k x, (M.Q k x).PosDef) → m.2.PosDef)
    (by
      intro s hs
      obtain ⟨d, hd⟩ := transform_of hput hk s.x (M.f s.k) hs.1
      obtain ⟨-, a2, -⟩ := affine_transform hput hk.le hs.1.root (f := M.f s.k) (funext fun x => hM.f s.k x) hs.1.psd hd
      have hPo : d.Po.PosSemidef := a2 ▸ psd_conj hs.1.psd _
      exact ⟨_, _, _, ukf_predict_of s hd, ⟨(hQ _ _).1.psd_add hPo, (hQ _ _).2.psd_add hPo⟩, fun h => PosDef.posSemidef_add hPo (h _ _), rfl⟩) y hs
  refine ⟨⟨ms, s', ?_⟩, fun hy hpd => ?_⟩
  · rw [filter_eq]
    exact (scheduleWith_schedule h1).1
  · obtain ⟨sm, h⟩ := smooth_of (UKF.cls put cut M) hy h1 fun pr hpr => (h2 pr hpr hpd).det_pos.ne'
    exact ⟨sm, s', h⟩

end

theorem demo_affine (q : Fin 1 → ℝ) : AffineModel (Demo.model q) (fun _ => of fun _ _ => q 0) 0 (fun _ => of fun _ _ => 1) 0 where
  f k x := by ext i; simp [Demo.model, mulVec, dotProduct]
  df_dx k x i j := rfl
  h k x := by ext i; simp [Demo.model, mulVec, dotProduct]
  dh_dx k x i j := rfl

/-- The two smoothers of the demonstration model agree on three samples, the middle one half masked. -/
example : ∃ put sm s' t', UT.init 1 .cholesky (-1/2 : ℝ) = .ok put ∧
    (UKF.cls put put (Demo.model 2)).smooth [Demo.both, Demo.half, Demo.none] (Demo.ukf put.nsigma put.nsigma) = .ok (sm, s') ∧
    (EKF.cls (Demo.model 2)).smooth [Demo.both, Demo.half, Demo.none] Demo.ekf = .ok (sm, t') := by
  obtain ⟨put, hput⟩ : ∃ ut, UT.init 1 .cholesky (-1/2 : ℝ) = .ok ut := by
    unfold UT.init
    rw [if_neg (by norm_num)]
    exact ⟨_, rfl⟩
  have hk : (0 : ℝ) < ((1 : ℕ) : ℝ) + (-1/2) := by norm_num
  obtain ⟨sm, s', h⟩ := (C43_returns (demo_affine 2) hput hput hk hk (fun _ _ => ⟨PosDef.one, PosDef.one⟩) PosDef.one
    [Demo.both, Demo.half, Demo.none] (Demo.ukf put.nsigma put.nsigma) ⟨PosDef.one, PosDef.one⟩).2 (by simp) (fun _ _ => PosDef.one)
  obtain ⟨t', ht, -⟩ := C43_smooth (demo_affine 2) hput hput hk hk trivial trivial (fun _ _ => PosSemidef.one) PosSemidef.one _ _ _ Demo.ekf rfl
    PosSemidef.one _ h
  exact ⟨put, sm, s', t', hput, h, ht⟩

end Ceacoest
