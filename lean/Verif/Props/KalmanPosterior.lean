import Verif.Lemmas.KalmanPosterior
import Verif.Props.KalmanMerit

/-! # C75: filter, smoother and likelihood on affine models with normal noise are those of the posterior -/

namespace Ceacoest
open Matrix Spec MeasureTheory
variable {nx : Nat} {o p : Type} [Fintype o] [LinearOrder o]
variable {M : KModel nx o p} {A : ℤ → Matrix (Fin nx) (Fin nx) ℝ} {b : ℤ → Fin nx → ℝ} {C : ℤ → Matrix o (Fin nx) ℝ} {c : ℤ → o → ℝ}

theorem filter_posterior (hM : GaussModel M A b C c) {y : List (MaskedRow o)} {s s' : EKF nx o p} (hP : s.Px.PosDef) {ms : List (Moments nx)}
    (h : schedule (EKF.correct M) (EKF.predict M) y s = .ok (ms, s')) (j : Nat) {mj : Moments nx} (hj : ms[j]? = some mj) :
    mj.2.PosDef ∧ 0 < evidence M s.k (s.x, s.Px) (y.take (j + 1)) ∧ ∀ z,
      stateMarginal M s.k (s.x, s.Px) (y.take (j + 1)) j z = evidence M s.k (s.x, s.Px) (y.take (j + 1)) * gaussian mj.2 (z - mj.1) := by
  induction y generalizing s ms j with
  | nil =>
    cases h
    cases hj
  | cons y ys ih =>
    have hfirst : ∀ {m : Moments nx} {s₁ : EKF nx o p}, EKF.correct M y s = .ok (m, s₁) → m.2.PosDef ∧
        0 < evidence M s.k (s.x, s.Px) [y] ∧ ∀ z, stateMarginal M s.k (s.x, s.Px) [y] 0 z = evidence M s.k (s.x, s.Px) [y] * gaussian m.2 (z - m.1) := by
      intro m s₁ hc
      obtain ⟨e1, e2, e3⟩ := evidence_single hM hP hc
      rw [e1]
      exact ⟨e3, innovDensity_pos hM _ _ hP, e2⟩
    cases ys with
    | nil =>
      rw [schedule] at h
      obtain ⟨⟨m, s₁⟩, hc, h⟩ := py_bind_eq_ok h
      cases h
      cases j with
      | zero => cases hj; exact hfirst hc
      | succ j => cases hj
    | cons y' ys =>
      obtain ⟨m, s₁, pr, s₂, ms', hc, hp, hs, rfl⟩ := schedule_cons h
      cases j with
      | zero => cases hj; exact hfirst hc
      | succ j =>
        obtain ⟨-, c2, -, c4, -⟩ := correct_density hM hP hc
        obtain ⟨-, -, -, -, cr, hx, -⟩ := predict_density hM (by rw [c2]; exact c4) hp
        have hd := step_density hM hP hc hp hx
        obtain ⟨i1, i2, i3⟩ := ih (by rw [hd.cov]; exact hd.prpd) hs j hj
        have e : (y :: y' :: ys).take (j + 1 + 1) = y :: y' :: ys.take j := rfl
        have e' : (y' :: ys).take (j + 1) = y' :: ys.take j := rfl
        rw [e'] at i2 i3
        rw [e, hd.evidence]
        refine ⟨i1, mul_pos (innovDensity_pos hM _ _ hP) i2, fun z => ?_⟩
        rw [hd.marginal, i3, mul_assoc]

theorem smooth_posterior (hM : GaussModel M A b C c) {y : List (MaskedRow o)} {s s' : EKF nx o p} (hP : s.Px.PosDef) {ms : List (Moments nx)}
    {prs : List (Moments nx × Matrix (Fin nx) (Fin nx) ℝ)} {sm : List (Moments nx)}
    (h : scheduleWith (EKF.correct M) (EKF.predict M) EKF.predictionCrosscov y s = .ok (ms, prs, s')) (hsm : Smoothed ms prs sm) :
    0 < evidence M s.k (s.x, s.Px) y ∧
    (∀ j mj, sm[j]? = some mj → mj.2.PosDef ∧ ∀ z, stateMarginal M s.k (s.x, s.Px) y j z = evidence M s.k (s.x, s.Px) y * gaussian mj.2 (z - mj.1)) ∧
    (0 < jointDensity M s.k (s.x, s.Px) y (sm.map Prod.fst)) ∧
    ∀ xs, xs.length = y.length → jointDensity M s.k (s.x, s.Px) y xs ≤ jointDensity M s.k (s.x, s.Px) y (sm.map Prod.fst) ∧
      (jointDensity M s.k (s.x, s.Px) y xs = jointDensity M s.k (s.x, s.Px) y (sm.map Prod.fst) → xs = sm.map Prod.fst) := by
  induction y generalizing s ms prs sm with
  | nil =>
    cases h
    cases hsm
  | cons y ys ih =>
    cases ys with
    | nil =>
      rw [scheduleWith] at h
      obtain ⟨⟨m, s₁⟩, hc, h⟩ := py_bind_eq_ok h
      cases h
      cases hsm
      obtain ⟨e1, e2, e3⟩ := evidence_single hM hP hc
      have hpos := innovDensity_pos hM s.k y (m := (s.x, s.Px)) hP
      rw [e1]
      refine ⟨hpos, ?_, ?_, ?_⟩
      · intro j mj hj
        cases j with
        | zero => cases hj; exact ⟨e3, e2⟩
        | succ j => cases hj
      · simp only [List.map_cons, List.map_nil, e2]
        exact mul_pos hpos (gaussian_pos e3 _)
      · intro xs hxs
        obtain ⟨x, rfl⟩ := List.length_eq_one_iff.1 hxs
        simp only [List.map_cons, List.map_nil, e2, sub_self]
        obtain ⟨g1, g2⟩ := gaussian_le e3 (x - m.1)
        refine ⟨mul_le_mul_of_nonneg_left g1 hpos.le, fun he => ?_⟩
        rw [sub_eq_zero.1 (g2 (mul_left_cancel₀ hpos.ne' he))]
    | cons y' ys =>
      obtain ⟨m, s₁, pr, s₂, cr, ms', prs', hc, hp, hx, hs, rfl, rfl⟩ := scheduleWith_cons h
      have hd := step_density hM hP hc hp hx
      have hpos := innovDensity_pos hM s.k y (m := (s.x, s.Px)) hP
      cases hsm with
      | @step _ _ sm sm' _ sms _ _ h1 h2 =>
      obtain ⟨i1, i2, i3, i4⟩ := ih (by rw [hd.cov]; exact hd.prpd) hs h2
      obtain ⟨hu, rfl⟩ := h1
      dsimp only at *
      set G := cr * pr.2⁻¹ with hG
      rw [hd.evidence]
      refine ⟨mul_pos hpos i1, ?_, ?_, ?_⟩
      · intro j mj hj
        cases j with
        | zero =>
          cases hj
          obtain ⟨k1, k2⟩ := i2 0 sm' rfl
          have hcov : m.2 + G * (sm'.2 - pr.2) * Gᵀ = Gᵀᵀ * (sm'.2 * Gᵀ) + (m.2 - G * pr.2 * Gᵀ) := by
            rw [transpose_transpose, Matrix.mul_sub, Matrix.sub_mul, Matrix.mul_assoc G sm'.2]
            abel
          refine ⟨by rw [hcov]; exact innovation_pd k1 hd.back, fun z => ?_⟩
          have hm : stateMarginal M s.k (s.x, s.Px) (y :: y' :: ys) 0 z = ∫ x, innovDensity M s.k y (s.x, s.Px) *
              (gaussian (m.2 - G * pr.2 * Gᵀ) (z - (m.1 + G *ᵥ (x - pr.1))) * stateMarginal M s₂.k (s₂.x, s₂.Px) (y' :: ys) 0 x) := by
            have e : (y :: y' :: ys).length - 1 - 0 = ((y' :: ys).length - 1 - 0) + 1 := by simp
            unfold stateMarginal
            rw [e, integralFirstOuter]
            congr 1
            funext x
            rw [← outer_mul, ← outer_mul]
            congr 1
            funext after
            exact hd.joint y' ys z x after
          have hb := bayes_integral (H := Gᵀ) k1 hd.back hcov sm'.1 z (m.1 + G *ᵥ (sm'.1 - pr.1))
          rw [hm, integral_const_mul, mul_assoc (innovDensity M s.k y (s.x, s.Px)), ← hb, ← integral_const_mul (evidence M s₂.k (s₂.x, s₂.Px) (y' :: ys))]
          congr 2
          funext x
          rw [k2]
          have e : m.1 + G *ᵥ (x - pr.1) = m.1 + G *ᵥ (sm'.1 - pr.1) + Gᵀᵀ *ᵥ (x - sm'.1) := by
            rw [transpose_transpose, add_assoc, ← mulVec_add]
            congr 2
            abel
          rw [e]
          ring
        | succ j =>
          obtain ⟨k1, k2⟩ := i2 j mj hj
          refine ⟨k1, fun z => ?_⟩
          rw [hd.marginal, k2, mul_assoc]
      · simp only [List.map_cons] at i3 ⊢
        rw [hd.joint]
        exact mul_pos hpos (mul_pos (gaussian_pos hd.back _) i3)
      · intro xs hxs
        match xs, hxs with
        | x :: x' :: xs, hxs =>
          obtain ⟨k1, k2⟩ := i4 (x' :: xs) (by simpa using hxs)
          simp only [List.map_cons] at i3 k1 k2 ⊢
          rw [hd.joint, hd.joint, ← hG, sub_self]
          obtain ⟨g1, g2⟩ := gaussian_le hd.back (x - (m.1 + G *ᵥ (x' - pr.1)))
          have g0 := gaussian_pos hd.back (x - (m.1 + G *ᵥ (x' - pr.1)))
          have g0' := gaussian_pos hd.back 0
          rw [← hG] at g0 g0' g1 g2
          have hle1 := mul_le_mul_of_nonneg_left k1 g0.le
          have hle2 := mul_le_mul_of_nonneg_right g1 i3.le
          refine ⟨mul_le_mul_of_nonneg_left (hle1.trans hle2) hpos.le, fun he => ?_⟩
          have he' := mul_left_cancel₀ hpos.ne' he
          have q1 := k2 (mul_left_cancel₀ g0.ne' (le_antisymm hle1 (he' ▸ hle2)))
          have q2 := g2 (mul_right_cancel₀ i3.ne' (le_antisymm hle2 (by rw [← he']; exact hle1)))
          rw [q1]
          have hx' : x' = sm'.1 := (List.cons.inj q1).1
          rw [hx', sub_eq_zero] at q2
          rw [q2]

/-- What a sample adds to the likelihood, on an affine model. -/
theorem contribution_affine (hM : GaussModel M A b C c) {cut : UT nx} {kind' : SqrtKind (Fin nx)} {kappa' : ℝ}
    (hcut : UT.init nx kind' kappa' = .ok cut) (hk' : 0 < (nx : ℝ) + kappa') (hr' : RootOK kind') {y : MaskedRow o} {k : ℤ} {m : Moments nx}
    (hm : m.2.PosDef) {l : ℝ} (h : Contribution cut M y (k, m) l) :
    l = Real.log (innovDensity M k y m) + (Fintype.card y.Active : ℝ) / 2 * Real.log (2 * Real.pi) := by
  rcases h with ⟨hy, rfl⟩ | ⟨hy, S, idev, isigma, h1, -, rfl⟩
  · have hempty : IsEmpty y.Active := ⟨fun j => by have := hy j.1; rw [j.2] at this; cases this⟩
    simp [innovDensity, gaussian, dotProduct]
  · dsimp only at h1 ⊢
    have ht : ∃ d, cut.transform m.1 m.2 (fun x (j : y.Active) => M.h k x j.1) = .ok d ∧ d.isigma = isigma := by
      unfold UT.transform
      rw [h1]
      exact ⟨_, rfl, rfl⟩
    obtain ⟨d, hd, rfl⟩ := ht
    have ts := transform_spec hd
    let Ca : Matrix y.Active (Fin nx) ℝ := of fun j i => C k j.1 i
    obtain ⟨e1, e2, -⟩ := affine_transform hcut hk'.le hr' (A := Ca) (b := fun j => c k j.1)
      (funext fun x => funext fun j => congrFun (hM.h k x) j.1) hm.posSemidef hd
    have hH : activeH y (M.dh_dx k m.1) = Caᵀ := by
      ext i j
      exact hM.dh_dx k m.1 i j.1
    have w1 : wmean cut.weights (fun k' (j : y.Active) => M.h k (d.isigma k') j.1) = d.mean := by
      funext j
      exact (ts.mean j).symm
    have w2 : wcov cut.weights (fun k' (j : y.Active) => M.h k (d.isigma k') j.1) (fun k' j => M.h k (d.isigma k') j.1) = d.Po := by
      ext i j
      rw [ts.Po]
      simp only [wcov, w1]
      refine Finset.sum_congr rfl fun k _ => ?_
      rw [ts.odev, ts.odev]
      ring
    rw [w1, w2, e1, e2, innovDensity, hH, transpose_transpose, Matrix.mul_assoc]
    congr 3
    funext j
    rw [congrFun (hM.h k m.1) j.1]
    rfl

section
variable {put cut : UT nx} {kind kind' : SqrtKind (Fin nx)} {kappa kappa' : ℝ}

theorem likelihood_evidence (hM : GaussModel M A b C c) (hput : UT.init nx kind kappa = .ok put) (hcut : UT.init nx kind' kappa' = .ok cut)
    (hk : 0 < (nx : ℝ) + kappa) (hk' : 0 < (nx : ℝ) + kappa') (hr : RootOK kind) (hr' : RootOK kind') {y : List (MaskedRow o)} (hy : y ≠ [])
    {s : UKF nx cut.nsigma put.nsigma o p} {t : EKF nx o p} (hst : s.toFilterAttrs = t.toFilterAttrs) (hP : s.Px.PosDef) {pr : List (ℤ × Moments nx)}
    {ls : List ℝ} (hpr : priors (UKF.cls put cut M).correct (UKF.cls put cut M).predict UKF.prior y s = .ok pr)
    (hls : List.Forall₂ (fun r l => Contribution cut M r.1 r.2 l) (y.zip pr) ls) :
    ls.sum = Real.log (evidence M s.k (s.x, s.Px) y) + (unmasked y : ℝ) / 2 * Real.log (2 * Real.pi) ∧ 0 < evidence M s.k (s.x, s.Px) y := by
  induction y generalizing s t pr ls with
  | nil => exact absurd rfl hy
  | cons y ys ih =>
    have hk1 : s.k = t.k := congrArg FilterAttrs.k hst
    have hx1 : s.x = t.x := congrArg FilterAttrs.x hst
    have hP1 : s.Px = t.Px := congrArg FilterAttrs.Px hst
    have hPt : t.Px.PosDef := hP1 ▸ hP
    have hpos : 0 < innovDensity M t.k y (t.x, t.Px) := innovDensity_pos hM t.k y (m := (t.x, t.Px)) hPt
    cases ys with
    | nil =>
      simp only [priors] at hpr
      obtain ⟨⟨m, s₁⟩, hc, h⟩ := py_bind_eq_ok hpr
      cases h
      cases hls with
      | cons h1 h2 =>
      cases h2
      obtain ⟨t₁, ht, -⟩ := same_correct hM.toAffineModel hcut hk' hr' hM.Rpd.posSemidef y s t m s₁ ⟨hst, hP.posSemidef⟩ hc
      have h1 := contribution_affine hM hcut hk' hr' (k := s.k) (m := (s.x, s.Px)) hP h1
      rw [hk1, hx1, hP1] at h1 ⊢
      rw [(evidence_single hM hPt ht).1]
      refine ⟨?_, hpos⟩
      rw [List.sum_singleton, h1]
      simp [unmasked]
    | cons y' ys =>
      simp only [priors] at hpr
      obtain ⟨⟨m, s₁⟩, hc, hpr⟩ := py_bind_eq_ok hpr
      obtain ⟨⟨pm, s₂⟩, hp, hpr⟩ := py_bind_eq_ok hpr
      obtain ⟨pr', hpr', h⟩ := py_bind_eq_ok hpr
      cases h
      cases hls with
      | @cons _ l _ ls' h1 h2 =>
      obtain ⟨t₁, ht, hs1⟩ := same_correct hM.toAffineModel hcut hk' hr' hM.Rpd.posSemidef y s t m s₁ ⟨hst, hP.posSemidef⟩ hc
      obtain ⟨t₂, ht2, hs2, -⟩ := same_predict hM.toAffineModel hput hk hr (fun k x => (hM.Qpd k x).posSemidef) s₁ t₁ pm s₂ hs1 hp
      obtain ⟨-, c2, -, c4, -⟩ := correct_density hM hPt ht
      obtain ⟨-, -, -, -, cr, hx, -⟩ := predict_density hM (by rw [c2]; exact c4) ht2
      have hd := step_density hM hPt ht ht2 hx
      have hP2 : s₂.Px.PosDef := by
        rw [show s₂.Px = t₂.Px from congrArg FilterAttrs.Px hs2.1, hd.cov]
        exact hd.prpd
      obtain ⟨i1, i2⟩ := ih (by simp) hs2.1 hP2 hpr' h2
      have h1 := contribution_affine hM hcut hk' hr' (k := s.k) (m := (s.x, s.Px)) hP h1
      rw [show s₂.k = t₂.k from congrArg FilterAttrs.k hs2.1, show s₂.x = t₂.x from congrArg FilterAttrs.x hs2.1,
        show s₂.Px = t₂.Px from congrArg FilterAttrs.Px hs2.1] at i1 i2
      rw [hk1, hx1, hP1] at h1 ⊢
      rw [hd.evidence]
      refine ⟨?_, mul_pos hpos i2⟩
      rw [List.sum_cons, i1, h1, Real.log_mul hpos.ne' i2.ne']
      simp only [unmasked, List.map_cons, List.sum_cons]
      push_cast
      ring

/-! ### The theorems -/

/-- **C75, `filter`.** On an affine model with normal noise, what the extended filter returns for sample `j` are the moments of the normal
distribution of its state given the measurements up to it. -/
theorem C75_filter (hM : GaussModel M A b C c) (y : List (MaskedRow o)) (s s' : EKF nx o p) (hP : s.Px.PosDef) (ms : List (Moments nx))
    (h : (EKF.cls M).filter y s = .ok (ms, s')) (j : Nat) (mj : Moments nx) (hj : ms[j]? = some mj) :
    mj.2.PosDef ∧ 0 < evidence M s.k (s.x, s.Px) (y.take (j + 1)) ∧ ∀ z,
      posterior M s.k (s.x, s.Px) (y.take (j + 1)) j z = gaussian mj.2 (z - mj.1) := by
  rw [filter_eq] at h
  obtain ⟨h1, h2, h3⟩ := filter_posterior hM hP h j hj
  refine ⟨h1, h2, fun z => ?_⟩
  rw [posterior, h3, mul_div_cancel_left₀ _ h2.ne']

theorem smoothed_of_smooth {y : List (MaskedRow o)} {s s' : EKF nx o p} {sm : List (Moments nx)} (h : (EKF.cls M).smooth y s = .ok (sm, s')) :
    ∃ ms prs, scheduleWith (EKF.correct M) (EKF.predict M) EKF.predictionCrosscov y s = .ok (ms, prs, s') ∧ Smoothed ms prs sm := by
  obtain ⟨ms, prs, h1, hy, h2, h3, h4⟩ := smooth_ok (EKF.cls M) h
  obtain ⟨-, hl, hp⟩ := scheduleWith_schedule h1
  have hpos : 0 < y.length := List.length_pos_iff.2 hy
  exact ⟨ms, prs, h1, smoothed_of (n := y.length - 1) (by omega) hp (by omega) h3 fun k hk => h4 k (by omega)⟩

/-- **C75, `smooth`.** What the smoother returns for sample `j` are the moments of the normal distribution of its state given all
measurements. -/
theorem C75_smooth (hM : GaussModel M A b C c) (y : List (MaskedRow o)) (s s' : EKF nx o p) (hP : s.Px.PosDef) (sm : List (Moments nx))
    (h : (EKF.cls M).smooth y s = .ok (sm, s')) (j : Nat) (mj : Moments nx) (hj : sm[j]? = some mj) :
    mj.2.PosDef ∧ 0 < evidence M s.k (s.x, s.Px) y ∧ ∀ z, posterior M s.k (s.x, s.Px) y j z = gaussian mj.2 (z - mj.1) := by
  obtain ⟨ms, prs, h1, h2⟩ := smoothed_of_smooth h
  obtain ⟨k1, k2, -⟩ := smooth_posterior hM hP h1 h2
  obtain ⟨k3, k4⟩ := k2 j mj hj
  refine ⟨k3, k1, fun z => ?_⟩
  rw [posterior, k4, mul_div_cancel_left₀ _ k1.ne']

/-- **C75, moments.** So they are its mean and its covariance. -/
theorem C75_moments (hM : GaussModel M A b C c) (y : List (MaskedRow o)) (s s' : EKF nx o p) (hP : s.Px.PosDef) (sm : List (Moments nx))
    (h : (EKF.cls M).smooth y s = .ok (sm, s')) (j : Nat) (mj : Moments nx) (hj : sm[j]? = some mj) :
    (∫ z, posterior M s.k (s.x, s.Px) y j z = 1) ∧ (∀ i, ∫ z, posterior M s.k (s.x, s.Px) y j z * z i = mj.1 i) ∧
    ∀ i l, ∫ z, posterior M s.k (s.x, s.Px) y j z * ((z i - mj.1 i) * (z l - mj.1 l)) = mj.2 i l := by
  obtain ⟨h1, -, h2⟩ := C75_smooth hM y s s' hP sm h j mj hj
  simp only [h2]
  exact ⟨gaussian_integral h1 _, gaussian_mean h1 _, gaussian_cov h1 _⟩

/-- **C75, the best path.** The smoothed means are the only maximum of the joint density of all states and measurements. -/
theorem C75_map (hM : GaussModel M A b C c) (y : List (MaskedRow o)) (s s' : EKF nx o p) (hP : s.Px.PosDef) (sm : List (Moments nx))
    (h : (EKF.cls M).smooth y s = .ok (sm, s')) :
    0 < jointDensity M s.k (s.x, s.Px) y (sm.map Prod.fst) ∧
    ∀ xs, xs.length = y.length → xs ≠ sm.map Prod.fst → jointDensity M s.k (s.x, s.Px) y xs < jointDensity M s.k (s.x, s.Px) y (sm.map Prod.fst) := by
  obtain ⟨ms, prs, h1, h2⟩ := smoothed_of_smooth h
  obtain ⟨-, -, k1, k2⟩ := smooth_posterior hM hP h1 h2
  exact ⟨k1, fun xs hxs hne => lt_of_le_of_ne (k2 xs hxs).1 fun he => hne ((k2 xs hxs).2 he)⟩

/-- **C75, unscented filter.** The same holds of the unscented filter and its smoother, whose moments are those of the extended ones. -/
theorem C75_ukf (hM : GaussModel M A b C c) (hput : UT.init nx kind kappa = .ok put) (hcut : UT.init nx kind' kappa' = .ok cut)
    (hk : 0 < (nx : ℝ) + kappa) (hk' : 0 < (nx : ℝ) + kappa') (hr : RootOK kind) (hr' : RootOK kind') (y : List (MaskedRow o))
    (s s' : UKF nx cut.nsigma put.nsigma o p) (hP : s.Px.PosDef) :
    (∀ ms, (UKF.cls put cut M).filter y s = .ok (ms, s') → ∀ j mj, ms[j]? = some mj → ∀ z,
      posterior M s.k (s.x, s.Px) (y.take (j + 1)) j z = gaussian mj.2 (z - mj.1)) ∧
    ∀ sm, (UKF.cls put cut M).smooth y s = .ok (sm, s') →
      (∀ j mj, sm[j]? = some mj → ∀ z, posterior M s.k (s.x, s.Px) y j z = gaussian mj.2 (z - mj.1)) ∧
      ∀ xs, xs.length = y.length → xs ≠ sm.map Prod.fst → jointDensity M s.k (s.x, s.Px) y xs < jointDensity M s.k (s.x, s.Px) y (sm.map Prod.fst) := by
  let t : EKF nx o p := { s.toFilterAttrs with }
  have hst : s.toFilterAttrs = t.toFilterAttrs := rfl
  have hQ : ∀ k x, (M.Q k x).PosSemidef := fun k x => (hM.Qpd k x).posSemidef
  refine ⟨fun ms h j mj hj => ?_, fun sm h => ?_⟩
  · obtain ⟨t', ht, -⟩ := C43_filter hM.toAffineModel hput hcut hk hk' hr hr' hQ hM.Rpd.posSemidef y s s' t hst hP.posSemidef ms h
    exact (C75_filter hM y t t' hP ms ht j mj hj).2.2
  · obtain ⟨t', ht, -⟩ := C43_smooth hM.toAffineModel hput hcut hk hk' hr hr' hQ hM.Rpd.posSemidef y s s' t hst hP.posSemidef sm h
    exact ⟨fun j mj hj => (C75_smooth hM y t t' hP sm ht j mj hj).2.2, (C75_map hM y t t' hP sm ht).2⟩

/-- **C75, likelihood.** What `pem_merit` of the unscented filter returns is the logarithm of the density of all measurements, but for a
constant for each unmasked entry. -/
theorem C75_likelihood (hM : GaussModel M A b C c) (hput : UT.init nx kind kappa = .ok put) (hcut : UT.init nx kind' kappa' = .ok cut)
    (hk : 0 < (nx : ℝ) + kappa) (hk' : 0 < (nx : ℝ) + kappa') (hr : RootOK kind) (hr' : RootOK kind') (y : List (MaskedRow o)) (hy : y ≠ [])
    (s s' : UKF nx cut.nsigma put.nsigma o p) (hP : s.Px.PosDef) (L : ℝ) (h : (UKF.cls put cut M).pemMerit y s = .ok (L, s')) :
    0 < evidence M s.k (s.x, s.Px) y ∧ L = s.L + Real.log (evidence M s.k (s.x, s.Px) y) + (unmasked y : ℝ) / 2 * Real.log (2 * Real.pi) := by
  obtain ⟨pr, ls, h1, -, h2, h3⟩ := C48_ukf_partial put cut M (psd_symm hM.Rpd.posSemidef) y s s' L h
  obtain ⟨k1, k2⟩ := likelihood_evidence hM hput hcut hk hk' hr hr' hy (t := { s.toFilterAttrs with }) rfl hP h1 h2
  exact ⟨k2, by rw [h3, k1]; ring⟩

end

/-! ### An example -/

theorem demo_gauss (q : Fin 1 → ℝ) : GaussModel (Demo.model q) (fun _ => of fun _ _ => q 0) 0 (fun _ => of fun _ _ => 1) 0 where
  toAffineModel := demo_affine q
  Q _ _ _ := rfl
  Qpd _ _ := PosDef.one
  Rpd := PosDef.one

/-- The demonstration model, with three samples, one half and one completely masked: both smoothers give the posterior of the first state, and
the likelihood is that of the three unmasked entries. -/
example : ∃ sm s' mj, (EKF.cls (Demo.model 2)).smooth [Demo.both, Demo.half, Demo.none] Demo.ekf = .ok (sm, s') ∧ sm[0]? = some mj ∧
    ∀ z, posterior (Demo.model 2) 0 (fun _ => 1, 1) [Demo.both, Demo.half, Demo.none] 0 z = gaussian mj.2 (z - mj.1) := by
  obtain ⟨sm, s', h, hl⟩ := C40_ekf_returns (Demo.model 2) (fun _ _ => PosDef.one) PosDef.one [Demo.both, Demo.half, Demo.none] (by simp) Demo.ekf
    PosDef.one.posSemidef
  have h0 : sm[0]? = some (sm[0]'(by rw [hl]; simp)) := List.getElem?_eq_getElem _
  exact ⟨sm, s', _, h, h0, (C75_smooth (demo_gauss 2) _ Demo.ekf s' PosDef.one sm h 0 _ h0).2.2⟩

example : ∃ put L s', UT.init 1 .cholesky (1 : ℝ) = .ok put ∧
    (UKF.cls put put (Demo.model 2)).pemMerit [Demo.both, Demo.half, Demo.none] (Demo.ukf put.nsigma put.nsigma) = .ok (L, s') ∧
    L = Real.log (evidence (Demo.model 2) 0 (fun _ => 1, 1) [Demo.both, Demo.half, Demo.none]) + 3 / 2 * Real.log (2 * Real.pi) := by
  obtain ⟨put, hput⟩ := Demo.exists_ut
  have hk : (0 : ℝ) < ((1 : Nat) : ℝ) + 1 := by norm_num
  obtain ⟨⟨ms, s', h⟩, -⟩ := C43_returns (demo_affine 2) hput hput hk hk (fun _ _ => ⟨PosDef.one, PosDef.one⟩) PosDef.one
    [Demo.both, Demo.half, Demo.none] (Demo.ukf put.nsigma put.nsigma) ⟨PosDef.one, PosDef.one⟩
  obtain ⟨L, s'', h', -⟩ := C48_ukf_returns_partial put put (Demo.model 2) (by simp [Demo.model]) _ _ s' ms h
  refine ⟨put, L, s'', hput, h', ?_⟩
  obtain ⟨-, hL⟩ := C75_likelihood (demo_gauss 2) hput hput hk hk trivial trivial _ (by simp) _ s'' PosDef.one L h'
  have e : unmasked [Demo.both, Demo.half, Demo.none] = 3 := by decide
  rw [hL, e]
  simp [Demo.ukf, Demo.attrs]

end Ceacoest
