import Verif.Lemmas.TestKalmanDiff
import Verif.Props.KalmanSeeded

/-! # Lemmas on the filters of the tests of derivatives: the order of the methods, and families of filters -/

namespace Ceacoest.TestKalman
open Matrix Spec Filter Topology FilterClass

section order
variable {nx : Nat} {o p : Type} [Fintype o] [LinearOrder o] [Fintype p] {cut : UT nx} {ns' : Nat} {M : KModel nx o p}

theorem coreDiff_diag {a : Type} [Fintype a] [LinearOrder a] (d : UCorr nx cut.nsigma p a) (w : Option (a → ℝ))
    (dh_dq : (Fin nx → ℝ) → p → a → ℝ) (dh_dx : (Fin nx → ℝ) → Fin nx → a → ℝ) (dR : p → Matrix a a ℝ) (dx : p → Fin nx → ℝ)
    (dP : p → Matrix (Fin nx) (Fin nx) ℝ) :
    UKF.coreDiff cut { d with PyCD := w } dh_dq dh_dx dR dx dP = UKF.coreDiff cut d dh_dq dh_dx dR dx dP := rfl

/-- The order of the methods in `test_ut_corr_diff`. -/
theorem grad_order (y : MaskedRow o) (s : UKF nx cut.nsigma ns' o p) :
    gradA cut M y s.toFilterAttrs = UKF.correct cut M y s >>= fun r => UKF.updateLikelihood r.2 >>= fun s => UKF.correctionDiff cut M s >>= fun s =>
      UKF.likelihoodDiff s >>= fun s => .ok s.toFilterAttrs := by
  unfold gradA UKF.correct
  split
  · rfl
  · unfold coreY activeR
    dsimp only
    cases UKF.core (p := p) cut s.x s.Px (fun j : y.Active => y.data j.1) (fun x j => M.h s.k x j.1) (of fun i j => M.R i.1 j.1) with
    | error e => rfl
    | ok r =>
      simp only [py_bind_ok, py_pure]
      unfold UKF.updateLikelihood
      simp only [py_bind_ok, py_pure]
      unfold coreDiffY activeR UKF.correctionDiff
      dsimp only
      rw [coreDiff_diag r.2 (some fun k => r.2.PyC k k)]
      cases UKF.coreDiff cut r.2 (fun x a (j : y.Active) => M.dh_dq s.k x a j.1) (fun x i j => M.dh_dx s.k x i j.1)
          (fun a => of fun i j => M.dR_dq a i.1 j.1) s.dx_dq s.dPx_dq with
      | error e => rfl
      | ok c =>
        simp only [py_bind_ok, py_pure]
        unfold UKF.likelihoodDiff
        simp only
        cases cholDiff r.2.PyC c.1.dPy_dq with
        | error e => rfl
        | ok ch => rfl

/-- The order of the methods in `test_ut_corr_diff2`. -/
theorem hess_order (y : MaskedRow o) (s : UKF nx cut.nsigma ns' o p) :
    hessA cut M y s.toFilterAttrs = UKF.correct cut M y s >>= fun r => UKF.updateLikelihood r.2 >>= fun s => UKF.correctionDiff cut M s >>= fun s =>
      UKF.correctionDiff2 cut M s >>= fun s => UKF.likelihoodDiff s >>= fun s => UKF.likelihoodDiff2 s >>= fun s => .ok s.toFilterAttrs := by
  unfold hessA UKF.correct
  split
  · rfl
  · unfold coreY activeR
    dsimp only
    cases UKF.core (p := p) cut s.x s.Px (fun j : y.Active => y.data j.1) (fun x j => M.h s.k x j.1) (of fun i j => M.R i.1 j.1) with
    | error e => rfl
    | ok r =>
      simp only [py_bind_ok, py_pure]
      unfold UKF.updateLikelihood
      simp only [py_bind_ok, py_pure]
      unfold coreDiffY activeR UKF.correctionDiff
      dsimp only
      rw [coreDiff_diag r.2 (some fun k => r.2.PyC k k)]
      cases UKF.coreDiff cut r.2 (fun x a (j : y.Active) => M.dh_dq s.k x a j.1) (fun x i j => M.dh_dx s.k x i j.1)
          (fun a => of fun i j => M.dR_dq a i.1 j.1) s.dx_dq s.dPx_dq with
      | error e => rfl
      | ok c =>
        simp only [py_bind_ok, py_pure]
        unfold UKF.correctionDiff2
        simp only [py_bind_ok]
        unfold UKF.likelihoodDiff
        simp only
        cases cholDiff r.2.PyC c.1.dPy_dq with
        | error e => rfl
        | ok ch => rfl

end order

variable {nx ny nq : Nat} {T : Setup nx ny nq} {ut : UT nx} {q₀ : Fin nq → ℝ} {y : Fin ny → ℝ}

theorem start_smooth (hT : RightSetup T q₀) : SmoothAttrs (fun q => (parametrizedUkf T ut q₀ q).toFilterAttrs) q₀ :=
  factory_smooth hT.v.self_of_nhds hT.Pv.self_of_nhds

theorem start_seeded (hT : RightSetup T q₀) : SeededAttrs2 (fun q => (parametrizedUkf T ut q₀ q).toFilterAttrs) q₀ :=
  factory_seeded hT.v.self_of_nhds hT.Pv.self_of_nhds

/-! ### Predictions -/

theorem predAt_attrs (q q' : Fin nq → ℝ) :
    meritP ut (T.M q') (parametrizedUkf T ut q q').toFilterAttrs = predAt T ut q q' >>= fun s => .ok s.toFilterAttrs := by
  rw [meritP_map (cut := ut)]
  rfl

theorem predDiffAt_attrs (q q' : Fin nq → ℝ) :
    gradP ut (T.M q') (parametrizedUkf T ut q q').toFilterAttrs = predDiffAt T ut q q' >>= fun s => .ok s.toFilterAttrs := by
  rw [gradP_map (cut := ut)]
  have e : gradientH (UKF.cls ut ut (T.M q')) (parametrizedUkf T ut q q') = (UKF.predict ut (T.M q') (parametrizedUkf T ut q q') >>= fun r =>
    UKF.predictionDiff ut (T.M q') r.2) := rfl
  unfold predDiffAt predAt
  rw [e]
  cases UKF.predict ut (T.M q') (parametrizedUkf T ut q q') <;> rfl

theorem predDiff2_attrs (q q' : Fin nq → ℝ) :
    hessP ut (T.M q') (parametrizedUkf T ut q q').toFilterAttrs =
      predDiffAt T ut q q' >>= fun s => UKF.predictionDiff2 ut (T.M q') s >>= fun s => .ok s.toFilterAttrs := by
  rw [hessP_map (cut := ut)]
  have e : hessianH (UKF.cls ut ut (T.M q')) (parametrizedUkf T ut q q') = (UKF.predict ut (T.M q') (parametrizedUkf T ut q q') >>= fun r =>
    UKF.predictionDiff ut (T.M q') r.2 >>= fun s => UKF.predictionDiff2 ut (T.M q') s) := rfl
  unfold predDiffAt predAt
  rw [e]
  cases UKF.predict ut (T.M q') (parametrizedUkf T ut q q') with
  | error e => rfl
  | ok r =>
    simp only [py_bind_ok, py_pure]
    rw [py_bind_assoc]

/-- Of the parts of a run that returned, the attributes. -/
theorem attrs_ok {σ : Type} {x : Py σ} {π : σ → FilterAttrs nx (Fin nq)} {B : FilterAttrs nx (Fin nq)} (h : (x >>= fun s => .ok (π s)) = .ok B) :
    ∃ s, x = .ok s ∧ π s = B := by
  obtain ⟨s, h1, h2⟩ := py_bind_eq_ok h
  exact ⟨s, h1, Except.ok.inj h2⟩

theorem pred_family (hk : ut.kind = .cholesky) (hT : RightSetup T q₀) {s₀ : UKF nx ut.nsigma ut.nsigma (Fin ny) (Fin nq)}
    (h : predAt T ut q₀ q₀ = .ok s₀) : ∃ B : (Fin nq → ℝ) → FilterAttrs nx (Fin nq), SmoothAttrs B q₀ ∧
      (∀ᶠ q in 𝓝 q₀, ∃ s, predAt T ut q₀ q = .ok s ∧ s.x = (B q).x ∧ s.Px = (B q).Px) ∧
      ∃ s, predDiffAt T ut q₀ q₀ = .ok s ∧ s.toFilterAttrs = B q₀ := by
  have h0 : meritP ut (T.M q₀) (parametrizedUkf T ut q₀ q₀).toFilterAttrs = .ok s₀.toFilterAttrs := by
    rw [predAt_attrs, h]
    rfl
  obtain ⟨B₀, hB₀, -⟩ := merit_gradP hk _ _ _ rfl h0
  have hA := start_smooth (ut := ut) hT
  obtain ⟨B, hB⟩ := choose_ok (gradP_eventually (M := T.M) hk hA hB₀)
  refine ⟨B, gradP_smooth hT.M.near.self_of_nhds hA hB, hB.mono fun q hq => ?_, ?_⟩
  · obtain ⟨C, hC, e⟩ := grad_meritP _ _ _ rfl hq
    rw [predAt_attrs] at hC
    obtain ⟨s, hs, rfl⟩ := attrs_ok hC
    exact ⟨s, hs, (congrArg (fun z => z.2.1) e).symm, (congrArg (fun z => z.2.2.1) e).symm⟩
  · have := hB.self_of_nhds
    rw [predDiffAt_attrs] at this
    exact attrs_ok this

theorem pred_family2 (hk : ut.kind = .cholesky) (hT : RightSetup T q₀) {s₀ : UKF nx ut.nsigma ut.nsigma (Fin ny) (Fin nq)}
    (h : predAt T ut q₀ q₀ = .ok s₀) : ∃ B : (Fin nq → ℝ) → FilterAttrs nx (Fin nq), SeededAttrs2 B q₀ ∧
      (∀ᶠ q in 𝓝 q₀, ∃ s, predDiffAt T ut q₀ q = .ok s ∧ s.dx_dq = (B q).dx_dq ∧ s.dPx_dq = (B q).dPx_dq) ∧
      ∃ s s', predDiffAt T ut q₀ q₀ = .ok s ∧ UKF.predictionDiff2 ut (T.M q₀) s = .ok s' ∧ s'.toFilterAttrs = B q₀ := by
  have h0 : meritP ut (T.M q₀) (parametrizedUkf T ut q₀ q₀).toFilterAttrs = .ok s₀.toFilterAttrs := by
    rw [predAt_attrs, h]
    rfl
  obtain ⟨B₀, hB₀, -⟩ := merit_gradP hk _ _ _ rfl h0
  have hA := start_seeded (ut := ut) hT
  have : ∀ᶠ q in 𝓝 q₀, ∃ B, hessP ut (T.M q) (parametrizedUkf T ut q₀ q).toFilterAttrs = .ok B := by
    filter_upwards [gradP_eventually (M := T.M) hk hA.here hB₀] with q hq
    obtain ⟨D, hD⟩ := hq
    exact (grad_hessP _ _ _ rfl hD).imp fun _ h => h.1
  obtain ⟨B, hB⟩ := choose_ok this
  refine ⟨B, hessP_seeded hT.M hA hB, hB.mono fun q hq => ?_, ?_⟩
  · obtain ⟨C, hC, e⟩ := hess_gradP _ _ _ rfl hq
    rw [predDiffAt_attrs] at hC
    obtain ⟨s, hs, rfl⟩ := attrs_ok hC
    exact ⟨s, hs, (congrArg (fun z => z.2.2.2.2.1) e).symm, (congrArg (fun z => z.2.2.2.2.2.1) e).symm⟩
  · have := hB.self_of_nhds
    rw [predDiff2_attrs] at this
    obtain ⟨s, h1, h2⟩ := py_bind_eq_ok this
    obtain ⟨s', h3, h4⟩ := py_bind_eq_ok h2
    exact ⟨s, s', h1, h3, Except.ok.inj h4⟩

/-! ### Corrections -/

theorem corrAt_attrs (q q' : Fin nq → ℝ) :
    meritA ut (T.M q') (plain y) (parametrizedUkf T ut q q').toFilterAttrs = corrAt T ut q y q' >>= fun s => .ok s.toFilterAttrs := by
  rw [meritG_map (put := ut)]
  rfl

theorem corrDiffAt_attrs (q q' : Fin nq → ℝ) :
    gradA ut (T.M q') (plain y) (parametrizedUkf T ut q q').toFilterAttrs = corrDiffAt T ut q y q' >>= fun s => .ok s.toFilterAttrs := by
  rw [gradG_map (put := ut)]
  rfl

theorem corr_family (hk : ut.kind = .cholesky) (hT : RightSetup T q₀) {s₀ : UKF nx ut.nsigma ut.nsigma (Fin ny) (Fin nq)}
    (h : corrAt T ut q₀ y q₀ = .ok s₀) : ∃ B : (Fin nq → ℝ) → FilterAttrs nx (Fin nq), SmoothAttrs B q₀ ∧
      (∀ᶠ q in 𝓝 q₀, ∃ s, corrAt T ut q₀ y q = .ok s ∧ s.L = (B q).L ∧ s.x = (B q).x ∧ s.Px = (B q).Px) ∧
      ∃ s t, UKF.correctionDiff ut (T.M q₀) s₀ = .ok s ∧ s.likelihoodDiff = .ok t ∧ t.toFilterAttrs = B q₀ := by
  have h0 : meritA ut (T.M q₀) (plain y) (parametrizedUkf T ut q₀ q₀).toFilterAttrs = .ok s₀.toFilterAttrs := by
    rw [corrAt_attrs, h]
    rfl
  obtain ⟨B₀, hB₀, -⟩ := merit_grad hk _ _ _ _ rfl h0
  have hA := start_smooth (ut := ut) hT
  obtain ⟨B, hB⟩ := choose_ok (gradA_eventually hk hT.M.near.self_of_nhds hA hB₀)
  refine ⟨B, gradA_smooth hT.M.near.self_of_nhds hA hB, hB.mono fun q hq => ?_, ?_⟩
  · obtain ⟨C, hC, e⟩ := grad_merit _ _ _ _ rfl hq
    rw [corrAt_attrs] at hC
    obtain ⟨s, hs, rfl⟩ := attrs_ok hC
    exact ⟨s, hs, (congrArg (fun z => z.2.2.2) e).symm, (congrArg (fun z => z.2.1) e).symm, (congrArg (fun z => z.2.2.1) e).symm⟩
  · have := hB.self_of_nhds
    rw [grad_order] at this
    obtain ⟨r, h1, h2⟩ := py_bind_eq_ok this
    obtain ⟨s, h3, h4⟩ := py_bind_eq_ok h2
    have e : corrAt T ut q₀ y q₀ = .ok s := by
      unfold corrAt
      rw [h1]
      exact h3
    rw [h] at e
    cases e
    obtain ⟨t, h5, h6⟩ := py_bind_eq_ok h4
    obtain ⟨u, h7, h8⟩ := py_bind_eq_ok h6
    exact ⟨t, u, h5, h7, Except.ok.inj h8⟩

theorem corr_family2 (hk : ut.kind = .cholesky) (hT : RightSetup T q₀) {s₀ : UKF nx ut.nsigma ut.nsigma (Fin ny) (Fin nq)}
    (h : corrAt T ut q₀ y q₀ = .ok s₀) : ∃ B : (Fin nq → ℝ) → FilterAttrs nx (Fin nq), SeededAttrs2 B q₀ ∧
      (∀ᶠ q in 𝓝 q₀, ∃ s, corrDiffAt T ut q₀ y q = .ok s ∧ s.dL_dq = (B q).dL_dq ∧ s.dx_dq = (B q).dx_dq ∧ s.dPx_dq = (B q).dPx_dq) ∧
      ∃ s t u w, UKF.correctionDiff ut (T.M q₀) s₀ = .ok s ∧ UKF.correctionDiff2 ut (T.M q₀) s = .ok t ∧ t.likelihoodDiff = .ok u ∧
        u.likelihoodDiff2 = .ok w ∧ w.toFilterAttrs = B q₀ := by
  have h0 : meritA ut (T.M q₀) (plain y) (parametrizedUkf T ut q₀ q₀).toFilterAttrs = .ok s₀.toFilterAttrs := by
    rw [corrAt_attrs, h]
    rfl
  obtain ⟨B₀, hB₀, -⟩ := merit_grad hk _ _ _ _ rfl h0
  have hA := start_seeded (ut := ut) hT
  have : ∀ᶠ q in 𝓝 q₀, ∃ B, hessA ut (T.M q) (plain y) (parametrizedUkf T ut q₀ q).toFilterAttrs = .ok B := by
    filter_upwards [gradA_eventually hk hT.M.near.self_of_nhds hA.here hB₀] with q hq
    obtain ⟨D, hD⟩ := hq
    exact (grad_hess _ _ _ _ rfl hD).imp fun _ h => h.1
  obtain ⟨B, hB⟩ := choose_ok this
  refine ⟨B, hessA_seeded hT.M hA hB, hB.mono fun q hq => ?_, ?_⟩
  · obtain ⟨C, hC, e⟩ := hess_grad _ _ _ _ rfl hq
    rw [corrDiffAt_attrs] at hC
    obtain ⟨s, hs, rfl⟩ := attrs_ok hC
    exact ⟨s, hs, (congrArg (fun z => z.2.2.2.2.2.2) e).symm, (congrArg (fun z => z.2.2.2.2.1) e).symm, (congrArg (fun z => z.2.2.2.2.2.1) e).symm⟩
  · have := hB.self_of_nhds
    rw [hess_order] at this
    obtain ⟨r, h1, h2⟩ := py_bind_eq_ok this
    obtain ⟨s, h3, h4⟩ := py_bind_eq_ok h2
    have e : corrAt T ut q₀ y q₀ = .ok s := by
      unfold corrAt
      rw [h1]
      exact h3
    rw [h] at e
    cases e
    obtain ⟨s1, h5, h6⟩ := py_bind_eq_ok h4
    obtain ⟨s2, h7, h8⟩ := py_bind_eq_ok h6
    obtain ⟨s3, h9, h10⟩ := py_bind_eq_ok h8
    obtain ⟨s4, h11, h12⟩ := py_bind_eq_ok h10
    exact ⟨s1, s2, s3, s4, h5, h7, h9, h11, Except.ok.inj h12⟩

/-! ### Transforms -/

theorem sigmaPoints_ok {ni : Nat} {o : Type} {ut : UT ni} {i : Fin ni → ℝ} {P : Matrix (Fin ni) (Fin ni) ℝ} {f : (Fin ni → ℝ) → o → ℝ}
    {d : UTData ut.nsigma (Fin ni) o} (h : ut.transform i P f = .ok d) : ut.sigmaPoints i P = .ok (d.S, d.idev, d.isigma) := by
  unfold UT.transform at h
  obtain ⟨⟨S, idev, isigma⟩, h1, h2⟩ := py_bind_eq_ok h
  rw [h1]
  simp only [py_pure] at h2
  cases h2
  rfl

theorem sigmaPointsDiff_ok {ni : Nat} {o p : Type} {ut : UT ni} {d : UTData ut.nsigma (Fin ni) o} {df_dq : (Fin ni → ℝ) → p → o → ℝ}
    {df_di : (Fin ni → ℝ) → Fin ni → o → ℝ} {di_dq : p → Fin ni → ℝ} {dPi_dq : p → Matrix (Fin ni) (Fin ni) ℝ}
    {dd : UTDiff ut.nsigma (Fin ni) o p} (h : ut.transformDiff d df_dq df_di di_dq dPi_dq = .ok dd) :
    ut.sigmaPointsDiff d.S di_dq dPi_dq = .ok (dd.chol, dd.didev, dd.disigma) := by
  unfold UT.transformDiff at h
  obtain ⟨c, h1, h2⟩ := py_bind_eq_ok h
  unfold UT.sigmaPointsDiff
  rw [h1]
  simp only [py_pure] at h2
  cases h2
  rfl

/-- The transforms of the tests, and their derivatives. -/
theorem transform_family (hk : ut.kind = .cholesky) (hT : RightSetup T q₀) {d₀ : UTData ut.nsigma (Fin nx) (Fin nx)}
    (h : transformAt T ut q₀ = .ok d₀) : ∃ (d : (Fin nq → ℝ) → UTData ut.nsigma (Fin nx) (Fin nx))
      (dd : (Fin nq → ℝ) → UTDiff ut.nsigma (Fin nx) (Fin nx) (Fin nq)),
      (∀ᶠ q in 𝓝 q₀, transformAt T ut q = .ok (d q)) ∧
      (∀ᶠ q in 𝓝 q₀, ut.transformDiff (d q) ((T.M q).df_dq 0) ((T.M q).df_dx 0) (T.dv_dq q) (T.dPv_dq q) = .ok (dd q)) ∧
      UTGrad ut d (dd q₀) q₀ ∧
      UTGrad2 ut d dd (ut.transformDiff2 (d q₀) (dd q₀) ((T.M q₀).d2f_dq2 0) ((T.M q₀).d2f_dx2 0) ((T.M q₀).d2f_dx_dq 0) (T.d2v_dq2 q₀) (T.d2Pv_dq2 q₀)) q₀ := by
  have hv := hT.v.self_of_nhds
  have hP := hT.Pv.self_of_nhds
  have hM := hT.M.near.self_of_nhds
  obtain ⟨d, hd⟩ := choose_ok (transform_eventually (i := T.v) (P := T.Pv) (f := fun q => (T.M q).f 0) hk h hP)
  have hdd : ∀ᶠ q in 𝓝 q₀, ∃ dd, ut.transformDiff (d q) ((T.M q).df_dq 0) ((T.M q).df_dx 0) (T.dv_dq q) (T.dPv_dq q) = .ok dd :=
    hd.mono fun q hq => diff_ok hk hq _ _ _ _
  obtain ⟨dd, hdd⟩ := choose_ok hdd
  exact ⟨d, dd, hd, hdd, transform_grad hd hv hP (fun x j => hM.f 0 x j) hdd.self_of_nhds,
    transform_grad2 (df_dq := fun q => (T.M q).df_dq 0) (df_di := fun q => (T.M q).df_dx 0) (di := T.dv_dq) (dP := T.dPv_dq) hd hv hP
      (fun x j => hM.f 0 x j) hT.dv hT.dPv (fun x b j => hT.M.df_dq 0 x b j) (fun x i j => hT.M.df_dx 0 x i j) hdd⟩

end Ceacoest.TestKalman
