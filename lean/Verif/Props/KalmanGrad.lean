import Verif.Lemmas.KalmanRun2
import Verif.Props.KalmanMerit
import Mathlib.Analysis.Calculus.FDeriv.Mul

/-! # C46, C47: the derivatives of the likelihood -/

namespace Ceacoest
open Matrix Spec Filter Topology FilterClass
variable {nx : Nat} {o p : Type} [Fintype o] [LinearOrder o] [Fintype p]

/-- **C46.** For the unscented filter with Cholesky factors, a smooth family of models and a smooth family of initial filters: where
`pem_merit` returns, so it does nearby, and `pem_gradient` returns the gradient of what `pem_merit` returns. -/
theorem C46_gradient (put cut : UT nx) (hp : put.kind = .cholesky) (hc : cut.kind = .cholesky) (M : (p → ℝ) → KModel nx o p)
    (s : (p → ℝ) → UKF nx cut.nsigma put.nsigma o p) (q₀ : p → ℝ) (hM : SmoothModel M q₀) (hs : SmoothAttrs (fun q => (s q).toFilterAttrs) q₀)
    (y : List (MaskedRow o)) (r₀ : ℝ × UKF nx cut.nsigma put.nsigma o p) (h : (UKF.cls put cut (M q₀)).pemMerit y (s q₀) = .ok r₀) :
    ∃ (ℓ : (p → ℝ) → ℝ) (g : p → ℝ),
      (∀ᶠ q in 𝓝 q₀, ∃ s', (UKF.cls put cut (M q)).pemMerit y (s q) = .ok (ℓ q, s')) ∧
      (∃ s', (UKF.cls put cut (M q₀)).pemGradient y (s q₀) = .ok (g, s')) ∧ HasGrad ℓ g q₀ := by
  obtain ⟨A, hA, -⟩ := pemMerit_iff.1 ⟨r₀.2, h⟩
  obtain ⟨B₀, hB₀, -⟩ := walk_sim (fun A B : FilterAttrs nx p => A.zeroth = B.zeroth) (merit_grad hc) (merit_gradP hp) y _ _ _ rfl hA
  obtain ⟨B, hB, e⟩ := grad_run hp hc hM y (fun q => (s q).toFilterAttrs) hs hB₀
  refine ⟨fun q => (B q).L, (B q₀).dL_dq, ?_, pemGradient_iff.2 ⟨_, e.self_of_nhds, rfl⟩, hB.L⟩
  filter_upwards [e] with q hq
  obtain ⟨C, hC, hz⟩ := walk_sim (fun A B : FilterAttrs nx p => A.zeroth = B.zeroth) grad_merit grad_meritP y _ _ _ rfl hq
  exact pemMerit_iff.2 ⟨C, hC, (congrArg (fun z => z.2.2.2) hz).symm⟩

/-- Whatever `pem_merit` returns near by, and whatever `pem_gradient` returns. -/
theorem C46_unique (put cut : UT nx) (hp : put.kind = .cholesky) (hc : cut.kind = .cholesky) (M : (p → ℝ) → KModel nx o p)
    (s : (p → ℝ) → UKF nx cut.nsigma put.nsigma o p) (q₀ : p → ℝ) (hM : SmoothModel M q₀) (hs : SmoothAttrs (fun q => (s q).toFilterAttrs) q₀)
    (y : List (MaskedRow o)) (ℓ : (p → ℝ) → ℝ) (g : p → ℝ) (s' : UKF nx cut.nsigma put.nsigma o p)
    (hl : ∀ᶠ q in 𝓝 q₀, ∃ s', (UKF.cls put cut (M q)).pemMerit y (s q) = .ok (ℓ q, s'))
    (hg : (UKF.cls put cut (M q₀)).pemGradient y (s q₀) = .ok (g, s')) : HasGrad ℓ g q₀ := by
  obtain ⟨t, ht⟩ := hl.self_of_nhds
  obtain ⟨ℓ', g', h1, ⟨t', h2⟩, h3⟩ := C46_gradient put cut hp hc M s q₀ hM hs y _ ht
  rw [hg] at h2
  cases h2
  refine h3.congr ?_
  filter_upwards [hl, h1] with q h4 h5
  obtain ⟨u, h4⟩ := h4
  obtain ⟨u', h5⟩ := h5
  rw [h4] at h5
  exact congrArg Prod.fst (Except.ok.inj h5)

/-- **C47.** If the model also gives its second derivatives, then `pem_hessian` returns the second derivatives of what `pem_merit` returns:
near `q₀` both `pem_merit` and `pem_gradient` return, and at `q₀` `pem_hessian` returns the derivatives of what `pem_gradient` returns. -/
theorem C47_hessian (put cut : UT nx) (hp : put.kind = .cholesky) (hc : cut.kind = .cholesky) (M : (p → ℝ) → KModel nx o p)
    (s : (p → ℝ) → UKF nx cut.nsigma put.nsigma o p) (q₀ : p → ℝ) (hM : SmoothModel2 M q₀) (hs : SmoothAttrs2 (fun q => (s q).toFilterAttrs) q₀)
    (y : List (MaskedRow o)) (r₀ : ℝ × UKF nx cut.nsigma put.nsigma o p) (h : (UKF.cls put cut (M q₀)).pemMerit y (s q₀) = .ok r₀) :
    ∃ (ℓ : (p → ℝ) → ℝ) (g : (p → ℝ) → p → ℝ) (H : p → p → ℝ),
      (∀ᶠ q in 𝓝 q₀, (∃ s', (UKF.cls put cut (M q)).pemMerit y (s q) = .ok (ℓ q, s')) ∧
        ∃ s', (UKF.cls put cut (M q)).pemGradient y (s q) = .ok (g q, s')) ∧
      (∃ s', (UKF.cls put cut (M q₀)).pemHessian y (s q₀) = .ok (H, s')) ∧ HasHess ℓ g H q₀ := by
  obtain ⟨A, hA, -⟩ := pemMerit_iff.1 ⟨r₀.2, h⟩
  obtain ⟨B₀, hB₀, -⟩ := walk_sim (fun A B : FilterAttrs nx p => A.zeroth = B.zeroth) (merit_grad hc) (merit_gradP hp) y _ _ _ rfl hA
  obtain ⟨C₀, hC₀, -⟩ := walk_sim (fun A B : FilterAttrs nx p => A.first = B.first) grad_hess grad_hessP y _ _ _ rfl hB₀
  obtain ⟨B, hB, e⟩ := hess_run hp hc hM y (fun q => (s q).toFilterAttrs) hs hC₀
  refine ⟨fun q => (B q).L, fun q => (B q).dL_dq, (B q₀).d2L_dq2, ?_, pemHessian_iff.2 ⟨_, e.self_of_nhds, rfl⟩,
    hB.near.mono fun q h => h.L, hB.dL⟩
  filter_upwards [e] with q hq
  obtain ⟨C, hC, hf⟩ := walk_sim (fun A B : FilterAttrs nx p => A.first = B.first) hess_grad hess_gradP y _ _ _ rfl hq
  obtain ⟨D, hD, hz⟩ := walk_sim (fun A B : FilterAttrs nx p => A.zeroth = B.zeroth) grad_merit grad_meritP y _ _ _ rfl hC
  refine ⟨pemMerit_iff.2 ⟨D, hD, ?_⟩, pemGradient_iff.2 ⟨C, hC, ?_⟩⟩
  · have e1 : (B q).L = C.L := congrArg (fun z => z.2.2.2.1) hf
    have e2 : C.L = D.L := congrArg (fun z => z.2.2.2) hz
    exact (e1.trans e2).symm
  · exact (congrArg (fun z => z.2.2.2.2.2.2) hf).symm

/-- The matrix that `pem_hessian` returns is symmetric. -/
theorem C47_symm (put cut : UT nx) (hp : put.kind = .cholesky) (hc : cut.kind = .cholesky) (M : (p → ℝ) → KModel nx o p)
    (s : (p → ℝ) → UKF nx cut.nsigma put.nsigma o p) (q₀ : p → ℝ) (hM : SmoothModel2 M q₀) (hs : SmoothAttrs2 (fun q => (s q).toFilterAttrs) q₀)
    (y : List (MaskedRow o)) (r₀ : ℝ × UKF nx cut.nsigma put.nsigma o p) (h : (UKF.cls put cut (M q₀)).pemMerit y (s q₀) = .ok r₀)
    (H : p → p → ℝ) (s' : UKF nx cut.nsigma put.nsigma o p) (hH : (UKF.cls put cut (M q₀)).pemHessian y (s q₀) = .ok (H, s')) (a b : p) :
    H a b = H b a := by
  obtain ⟨ℓ, g, H', -, ⟨t, h1⟩, h2⟩ := C47_hessian put cut hp hc M s q₀ hM hs y r₀ h
  rw [hH] at h1
  cases h1
  exact h2.symm a b

/-! ### A concrete case -/

theorem demo_mul (q : Fin 1 → ℝ) (x : Fin 1 → ℝ) :
    HasGrad₂ (fun (q x : Fin 1 → ℝ) => q 0 * x 0) (fun _ => x 0) (fun _ => q 0) q x := by
  have h1 : HasFDerivAt (fun z : (Fin 1 → ℝ) × (Fin 1 → ℝ) => z.1 0) ((ContinuousLinearMap.proj (R := ℝ) (φ := fun _ : Fin 1 => ℝ) 0).comp
    (ContinuousLinearMap.fst ℝ (Fin 1 → ℝ) (Fin 1 → ℝ))) (q, x) :=
    ((ContinuousLinearMap.proj (R := ℝ) (φ := fun _ : Fin 1 => ℝ) 0).comp (ContinuousLinearMap.fst ℝ (Fin 1 → ℝ) (Fin 1 → ℝ))).hasFDerivAt
  have h2 : HasFDerivAt (fun z : (Fin 1 → ℝ) × (Fin 1 → ℝ) => z.2 0) ((ContinuousLinearMap.proj (R := ℝ) (φ := fun _ : Fin 1 => ℝ) 0).comp
    (ContinuousLinearMap.snd ℝ (Fin 1 → ℝ) (Fin 1 → ℝ))) (q, x) :=
    ((ContinuousLinearMap.proj (R := ℝ) (φ := fun _ : Fin 1 => ℝ) 0).comp (ContinuousLinearMap.snd ℝ (Fin 1 → ℝ) (Fin 1 → ℝ))).hasFDerivAt
  unfold HasGrad₂
  refine (h1.mul h2).congr_fderiv ?_
  ext v <;> simp [lin_apply]

theorem demo_right (q : Fin 1 → ℝ) (x : Fin 1 → ℝ) :
    HasGrad₂ (fun (_ x : Fin 1 → ℝ) => x 0) (fun _ : Fin 1 => 0) (fun _ => 1) q x := by
  have h2 : HasFDerivAt (fun z : (Fin 1 → ℝ) × (Fin 1 → ℝ) => z.2 0) ((ContinuousLinearMap.proj (R := ℝ) (φ := fun _ : Fin 1 => ℝ) 0).comp
    (ContinuousLinearMap.snd ℝ (Fin 1 → ℝ) (Fin 1 → ℝ))) (q, x) :=
    ((ContinuousLinearMap.proj (R := ℝ) (φ := fun _ : Fin 1 => ℝ) 0).comp (ContinuousLinearMap.snd ℝ (Fin 1 → ℝ) (Fin 1 → ℝ))).hasFDerivAt
  unfold HasGrad₂
  refine h2.congr_fderiv ?_
  ext v <;> simp [lin_apply]

theorem demo_left (q : Fin 1 → ℝ) (x : Fin 1 → ℝ) :
    HasGrad₂ (fun (q _ : Fin 1 → ℝ) => q 0) (fun _ : Fin 1 => 1) (fun _ : Fin 1 => 0) q x := by
  have h2 : HasFDerivAt (fun z : (Fin 1 → ℝ) × (Fin 1 → ℝ) => z.1 0) ((ContinuousLinearMap.proj (R := ℝ) (φ := fun _ : Fin 1 => ℝ) 0).comp
    (ContinuousLinearMap.fst ℝ (Fin 1 → ℝ) (Fin 1 → ℝ))) (q, x) :=
    ((ContinuousLinearMap.proj (R := ℝ) (φ := fun _ : Fin 1 => ℝ) 0).comp (ContinuousLinearMap.fst ℝ (Fin 1 → ℝ) (Fin 1 → ℝ))).hasFDerivAt
  unfold HasGrad₂
  refine h2.congr_fderiv ?_
  ext v <;> simp [lin_apply]

theorem demo_const (c : ℝ) (q : Fin 1 → ℝ) (x : Fin 1 → ℝ) :
    HasGrad₂ (fun (_ _ : Fin 1 → ℝ) => c) (fun _ : Fin 1 => 0) (fun _ : Fin 1 => 0) q x := by
  unfold HasGrad₂
  refine (hasFDerivAt_const c (q, x)).congr_fderiv ?_
  ext v <;> simp [lin_apply]

theorem demo_smooth (q : Fin 1 → ℝ) : SmoothModel Demo.model q where
  f _ x _ := demo_mul q x
  h _ x _ := demo_right q x
  Q _ x i j := demo_const _ q x
  R i j := hasGrad_const _
  symm := Eventually.of_forall fun _ => transpose_one

theorem demo_smooth2 (q : Fin 1 → ℝ) : SmoothModel2 Demo.model q where
  near := Eventually.of_forall demo_smooth
  df_dq _ x _ _ := demo_right q x
  df_dx _ x _ _ := demo_left q x
  dh_dq _ x _ _ := demo_const _ q x
  dh_dx _ x _ _ := demo_const _ q x
  dQ_dq _ x _ _ _ := demo_const _ q x
  dQ_dx _ x _ _ _ := demo_const _ q x
  dR_dq _ _ _ := hasGrad_const _

theorem demo_attrs2 (q : Fin 1 → ℝ) : SmoothAttrs2 (fun _ : Fin 1 → ℝ => Demo.attrs) q :=
  ⟨Eventually.of_forall fun q => ⟨Eventually.of_forall fun _ => rfl, fun _ => hasGrad_const _, fun _ _ => hasGrad_const _, hasGrad_const _⟩,
    fun _ _ => hasGrad_const _, fun _ _ _ => hasGrad_const _, fun _ => hasGrad_const _⟩

/-- The hypotheses of C46 and C47 hold for the demonstration model and three samples, of which one is partly and one wholly masked. -/
example : ∃ put ℓ g H, UT.init 1 .cholesky (1 : ℝ) = .ok put ∧
    (∀ᶠ q in 𝓝 (2 : Fin 1 → ℝ), (∃ s', (UKF.cls put put (Demo.model q)).pemMerit [Demo.half, Demo.none, Demo.both]
      (Demo.ukf put.nsigma put.nsigma) = .ok (ℓ q, s')) ∧ ∃ s', (UKF.cls put put (Demo.model q)).pemGradient [Demo.half, Demo.none, Demo.both]
      (Demo.ukf put.nsigma put.nsigma) = .ok (g q, s')) ∧
    (∃ s', (UKF.cls put put (Demo.model 2)).pemHessian [Demo.half, Demo.none, Demo.both] (Demo.ukf put.nsigma put.nsigma) = .ok (H, s')) ∧
    HasHess ℓ g H 2 := by
  obtain ⟨put, h⟩ := Demo.exists_ut
  have hk : (0 : ℝ) < ((1 : ℕ) : ℝ) + 1 := by norm_num
  have hkind : put.kind = .cholesky := by
    unfold UT.init at h
    split at h
    · cases h
    · cases h; rfl
  obtain ⟨ms, s', h1⟩ := (C43_returns (demo_affine 2) h h hk hk (fun _ _ => ⟨PosDef.one, PosDef.one⟩) PosDef.one
    [Demo.half, Demo.none, Demo.both] (Demo.ukf put.nsigma put.nsigma) ⟨PosDef.one, PosDef.one⟩).1
  obtain ⟨L, s'', h2, -⟩ := C48_ukf_returns_partial put put (Demo.model 2) transpose_one _ _ _ _ h1
  obtain ⟨ℓ, g, H, h3⟩ := C47_hessian put put hkind hkind Demo.model (fun _ => Demo.ukf put.nsigma put.nsigma) 2 (demo_smooth2 2) (demo_attrs2 2)
    _ _ h2
  exact ⟨put, ℓ, g, H, h, h3⟩

end Ceacoest
