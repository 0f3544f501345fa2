import Verif.Model.TestKalman
import Verif.Props.KalmanGrad
import Verif.Lemmas.KalmanHeapDemo

/-! # C98: what the tests of second derivatives of the filter compare -/

namespace Ceacoest.TestKalman
open Matrix Spec Filter Topology FilterClass

variable {nx : Nat} {o p : Type} [Fintype o] [LinearOrder o] [Fintype p]

/-- **C98.** `pem_hessian` returns the derivatives of what `pem_gradient` returns also where the derivatives that the filter is started
with are those of the moments at `q₀` only, as long as those of second order are the derivatives of what is assigned to those of first order. -/
theorem C98_hessian (put cut : UT nx) (hp : put.kind = .cholesky) (hc : cut.kind = .cholesky) (M : (p → ℝ) → KModel nx o p)
    (s : (p → ℝ) → UKF nx cut.nsigma put.nsigma o p) (q₀ : p → ℝ) (hM : SmoothModel2 M q₀) (hs : SeededAttrs2 (fun q => (s q).toFilterAttrs) q₀)
    (y : List (MaskedRow o)) (r₀ : ℝ × UKF nx cut.nsigma put.nsigma o p) (h : (UKF.cls put cut (M q₀)).pemMerit y (s q₀) = .ok r₀) :
    ∃ (g : (p → ℝ) → p → ℝ) (H : p → p → ℝ),
      (∀ᶠ q in 𝓝 q₀, ∃ s', (UKF.cls put cut (M q)).pemGradient y (s q) = .ok (g q, s')) ∧
      (∃ s', (UKF.cls put cut (M q₀)).pemHessian y (s q₀) = .ok (H, s')) ∧ ∀ b, HasGrad (fun q => g q b) (fun a => H a b) q₀ := by
  obtain ⟨A, hA, -⟩ := pemMerit_iff.1 ⟨r₀.2, h⟩
  obtain ⟨B₀, hB₀, -⟩ := walk_sim (fun A B : FilterAttrs nx p => A.zeroth = B.zeroth) (merit_grad hc) (merit_gradP hp) y _ _ _ rfl hA
  obtain ⟨C₀, hC₀, -⟩ := walk_sim (fun A B : FilterAttrs nx p => A.first = B.first) grad_hess grad_hessP y _ _ _ rfl hB₀
  obtain ⟨B, hB, e⟩ := hess_run_seeded hp hc hM y (fun q => (s q).toFilterAttrs) hs hC₀
  refine ⟨fun q => (B q).dL_dq, (B q₀).d2L_dq2, ?_, pemHessian_iff.2 ⟨_, e.self_of_nhds, rfl⟩, hB.dL⟩
  filter_upwards [e] with q hq
  obtain ⟨C, hC, hf⟩ := walk_sim (fun A B : FilterAttrs nx p => A.first = B.first) hess_grad hess_gradP y _ _ _ rfl hq
  exact pemGradient_iff.2 ⟨C, hC, (congrArg (fun z => z.2.2.2.2.2.2) hf).symm⟩

variable {v : (p → ℝ) → Fin nx → ℝ} {Pv : (p → ℝ) → Matrix (Fin nx) (Fin nx) ℝ} {dv_dq : (p → ℝ) → p → Fin nx → ℝ}
  {dPv_dq : (p → ℝ) → p → Matrix (Fin nx) (Fin nx) ℝ} {q₀ : p → ℝ}


theorem factory_smooth {ns ns' : Nat} (hv : ∀ i, HasGrad (fun q => v q i) (fun a => dv_dq q₀ a i) q₀)
    (hP : ∀ i j, HasGrad (fun q => Pv q i j) (fun a => dPv_dq q₀ a i j) q₀) :
    SmoothAttrs (fun q => (factory v Pv dv_dq dPv_dq q₀ q : UKF nx ns ns' o p).toFilterAttrs) q₀ :=
  ⟨Eventually.of_forall fun _ => rfl, hv, hP, hasGrad_const _⟩


theorem factory_seeded {ns ns' : Nat} (hv : ∀ i, HasGrad (fun q => v q i) (fun a => dv_dq q₀ a i) q₀)
    (hP : ∀ i j, HasGrad (fun q => Pv q i j) (fun a => dPv_dq q₀ a i j) q₀) :
    SeededAttrs2 (fun q => (factory v Pv dv_dq dPv_dq q₀ q : UKF nx ns ns' o p).toFilterAttrs) q₀ :=
  ⟨factory_smooth hv hP, fun _ _ => hasGrad_const _, fun _ _ _ => hasGrad_const _, fun _ => hasGrad_const _⟩

/-- What `test_ukf_pem_grad` compares agrees in exact arithmetic: at the parameters of the fixture, `pem_gradient` is the gradient of the
function that the test differentiates numerically. -/
theorem C98_test_grad (put cut : UT nx) (hp : put.kind = .cholesky) (hc : cut.kind = .cholesky) (M : (p → ℝ) → KModel nx o p)
    (hM : SmoothModel M q₀) (hv : ∀ i, HasGrad (fun q => v q i) (fun a => dv_dq q₀ a i) q₀)
    (hP : ∀ i j, HasGrad (fun q => Pv q i j) (fun a => dPv_dq q₀ a i j) q₀) (y : List (MaskedRow o))
    (r₀ : ℝ × UKF nx cut.nsigma put.nsigma o p) (h : (UKF.cls put cut (M q₀)).pemMerit y (factory v Pv dv_dq dPv_dq q₀ q₀) = .ok r₀) :
    ∃ (merit : (p → ℝ) → ℝ) (g : p → ℝ),
      (∀ᶠ q in 𝓝 q₀, ∃ s', (UKF.cls put cut (M q)).pemMerit y (factory v Pv dv_dq dPv_dq q₀ q) = .ok (merit q, s')) ∧
      (∃ s', (UKF.cls put cut (M q₀)).pemGradient y (factory v Pv dv_dq dPv_dq q₀ q₀) = .ok (g, s')) ∧ HasGrad merit g q₀ :=
  C46_gradient put cut hp hc M _ q₀ hM (factory_smooth hv hP) y r₀ h

/-- And so does what `test_ukf_pem_hessian` compares: `pem_hessian` is the derivative of the function that the test differentiates
numerically, … -/
theorem C98_test_hessian (put cut : UT nx) (hp : put.kind = .cholesky) (hc : cut.kind = .cholesky) (M : (p → ℝ) → KModel nx o p)
    (hM : SmoothModel2 M q₀) (hv : ∀ i, HasGrad (fun q => v q i) (fun a => dv_dq q₀ a i) q₀)
    (hP : ∀ i j, HasGrad (fun q => Pv q i j) (fun a => dPv_dq q₀ a i j) q₀) (y : List (MaskedRow o))
    (r₀ : ℝ × UKF nx cut.nsigma put.nsigma o p) (h : (UKF.cls put cut (M q₀)).pemMerit y (factory v Pv dv_dq dPv_dq q₀ q₀) = .ok r₀) :
    ∃ (g : (p → ℝ) → p → ℝ) (H : p → p → ℝ),
      (∀ᶠ q in 𝓝 q₀, ∃ s', (UKF.cls put cut (M q)).pemGradient y (factory v Pv dv_dq dPv_dq q₀ q) = .ok (g q, s')) ∧
      (∃ s', (UKF.cls put cut (M q₀)).pemHessian y (factory v Pv dv_dq dPv_dq q₀ q₀) = .ok (H, s')) ∧
      ∀ b, HasGrad (fun q => g q b) (fun a => H a b) q₀ :=
  C98_hessian put cut hp hc M _ q₀ hM (factory_seeded hv hP) y r₀ h

/-! ### … but it is not the second derivative of the merit -/

theorem grad_coord (q : Fin 1 → ℝ) : HasGrad (fun q : Fin 1 → ℝ => q 0) (fun _ => 1) q :=
  (hasGrad_coord 0).congr_grad fun a => by rw [if_pos (Subsingleton.elim a 0)]

theorem inv_two {a : Type} [Fintype a] [LinearOrder a] [Unique a] (i j : a) : ((of fun (_ _ : a) => √2 ^ 2)⁻¹ : Matrix a a ℝ) i j = 1 / 2 := by
  have h : (of fun (_ _ : a) => √2 ^ 2 : Matrix a a ℝ) * (of fun _ _ => 1 / 2) = 1 := by
    ext i j
    rw [Subsingleton.elim i j, mul_apply, Fintype.sum_unique, of_apply, of_apply, Real.sq_sqrt (by norm_num), one_apply_eq]
    norm_num
  rw [inv_eq_right_inv h, of_apply]

noncomputable instance : Unique Demo.half.Active where
  default := ⟨0, rfl⟩
  uniq := by
    rintro ⟨j, hj⟩
    refine Subtype.ext ?_
    fin_cases j
    · rfl
    · simp [Demo.half] at hj

/-- The merit of one sample of the demonstration model, started with any mean and variance one. -/
theorem demo_merit : ∃ (put : UT 1) (κ : ℝ), UT.init 1 .cholesky (1 : ℝ) = .ok put ∧ ∀ (q : Fin 1 → ℝ) (s : UKF 1 put.nsigma put.nsigma (Fin 2) (Fin 1)),
    s.Px = 1 → s.L = 0 → ∃ s', (UKF.cls put put (Demo.model q)).pemMerit [Demo.half] s = .ok (-((2 - s.x 0) ^ 2 / 4) - κ, s') := by
  obtain ⟨put, h⟩ := Demo.exists_ut
  have hk : (0 : ℝ) < ((1 : ℕ) : ℝ) + 1 := by norm_num
  refine ⟨put, Real.log (√2), h, fun q s hP hL => ?_⟩
  obtain ⟨ms, s', h1⟩ := (C43_returns (demo_affine q) h h hk hk (fun _ _ => ⟨PosDef.one, PosDef.one⟩) PosDef.one
    [Demo.half] s ⟨hP ▸ PosDef.one, hP ▸ PosDef.one⟩).1
  obtain ⟨L, s'', h2, -⟩ := C48_ukf_returns_partial put put (Demo.model q) transpose_one _ _ _ _ h1
  obtain ⟨B, hB, hBL⟩ := pemMerit_iff.1 ⟨s'', h2⟩
  have hB : meritA put (Demo.model q) Demo.half s.toFilterAttrs = .ok B := hB
  rcases meritA_cases hB with ⟨hy, -⟩ | ⟨-, r, hr, rfl⟩
  · exact absurd hy Demo.half_active
  obtain ⟨ht, hcs, hC, -⟩ := ukf_core_ok (m := r.1) (d := r.2) (activeR_symm Demo.half (R := (Demo.model q).R) transpose_one) hr
  obtain ⟨hm, hPo, -⟩ := affine_transform h hk.le trivial (A := of fun _ _ => 1) (b := 0)
    (f := fun x (j : Demo.half.Active) => (Demo.model q).h s.k x j.1) (by funext x j; simp [Demo.model, mulVec, dotProduct]) (hP ▸ PosDef.one.posSemidef) ht
  have hS : r.2.ut.Po + activeR Demo.half (Demo.model q).R = of fun _ _ => √2 ^ 2 := by
    rw [hPo, hP]
    ext i j
    rw [Subsingleton.elim i j, Real.sq_sqrt (by norm_num)]
    simp [mul_apply, activeR, Demo.model]
    norm_num
  rw [hS] at hcs hC
  rw [KHeap.cholU_scalar (Real.sqrt_pos.2 (by norm_num))] at hC
  have hC := (Except.ok.inj hC).symm
  have hI : ∀ i j, r.2.PyI i j = 1 / 2 := by
    intro i j
    rw [hcs.PyI]
    exact inv_two i j
  have he : ∀ i, r.2.e i = 2 - s.x 0 := by
    intro i
    rw [hcs.inn, hm, Subsingleton.elim i ⟨0, rfl⟩]
    rw [Pi.sub_apply, Pi.add_apply]
    simp [Demo.half, mulVec, dotProduct]
    exact one_mul _
  refine ⟨s'', ?_⟩
  rw [h2, ← hBL]
  congr 2
  dsimp only
  rw [Fintype.sum_unique, Fintype.sum_unique, Fintype.sum_unique, hC, he, hI, hL, of_apply]
  ring

/-- The mean is the square of the parameter. -/
noncomputable def square (q : Fin 1 → ℝ) : Fin 1 → ℝ := fun _ => q 0 ^ 2

noncomputable def squareDiff (q : Fin 1 → ℝ) : Fin 1 → Fin 1 → ℝ := fun _ _ => 2 * q 0

theorem square_grad (q : Fin 1 → ℝ) (i : Fin 1) : HasGrad (fun q => square q i) (fun a => squareDiff q a i) q :=
  (((grad_coord q).mul (grad_coord q)).congr (Eventually.of_forall fun q => sq (q 0))).congr_grad fun a => by simp only [squareDiff]; ring

/-- **C98.** One sample of a filter whose mean is the square of the parameter: the fixture makes `pem_hessian` return `-2`, where the
second derivative of the function that `pem_merit` returns is `-1`.  The fixture stops being a test of `pem_hessian` as second derivative of
`pem_merit` when the initial moments are not affine in the parameters. -/
theorem C98_not_second : ∃ (put : UT 1) (ℓ : (Fin 1 → ℝ) → ℝ) (H : Fin 1 → Fin 1 → ℝ),
    (∀ q, ∃ s', (UKF.cls put put (Demo.model q)).pemMerit [Demo.half] (factory square 1 squareDiff 0 1 q) = .ok (ℓ q, s')) ∧
    (∃ s', (UKF.cls put put (Demo.model 1)).pemHessian [Demo.half] (factory square 1 squareDiff 0 1 1) = .ok (H, s')) ∧ H 0 0 = -2 ∧
    (∃ H', H' 0 0 = -1 ∧ ∃ g, HasHess ℓ g H' 1) ∧ ¬∃ g, HasHess ℓ g H 1 := by
  obtain ⟨put, κ, h, hmer⟩ := demo_merit
  have hput : put.kind = .cholesky := (ut_init_ok h).2.2.1
  obtain ⟨s₀, h0⟩ := hmer 1 (factory square 1 squareDiff 0 1 1) rfl rfl
  obtain ⟨g, H, hg, ⟨s', hH⟩, hd⟩ := C98_test_hessian put put hput hput Demo.model (demo_smooth2 1) (square_grad 1)
    (dPv_dq := 0) (Pv := 1) (fun i j => hasGrad_const _) [Demo.half] _ h0
  have hgq : ∀ᶠ q in 𝓝 (1 : Fin 1 → ℝ), g q 0 = 2 - q 0 ^ 2 := by
    filter_upwards [hg] with q hq
    obtain ⟨t, ht⟩ := hq
    have hX : HasGrad (fun q' : Fin 1 → ℝ => q 0 ^ 2 + 2 * (q' 0 - q 0)) (fun _ => 2) q :=
      ((hasGrad_const _).add (((grad_coord q).sub (hasGrad_const _)).const_mul 2)).congr_grad fun a => by norm_num
    have h1 := C46_unique put put hput hput Demo.model
      (fun q' => { (factory square 1 squareDiff 0 1 q : UKF 1 put.nsigma put.nsigma (Fin 2) (Fin 1)) with x := fun _ => q 0 ^ 2 + 2 * (q' 0 - q 0) }) q
      (demo_smooth q) ⟨Eventually.of_forall fun _ => rfl, fun i => hX.congr_grad fun a => by simp [factory, squareDiff],
        fun i j => hasGrad_const _, hasGrad_const _⟩ [Demo.half] _ (g q) t
      (Eventually.of_forall fun q' => hmer q' _ rfl rfl) (by
        have e : (fun _ : Fin 1 => q 0 ^ 2 + 2 * (q 0 - q 0)) = square q := by
          funext i
          simp [square]
        dsimp only
        rw [e]
        exact ht)
    have h2 : HasGrad (fun q' : Fin 1 → ℝ => -((2 - (q 0 ^ 2 + 2 * (q' 0 - q 0))) ^ 2 / 4) - κ) (fun _ => 2 - q 0 ^ 2) q :=
      (((((((hasGrad_const 2).sub hX).mul ((hasGrad_const 2).sub hX)).mul_const (1 / 4)).neg).sub (hasGrad_const κ)).congr
        (Eventually.of_forall fun q' => by ring)).congr_grad fun a => by ring
    exact congrFun (h1.unique h2) 0
  have hH2 : H 0 0 = -2 := by
    have h1 : HasGrad (fun q => g q 0) (fun a => 0 - squareDiff 1 a 0) 1 :=
      ((hasGrad_const 2).sub (square_grad 1 0)).congr (by
        filter_upwards [hgq] with q hq
        rw [hq]
        rfl)
    have h2 := congrFun ((hd 0).unique h1) 0
    rw [h2]
    simp [squareDiff]
  have hℓ : ∀ q, HasGrad (fun q => -((2 - q 0 ^ 2) ^ 2 / 4) - κ) (fun _ : Fin 1 => (2 - q 0 ^ 2) * q 0) q := by
    intro q
    have h1 := (hasGrad_const 2).sub (square_grad q 0)
    exact (((((h1.mul h1).mul_const (1 / 4)).neg).sub (hasGrad_const κ)).congr (Eventually.of_forall fun q' => by
      simp only [square]; ring)).congr_grad fun a => by simp only [square, squareDiff]; ring
  have hg' : HasGrad (fun q : Fin 1 → ℝ => (2 - q 0 ^ 2) * q 0) (fun _ => -1) 1 :=
    ((((hasGrad_const 2).sub (square_grad 1 0)).mul (grad_coord 1)).congr (Eventually.of_forall fun q' => rfl)).congr_grad fun a => by
      simp only [square, squareDiff, Pi.one_apply]; norm_num
  refine ⟨put, _, H, fun q => hmer q _ rfl rfl, ⟨s', hH⟩, hH2, ⟨fun _ _ => -1, rfl, fun q _ => (2 - q 0 ^ 2) * q 0,
    Eventually.of_forall hℓ, fun b => hg'⟩, ?_⟩
  rintro ⟨g', h1, h2⟩
  have h3 : HasGrad (fun q => g' q 0) (fun _ => -1) 1 := hg'.congr (by
    filter_upwards [h1] with q hq
    exact congrFun (hq.unique (hℓ q)) 0)
  have h4 := congrFun ((h2 0).unique h3) 0
  rw [hH2] at h4
  norm_num at h4

/-- The hypotheses hold in that example. -/
example : ∃ (put : UT 1) (r : ℝ × UKF 1 put.nsigma put.nsigma (Fin 2) (Fin 1)), put.kind = .cholesky ∧
    SeededAttrs2 (fun q => (factory square 1 squareDiff 0 1 q : UKF 1 put.nsigma put.nsigma (Fin 2) (Fin 1)).toFilterAttrs) 1 ∧
    (UKF.cls put put (Demo.model 1)).pemMerit [Demo.half] (factory square 1 squareDiff 0 1 1) = .ok r := by
  obtain ⟨put, κ, h, hmer⟩ := demo_merit
  obtain ⟨s', h'⟩ := hmer 1 (factory square 1 squareDiff 0 1 1) rfl rfl
  exact ⟨put, _, (ut_init_ok h).2.2.1, factory_seeded (square_grad 1) fun i j => hasGrad_const _, h'⟩

end Ceacoest.TestKalman
