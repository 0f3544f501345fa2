import Verif.Lemmas.TestKalmanDiff2

/-! # C102: what the tests of derivatives in test_kalman.py establish

In exact arithmetic, with steps of `central_diff` that are small enough. -/

namespace Ceacoest.TestKalman
open Matrix Spec Filter Topology FilterClass

variable {nx ny nq : Nat} (T : Setup nx ny nq) (ut : UT nx) (q₀ : Fin nq → ℝ) (y : Fin ny → ℝ)

/-- **C102.** The numerical derivatives of functions that return arrays with differentiable entries pass, compared to the derivatives, … -/
theorem C102_passes {F : (Fin nq → ℝ) → Py (NDArray ℝ)} {G : (Fin nq → ℝ) → NDArray ℝ} {D : Fin nq → NDArray ℝ} {sh : List Nat}
    (hG : GradArr G D sh q₀) (hn : 0 < nq) (hF : ∀ᶠ q in 𝓝 q₀, F q = .ok (G q)) {tol : ℝ} (ht : 0 < tol) :
    ForSmallSteps fun c => ∃ b, numDiff c F q₀ = .ok b ∧ assertDiff b (stack sh D) tol = .ok () :=
  hG.passes hn hF ht

/-- … and fail, compared to an array with an entry that is farther from the derivative than the tolerance. -/
theorem C102_rejects {F : (Fin nq → ℝ) → Py (NDArray ℝ)} {G : (Fin nq → ℝ) → NDArray ℝ} {D A : Fin nq → NDArray ℝ} {sh : List Nat}
    (hG : GradArr G D sh q₀) (hF : ∀ᶠ q in 𝓝 q₀, F q = .ok (G q)) {tol : ℝ} (hA : ∀ a, (A a).shape = sh ∧ (A a).WF)
    {i : Fin nq} {r : Nat} (hr : r < sh.prod) (hfar : tol * (1 + |(A i).data.getD r 0|) < |(D i).data.getD r 0 - (A i).data.getD r 0|) :
    ForSmallSteps fun c => ∃ b, numDiff c F q₀ = .ok b ∧ assertDiff b (stack sh A) tol = .error .assertionError :=
  hG.rejects hF hA hr hfar

/-- The derivative of `q` is one, not three. -/
example : ForSmallSteps fun c => ∃ b, numDiff c (fun q : Fin 1 → ℝ => .ok (arr0 (q 0))) (fun _ => 7) = .ok b ∧
    assertDiff b (stack [] fun _ : Fin 1 => arr0 3) (1 / 10 ^ 8) = .error .assertionError :=
  C102_rejects (fun _ => 7) (gradArr0 (hasGrad_coord 0)) (.of_forall fun _ => rfl) (fun _ => ⟨rfl, by simp [arr0, NDArray.WF]⟩) (i := 0) (r := 0) (by simp)
    (by simp [arr0]; norm_num)

variable {T ut q₀ y}

/-- Square roots. -/
theorem C102_sqrt (hk : ut.kind = .cholesky) (hn : 0 < nq) (hT : RightSetup T q₀) {S₀ : Matrix (Fin nx) (Fin nx) ℝ} (h : ut.sqrt (T.Pv q₀) = .ok S₀) :
    ForSmallSteps fun c => testUtSqrtDiff T ut c q₀ = .ok () := by
  have hP := fun r : Tril (Fin nx) => hT.Pv.self_of_nhds r.1.1 r.1.2
  rw [sqrt_cholesky hk] at h
  obtain ⟨S, hS⟩ := choose_ok (cholU_eventually hP h)
  have hd := cholDiff_ok (cholU_isChol hS.self_of_nhds) (T.dPv_dq q₀)
  have hG := gradArr2 (chol_grad hP hS hd)
  refine (hG.passes (F := fun q => do return arr2 (← ut.sqrt (T.Pv q))) hn (hS.mono fun q hq => ?_) (tol := 1 / 10 ^ 8) (by positivity)).mono ?_
  · rw [sqrt_cholesky hk, hq]
    rfl
  · rintro c ⟨b, h1, h2⟩
    unfold testUtSqrtDiff
    rw [h1, sqrt_cholesky hk, hS.self_of_nhds]
    simp only [py_bind_ok]
    unfold UT.sqrtDiff
    rw [hk]
    simp only
    rw [hd]
    exact h2

theorem C102_sqrt2 (hk : ut.kind = .cholesky) (hn : 0 < nq) (hT : RightSetup T q₀) {S₀ : Matrix (Fin nx) (Fin nx) ℝ} (h : ut.sqrt (T.Pv q₀) = .ok S₀) :
    ForSmallSteps fun c => testUtSqrtDiff2 T ut c q₀ = .ok () := by
  have hP := fun r : Tril (Fin nx) => hT.Pv.self_of_nhds r.1.1 r.1.2
  rw [sqrt_cholesky hk] at h
  obtain ⟨S, hS⟩ := choose_ok (cholU_eventually hP h)
  have hd : ∀ᶠ q in 𝓝 q₀, ∃ d, cholDiff (S q) (T.dPv_dq q) = .ok d := hS.mono fun q hq => ⟨_, cholDiff_ok (cholU_isChol hq) (T.dPv_dq q)⟩
  obtain ⟨d, hd⟩ := choose_ok hd
  have hsd : ∀ Q dQ, ut.sqrtDiff (p := Fin nq) Q dQ = cholDiff Q dQ := fun Q dQ => by
    unfold UT.sqrtDiff
    rw [hk]
  have hG := gradArr_stack fun b => gradArr2 (chol_grad2 (d2Q := T.d2Pv_dq2 q₀) hP (fun b r => hT.dPv b r.1.1 r.1.2) hS hd b)
  refine (hG.passes (F := fun q => do
    let S ← ut.sqrt (T.Pv q)
    let d ← ut.sqrtDiff S (T.dPv_dq q)
    return stack [nx, nx] fun b => arr2 (d.dS b)) hn ((hS.and hd).mono fun q hq => ?_) (tol := 1 / 10 ^ 8) (by positivity)).mono ?_
  · rw [sqrt_cholesky hk, hq.1]
    simp only [py_bind_ok]
    rw [hsd, hq.2]
    rfl
  · rintro c ⟨b, h1, h2⟩
    unfold testUtSqrtDiff2
    rw [h1, sqrt_cholesky hk, hS.self_of_nhds]
    simp only [py_bind_ok]
    rw [hsd, hd.self_of_nhds]
    exact h2

/-- Sigma points. -/
theorem C102_sigma (hk : ut.kind = .cholesky) (hn : 0 < nq) (hT : RightSetup T q₀)
    {r₀ : Matrix (Fin nx) (Fin nx) ℝ × (Fin ut.nsigma → Fin nx → ℝ) × (Fin ut.nsigma → Fin nx → ℝ)} (h : ut.sigmaPoints (T.v q₀) (T.Pv q₀) = .ok r₀) :
    ForSmallSteps fun c => testSigmaPointsDiff T ut c q₀ = .ok () := by
  have h0 : ∃ d₀, transformAt T ut q₀ = .ok d₀ := by
    unfold transformAt UT.transform
    rw [h]
    exact ⟨_, rfl⟩
  obtain ⟨d₀, h0⟩ := h0
  obtain ⟨d, dd, hd, hdd, hG, -⟩ := transform_family hk hT h0
  have hA := gradArr2 (G := fun q => of (d q).isigma) (D := fun a => of fun k i => (dd q₀).disigma k a i) hG.isigma
  refine (hA.passes (F := fun q => do return arr2 (of (← ut.sigmaPoints (T.v q) (T.Pv q)).2.2)) hn (hd.mono fun q hq => ?_)
    (tol := 5 / 10 ^ 8) (by positivity)).mono ?_
  · rw [sigmaPoints_ok hq]
    rfl
  · rintro c ⟨b, h1, h2⟩
    unfold testSigmaPointsDiff
    rw [h1, sigmaPoints_ok hd.self_of_nhds]
    simp only [py_bind_ok]
    rw [sigmaPointsDiff_ok hdd.self_of_nhds]
    exact h2

theorem C102_sigma2 (hk : ut.kind = .cholesky) (hn : 0 < nq) (hT : RightSetup T q₀)
    {r₀ : Matrix (Fin nx) (Fin nx) ℝ × (Fin ut.nsigma → Fin nx → ℝ) × (Fin ut.nsigma → Fin nx → ℝ)} (h : ut.sigmaPoints (T.v q₀) (T.Pv q₀) = .ok r₀) :
    ForSmallSteps fun c => testSigmaPointsDiff2 T ut c q₀ = .ok () := by
  have h0 : ∃ d₀, transformAt T ut q₀ = .ok d₀ := by
    unfold transformAt UT.transform
    rw [h]
    exact ⟨_, rfl⟩
  obtain ⟨d₀, h0⟩ := h0
  obtain ⟨d, dd, hd, hdd, -, hG⟩ := transform_family hk hT h0
  have hA := gradArr_stack fun k => gradArr2 (q₀ := q₀) (G := fun q => of ((dd q).disigma k))
    (D := fun a => of fun b i => (ut.sigmaPointsDiff2 (dd q₀).chol (T.d2v_dq2 q₀) (T.d2Pv_dq2 q₀)).2 k a b i) fun b j => by
      refine ((hG.didev k b j).add (hT.dv b j)).congr (hdd.mono fun q hq => ?_)
      exact (diff_spec hq).disigma k b j
  refine (hA.passes (F := fun q => do
    let (S, _, _) ← ut.sigmaPoints (T.v q) (T.Pv q)
    let (_, _, disigma) ← ut.sigmaPointsDiff S (T.dv_dq q) (T.dPv_dq q)
    return stack [nq, nx] fun k => arr2 (of (disigma k))) hn ((hd.and hdd).mono fun q hq => ?_) (tol := 5 / 10 ^ 8) (by positivity)).mono ?_
  · rw [sigmaPoints_ok hq.1]
    simp only [py_bind_ok]
    rw [sigmaPointsDiff_ok hq.2]
    rfl
  · rintro c ⟨b, h1, h2⟩
    unfold testSigmaPointsDiff2
    rw [h1, sigmaPoints_ok hd.self_of_nhds]
    simp only [py_bind_ok]
    rw [sigmaPointsDiff_ok hdd.self_of_nhds]
    exact h2

/-- Transforms. -/
theorem C102_ut (hk : ut.kind = .cholesky) (hn : 0 < nq) (hT : RightSetup T q₀) {d₀ : UTData ut.nsigma (Fin nx) (Fin nx)}
    (h : transformAt T ut q₀ = .ok d₀) : ForSmallSteps fun c => testUtDiff T ut c q₀ = .ok () := by
  obtain ⟨d, dd, hd, hdd, hG, -⟩ := transform_family hk hT h
  have h8 : (0 : ℝ) < 1 / 10 ^ 8 := by positivity
  refine ((((gradArr1 hG.mean).passes (F := fun q => do return arr1 (← transformAt T ut q).mean) hn (hd.mono fun q hq => ?_) h8).and
    ((gradArr2 hG.Po).passes (F := fun q => do return arr2 (← transformAt T ut q).Po) hn (hd.mono fun q hq => ?_) h8)).and
    ((gradArr2 hG.crosscov).passes (F := fun q => do return arr2 (ut.crosscov (← transformAt T ut q))) hn (hd.mono fun q hq => ?_) h8)).mono ?_
  · rw [hq]; rfl
  · rw [hq]; rfl
  · rw [hq]; rfl
  · rintro c ⟨⟨⟨b1, e1, p1⟩, b2, e2, p2⟩, b3, e3, p3⟩
    have e : transformDiffAt T ut q₀ = .ok (d q₀, dd q₀) := by
      unfold transformDiffAt
      rw [hd.self_of_nhds]
      simp only [py_bind_ok]
      rw [hdd.self_of_nhds]
      rfl
    unfold testUtDiff
    rw [e1, e2, e3, e]
    simp only [py_bind_ok]
    rw [p1, p2]
    exact p3

theorem C102_ut2 (hk : ut.kind = .cholesky) (hn : 0 < nq) (hT : RightSetup T q₀) {d₀ : UTData ut.nsigma (Fin nx) (Fin nx)}
    (h : transformAt T ut q₀ = .ok d₀) : ForSmallSteps fun c => testUtDiff2 T ut c q₀ = .ok () := by
  obtain ⟨d, dd, hd, hdd, -, hG⟩ := transform_family hk hT h
  have e : ∀ᶠ q in 𝓝 q₀, transformDiffAt T ut q = .ok (d q, dd q) := by
    filter_upwards [hd, hdd] with q h1 h2
    unfold transformDiffAt
    rw [h1]
    simp only [py_bind_ok]
    rw [h2]
    rfl
  have h8 : (0 : ℝ) < 1 / 10 ^ 8 := by positivity
  have h5 : (0 : ℝ) < 5 / 10 ^ 8 := by positivity
  refine ((((gradArr_stack fun b => gradArr1 (hG.do_dq b)).passes (F := fun q => do
      let r ← transformDiffAt T ut q
      return stack [nx] fun b => arr1 (r.2.do_dq b)) hn (e.mono fun q hq => ?_) h8).and
    ((gradArr_stack fun b => gradArr2 (hG.dPo b)).passes (F := fun q => do
      let r ← transformDiffAt T ut q
      return stack [nx, nx] fun b => arr2 (r.2.dPo_dq b)) hn (e.mono fun q hq => ?_) h5)).and
    ((gradArr_stack fun b => gradArr2 (hG.crosscov b)).passes (F := fun q => do
      let r ← transformDiffAt T ut q
      return stack [nx, nx] fun b => arr2 (ut.crosscovDiff r.1 r.2 b)) hn (e.mono fun q hq => ?_) h5)).mono ?_
  · rw [hq]; rfl
  · rw [hq]; rfl
  · rw [hq]; rfl
  · rintro c ⟨⟨⟨b1, e1, p1⟩, b2, e2, p2⟩, b3, e3, p3⟩
    unfold testUtDiff2
    rw [e1, e2, e3, e.self_of_nhds]
    simp only [py_bind_ok]
    rw [p1, p2]
    exact p3

/-- Predictions. -/
theorem C102_pred (hk : ut.kind = .cholesky) (hn : 0 < nq) (hT : RightSetup T q₀) {s₀ : UKF nx ut.nsigma ut.nsigma (Fin ny) (Fin nq)}
    (h : predAt T ut q₀ q₀ = .ok s₀) : ForSmallSteps fun c => testUtPredDiff T ut c q₀ = .ok () := by
  obtain ⟨B, hB, hF, s, hs, e⟩ := pred_family hk hT h
  have h8 : (0 : ℝ) < 1 / 10 ^ 8 := by positivity
  have h5 : (0 : ℝ) < 5 / 10 ^ 8 := by positivity
  refine (((gradArr1 hB.x).passes (F := fun q' => do return arr1 (← predAt T ut q₀ q').x) hn (hF.mono fun q hq => ?_) h8).and
    ((gradArr2 hB.Px).passes (F := fun q' => do return arr2 (← predAt T ut q₀ q').Px) hn (hF.mono fun q hq => ?_) h5)).mono ?_
  · obtain ⟨s, h1, h2, h3⟩ := hq
    rw [h1, ← h2]; rfl
  · obtain ⟨s, h1, h2, h3⟩ := hq
    rw [h1, ← h3]; rfl
  · rintro c ⟨⟨b1, e1, p1⟩, b2, e2, p2⟩
    unfold predDiffAt at hs
    rw [h] at hs
    simp only [py_bind_ok] at hs
    unfold testUtPredDiff
    rw [e1, e2, h]
    simp only [py_bind_ok]
    rw [hs]
    rw [← e] at p1 p2
    simp only [py_bind_ok]
    rw [p1]
    exact p2

theorem C102_pred2 (hk : ut.kind = .cholesky) (hn : 0 < nq) (hT : RightSetup T q₀) {s₀ : UKF nx ut.nsigma ut.nsigma (Fin ny) (Fin nq)}
    (h : predAt T ut q₀ q₀ = .ok s₀) : ForSmallSteps fun c => testUtPredDiff2 T ut c q₀ = .ok () := by
  obtain ⟨B, hB, hF, s, s', hs, hs', e⟩ := pred_family2 hk hT h
  have h8 : (0 : ℝ) < 1 / 10 ^ 8 := by positivity
  have h5 : (0 : ℝ) < 5 / 10 ^ 8 := by positivity
  refine (((gradArr_stack fun b => gradArr1 (hB.dx b)).passes (F := fun q' => do
      let s ← predDiffAt T ut q₀ q'
      return stack [nx] fun b => arr1 (s.dx_dq b)) hn (hF.mono fun q hq => ?_) h8).and
    ((gradArr_stack fun b => gradArr2 (hB.dPx b)).passes (F := fun q' => do
      let s ← predDiffAt T ut q₀ q'
      return stack [nx, nx] fun b => arr2 (s.dPx_dq b)) hn (hF.mono fun q hq => ?_) h5)).mono ?_
  · obtain ⟨s, h1, h2, h3⟩ := hq
    rw [h1, ← h2]; rfl
  · obtain ⟨s, h1, h2, h3⟩ := hq
    rw [h1, ← h3]; rfl
  · rintro c ⟨⟨b1, e1, p1⟩, b2, e2, p2⟩
    unfold testUtPredDiff2
    rw [e1, e2, hs]
    simp only [py_bind_ok]
    rw [hs']
    rw [← e] at p1 p2
    simp only [py_bind_ok]
    rw [p1]
    exact p2

/-- Corrections. -/
theorem C102_corr (hk : ut.kind = .cholesky) (hn : 0 < nq) (hT : RightSetup T q₀) {s₀ : UKF nx ut.nsigma ut.nsigma (Fin ny) (Fin nq)}
    (h : corrAt T ut q₀ y q₀ = .ok s₀) : ForSmallSteps fun c => testUtCorrDiff T ut c q₀ y = .ok () := by
  obtain ⟨B, hB, hF, s, t, hs, ht, e⟩ := corr_family hk hT h
  have h5 : (0 : ℝ) < 5 / 10 ^ 8 := by positivity
  refine ((((gradArr0 hB.L).passes (F := fun q' => do return arr0 (← corrAt T ut q₀ y q').L) hn (hF.mono fun q hq => ?_) h5).and
    ((gradArr1 hB.x).passes (F := fun q' => do return arr1 (← corrAt T ut q₀ y q').x) hn (hF.mono fun q hq => ?_) h5)).and
    ((gradArr2 hB.Px).passes (F := fun q' => do return arr2 (← corrAt T ut q₀ y q').Px) hn (hF.mono fun q hq => ?_) h5)).mono ?_
  · obtain ⟨s, h1, h2, h3, h4⟩ := hq
    rw [h1, ← h2]; rfl
  · obtain ⟨s, h1, h2, h3, h4⟩ := hq
    rw [h1, ← h3]; rfl
  · obtain ⟨s, h1, h2, h3, h4⟩ := hq
    rw [h1, ← h4]; rfl
  · rintro c ⟨⟨⟨b1, e1, p1⟩, b2, e2, p2⟩, b3, e3, p3⟩
    unfold testUtCorrDiff
    rw [e1, e2, e3, h]
    simp only [py_bind_ok]
    rw [hs]
    simp only [py_bind_ok]
    rw [ht]
    rw [← e] at p1 p2 p3
    simp only [py_bind_ok]
    rw [p1, p2]
    exact p3

theorem C102_corr2 (hk : ut.kind = .cholesky) (hn : 0 < nq) (hT : RightSetup T q₀) {s₀ : UKF nx ut.nsigma ut.nsigma (Fin ny) (Fin nq)}
    (h : corrAt T ut q₀ y q₀ = .ok s₀) : ForSmallSteps fun c => testUtCorrDiff2 T ut c q₀ y = .ok () := by
  obtain ⟨B, hB, hF, s1, s2, s3, s4, h1, h2, h3, h4, e⟩ := corr_family2 hk hT h
  have h5 : (0 : ℝ) < 5 / 10 ^ 8 := by positivity
  refine ((((gradArr_stack fun b => gradArr0 (hB.dL b)).passes (F := fun q' => do
      let s ← corrDiffAt T ut q₀ y q'
      return stack [] fun b => arr0 (s.dL_dq b)) hn (hF.mono fun q hq => ?_) h5).and
    ((gradArr_stack fun b => gradArr1 (hB.dx b)).passes (F := fun q' => do
      let s ← corrDiffAt T ut q₀ y q'
      return stack [nx] fun b => arr1 (s.dx_dq b)) hn (hF.mono fun q hq => ?_) h5)).and
    ((gradArr_stack fun b => gradArr2 (hB.dPx b)).passes (F := fun q' => do
      let s ← corrDiffAt T ut q₀ y q'
      return stack [nx, nx] fun b => arr2 (s.dPx_dq b)) hn (hF.mono fun q hq => ?_) h5)).mono ?_
  · obtain ⟨s, h1, h2, h3, h4⟩ := hq
    rw [h1, ← h2]; rfl
  · obtain ⟨s, h1, h2, h3, h4⟩ := hq
    rw [h1, ← h3]; rfl
  · obtain ⟨s, h1, h2, h3, h4⟩ := hq
    rw [h1, ← h4]; rfl
  · rintro c ⟨⟨⟨b1, e1, p1⟩, b2, e2, p2⟩, b3, e3, p3⟩
    unfold testUtCorrDiff2
    rw [e1, e2, e3, h]
    simp only [py_bind_ok]
    rw [h1]
    simp only [py_bind_ok]
    rw [h2]
    simp only [py_bind_ok]
    rw [h3]
    simp only [py_bind_ok]
    rw [h4]
    rw [← e] at p1 p2 p3
    simp only [py_bind_ok]
    rw [p1, p2]
    exact p3

/-- Merits. -/
theorem C102_pem_grad (hk : ut.kind = .cholesky) (hn : 0 < nq) (hT : RightSetup T q₀) {r₀ : ℝ × UKF nx ut.nsigma ut.nsigma (Fin ny) (Fin nq)}
    (h : (UKF.cls ut ut (T.M q₀)).pemMerit (threeRows y) (parametrizedUkf T ut q₀ q₀) = .ok r₀) :
    ForSmallSteps fun c => testUkfPemGrad T ut c q₀ y = .ok () := by
  obtain ⟨merit, g, hm, ⟨s', hg⟩, hd⟩ := C98_test_grad ut ut hk hk T.M hT.M.near.self_of_nhds hT.v.self_of_nhds hT.Pv.self_of_nhds _ r₀ h
  refine ((gradArr0 hd).passes (F := fun q' => do
    return arr0 (← (UKF.cls ut ut (T.M q')).pemMerit (threeRows y) (parametrizedUkf T ut q₀ q')).1) hn (hm.mono fun q hq => ?_)
    (tol := 5 / 10 ^ 8) (by positivity)).mono ?_
  · obtain ⟨s, hq⟩ := hq
    unfold parametrizedUkf
    rw [hq]
    rfl
  · rintro c ⟨b, h1, h2⟩
    unfold testUkfPemGrad
    rw [h1]
    unfold parametrizedUkf
    rw [hg]
    exact h2

theorem C102_pem_hessian (hk : ut.kind = .cholesky) (hn : 0 < nq) (hT : RightSetup T q₀) {r₀ : ℝ × UKF nx ut.nsigma ut.nsigma (Fin ny) (Fin nq)}
    (h : (UKF.cls ut ut (T.M q₀)).pemMerit (threeRows y) (parametrizedUkf T ut q₀ q₀) = .ok r₀) :
    ForSmallSteps fun c => testUkfPemHessian T ut c q₀ y = .ok () := by
  obtain ⟨g, H, hg, ⟨s', hH⟩, hd⟩ := C98_test_hessian ut ut hk hk T.M hT.M hT.v.self_of_nhds hT.Pv.self_of_nhds _ r₀ h
  refine ((gradArr_stack fun b => gradArr0 (hd b)).passes (F := fun q' => do
    let r ← (UKF.cls ut ut (T.M q')).pemGradient (threeRows y) (parametrizedUkf T ut q₀ q')
    return stack [] fun b => arr0 (r.1 b)) hn (hg.mono fun q hq => ?_) (tol := 5 / 10 ^ 8) (by positivity)).mono ?_
  · obtain ⟨s, hq⟩ := hq
    unfold parametrizedUkf
    rw [hq]
    rfl
  · rintro c ⟨b, h1, h2⟩
    unfold testUkfPemHessian
    rw [h1]
    unfold parametrizedUkf
    rw [hH]
    exact h2

/-- The tests of sigma points test what the transform uses: `transform` and `transform_diff` save the same points and derivatives. -/
theorem C102_same_sigma {d : UTData ut.nsigma (Fin nx) (Fin nx)} {dd : UTDiff ut.nsigma (Fin nx) (Fin nx) (Fin nq)} {q : Fin nq → ℝ}
    (h : transformDiffAt T ut q = .ok (d, dd)) : ut.sigmaPoints (T.v q) (T.Pv q) = .ok (d.S, d.idev, d.isigma) ∧
      ut.sigmaPointsDiff d.S (T.dv_dq q) (T.dPv_dq q) = .ok (dd.chol, dd.didev, dd.disigma) := by
  unfold transformDiffAt at h
  obtain ⟨d', h1, h2⟩ := py_bind_eq_ok h
  obtain ⟨dd', h3, h4⟩ := py_bind_eq_ok h2
  cases h4
  exact ⟨sigmaPoints_ok h1, sigmaPointsDiff_ok h3⟩

/-- **C102** (data). The tests of corrections have every measurement, those of the merit function three rows with `0`, `1` and `2` added. -/
theorem C102_data (y : Fin ny → ℝ) : (∀ j, (plain y).data j = y j ∧ (plain y).mask j = false) ∧ (threeRows y).length = 3 ∧
    ∀ k : Nat, k < 3 → ∃ r, (threeRows y)[k]? = some r ∧ ∀ j, r.data j = k + y j ∧ r.mask j = false := by
  refine ⟨fun j => ⟨rfl, rfl⟩, rfl, fun k hk => ?_⟩
  interval_cases k
  all_goals exact ⟨_, rfl, fun j => ⟨rfl, rfl⟩⟩

end Ceacoest.TestKalman
