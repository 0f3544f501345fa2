import Verif.Lemmas.KalmanLoops
import Verif.Lemmas.UTDiff
import Verif.Lemmas.UT
import Verif.Spec.KalmanInputs
import Mathlib.LinearAlgebra.Matrix.PosDef

/-! # One correction or prediction, in matrix form -/

namespace Ceacoest
open Matrix
variable {nx : Nat} {o p a : Type} [Fintype a] [LinearOrder a]

/-- The textbook correction: cross covariance `C`, innovation covariance `S`, innovation `e`. -/
structure CoreSpec (x : Fin nx → ℝ) (Px : Matrix (Fin nx) (Fin nx) ℝ) (e : a → ℝ) (C : Matrix (Fin nx) a ℝ) (S : Matrix a a ℝ)
    (m : Moments nx) (d : CorrData nx a) : Prop where
  det : S.det ≠ 0
  inn : d.e = e
  Pxh : d.Pxh = C
  Py : d.Py = S
  PyI : d.PyI = S⁻¹
  K : d.K = C * S⁻¹
  mean : m.1 = x + (C * S⁻¹) *ᵥ e
  cov : m.2 = Px - (C * S⁻¹) * S * (C * S⁻¹)ᵀ

omit [LinearOrder a] in
theorem gain_cov (K : Matrix (Fin nx) a ℝ) (S : Matrix a a ℝ) : (of fun i j => ∑ k, ∑ l, K i k * K j l * S k l) = K * S * Kᵀ := by
  rw [← sandwich_eq]
  ext i j
  simp only [of_apply]
  refine Finset.sum_congr rfl fun k _ => Finset.sum_congr rfl fun l _ => ?_
  ring

theorem of_mul {l m n : Type} [Fintype m] (A : Matrix l m ℝ) (B : Matrix m n ℝ) : (of fun i k => ∑ j, A i j * B j k) = A * B := rfl

/-! ### extended.py -/

theorem ekf_core_eq (x : Fin nx → ℝ) (Px : Matrix (Fin nx) (Fin nx) ℝ) (y h : a → ℝ) (H : Matrix (Fin nx) a ℝ) (R : Matrix a a ℝ) :
    EKF.core x Px y h H R = if (Hᵀ * (Px * H) + R).det = 0 then .error .linAlgError else
      let S := Hᵀ * (Px * H) + R
      let K := Px * H * S⁻¹
      .ok ((x + K *ᵥ (y - h), Px - K * S * Kᵀ), ⟨y - h, Px * H, S, S⁻¹, K⟩) := by
  have e : EKF.core x Px y h H R = (npInv (Hᵀ * (Px * H) + R) >>= fun PyI =>
      let K := Px * H * PyI
      .ok ((x + K *ᵥ (y - h), Px - of fun i j => ∑ k, ∑ l, K i k * K j l * (Hᵀ * (Px * H) + R) k l),
        ⟨y - h, Px * H, Hᵀ * (Px * H) + R, PyI, K⟩)) := rfl
  rw [e]
  unfold npInv
  split
  · rfl
  · simp only [py_bind_ok, gain_cov]

theorem ekf_core_ok {x : Fin nx → ℝ} {Px : Matrix (Fin nx) (Fin nx) ℝ} {y h : a → ℝ} {H : Matrix (Fin nx) a ℝ} {R : Matrix a a ℝ}
    {m : Moments nx} {d : CorrData nx a} (hc : EKF.core x Px y h H R = .ok (m, d)) :
    CoreSpec x Px (y - h) (Px * H) (Hᵀ * (Px * H) + R) m d := by
  rw [ekf_core_eq] at hc
  split at hc
  · cases hc
  · rename_i hdet
    cases hc
    exact ⟨hdet, rfl, rfl, rfl, rfl, rfl, rfl, rfl⟩

theorem ekf_core_of {x : Fin nx → ℝ} {Px : Matrix (Fin nx) (Fin nx) ℝ} {y h : a → ℝ} {H : Matrix (Fin nx) a ℝ} {R : Matrix a a ℝ}
    (hdet : (Hᵀ * (Px * H) + R).det ≠ 0) : ∃ m d, EKF.core x Px y h H R = .ok (m, d) := by
  rw [ekf_core_eq, if_neg hdet]
  exact ⟨_, _, rfl⟩

/-! ### unscented.py -/

/-- The core, when the innovation covariance is symmetric. -/
theorem ukf_core_ok {cut : UT nx} {x : Fin nx → ℝ} {Px : Matrix (Fin nx) (Fin nx) ℝ} {y : a → ℝ} {h : (Fin nx → ℝ) → a → ℝ} {R : Matrix a a ℝ}
    {m : Moments nx} {d : UCorr nx cut.nsigma p a} (hR : Rᵀ = R) (hc : UKF.core cut x Px y h R = .ok (m, d)) :
    cut.transform x Px h = .ok d.ut ∧ CoreSpec x Px (y - d.ut.mean) (cut.crosscov d.ut) (d.ut.Po + R) m d.toCorrData ∧
      cholU (d.ut.Po + R) = .ok d.PyC ∧ IsChol (d.ut.Po + R) d.PyCᵀ ∧ d.diff = none ∧ d.diff2 = none ∧ d.PyCD = none ∧ d.chol = none := by
  unfold UKF.core at hc
  obtain ⟨t, ht, hc⟩ := py_bind_eq_ok hc
  dsimp only at hc
  obtain ⟨PyC, hC, hc⟩ := py_bind_eq_ok hc
  obtain ⟨PyCI, hI, hc⟩ := py_bind_eq_ok hc
  cases hc
  have hsym : (t.Po + R)ᵀ = t.Po + R := by
    rw [transpose_add, hR]
    congr 1
    ext i j
    rw [transpose_apply, (transform_spec ht).Po, (transform_spec ht).Po]
    exact Finset.sum_congr rfl fun k _ => by ring
  have hch := cholU_isChol hC
  rw [lowerSym_of_symm hsym] at hch
  have hinv : PyCI = PyC⁻¹ := by
    unfold npInv at hI
    split at hI
    · cases hI
    · exact (Except.ok.inj hI).symm
  have hPyI : (of fun i j => ∑ k, PyCI i k * PyCI j k : Matrix a a ℝ) = (t.Po + R)⁻¹ := by
    rw [← isChol_mul hch, Matrix.mul_inv_rev, hinv, ← transpose_nonsing_inv]
    rfl
  refine ⟨ht, ⟨?_, rfl, rfl, rfl, hPyI, ?_, ?_, ?_⟩, hC, hch, rfl, rfl, rfl, rfl⟩
  · exact hch.posDef.det_pos.ne'
  · dsimp only
    rw [hPyI, of_mul]
  · dsimp only
    rw [hPyI, of_mul]
    rfl
  · dsimp only
    rw [hPyI, of_mul, gain_cov]

theorem ukf_core_of {cut : UT nx} {x : Fin nx → ℝ} {Px : Matrix (Fin nx) (Fin nx) ℝ} {y : a → ℝ} {h : (Fin nx → ℝ) → a → ℝ} {R : Matrix a a ℝ}
    {t : UTData cut.nsigma (Fin nx) a} (ht : cut.transform x Px h = .ok t) (hpd : (t.Po + R).PosDef) :
    ∃ m, ∃ d : UCorr nx cut.nsigma p a, UKF.core cut x Px y h R = .ok (m, d) := by
  obtain ⟨S, hS, hch⟩ := cholU_ok hpd
  unfold UKF.core
  have hdet : S.det ≠ 0 := by
    have := hpd.det_pos
    rw [← isChol_mul hch, det_mul] at this
    exact fun h => by rw [h, mul_zero] at this; exact lt_irrefl _ this
  rw [ht]
  simp only [py_bind_ok, hS, npInv, if_neg hdet]
  exact ⟨_, _, rfl⟩

/-! ### The covariance after a correction -/

omit [LinearOrder a] in
/-- Joseph's form. -/
theorem joseph [DecidableEq a] {Px : Matrix (Fin nx) (Fin nx) ℝ} {C : Matrix (Fin nx) a ℝ} {T R : Matrix a a ℝ} (hS : (T + R)ᵀ = T + R)
    (hdet : (T + R).det ≠ 0) (K : Matrix (Fin nx) a ℝ) (hK : K = C * (T + R)⁻¹) :
    Px - K * (T + R) * Kᵀ = (Px - K * Cᵀ - C * Kᵀ + K * T * Kᵀ) + K * R * Kᵀ := by
  have hu : IsUnit (T + R).det := isUnit_iff_ne_zero.2 hdet
  have h1 : K * (T + R) = C := by rw [hK, Matrix.mul_assoc, nonsing_inv_mul _ hu, Matrix.mul_one]
  have h2 : (T + R) * Kᵀ = Cᵀ := by
    rw [← h1, transpose_mul, hS]
  have h3 : K * T * Kᵀ + K * R * Kᵀ = C * Kᵀ := by rw [← Matrix.add_mul, ← Matrix.mul_add, h1]
  have h4 : K * Cᵀ = C * Kᵀ := by rw [← h2, ← Matrix.mul_assoc, h1]
  rw [h1, add_assoc, h3, h4]
  abel

theorem psd_conj {m n : Type} [Fintype m] [Fintype n] {A : Matrix m m ℝ} (h : A.PosSemidef) (B : Matrix n m ℝ) : (B * A * Bᵀ).PosSemidef := by
  have := h.mul_mul_conjTranspose_same B
  rwa [conjTranspose_eq_transpose_of_trivial] at this

theorem psd_symm {n : Type} [Fintype n] {A : Matrix n n ℝ} (h : A.PosSemidef) : Aᵀ = A := by
  have := h.isHermitian
  rwa [IsHermitian, conjTranspose_eq_transpose_of_trivial] at this

/-- Weighted outer products. -/
theorem psd_wsum {s n : Type} [Fintype s] [Fintype n] (w : s → ℝ) (hw : ∀ k, 0 ≤ w k) (z : s → n → ℝ) :
    (of fun i j => ∑ k, z k i * z k j * w k : Matrix n n ℝ).PosSemidef := by
  have h : (of fun i j => ∑ k, z k i * z k j * w k : Matrix n n ℝ) = ∑ k, w k • vecMulVec (z k) (z k) := by
    ext i j
    rw [Matrix.sum_apply]
    refine Finset.sum_congr rfl fun k _ => ?_
    rw [Matrix.smul_apply, vecMulVec_apply, smul_eq_mul]
    ring
  rw [h]
  refine posSemidef_sum _ fun k _ => PosSemidef.smul ?_ (hw k)
  have := posSemidef_vecMulVec_self_star (z k)
  rwa [star_trivial] at this

theorem ekf_psd {Px : Matrix (Fin nx) (Fin nx) ℝ} {H : Matrix (Fin nx) a ℝ} {R : Matrix a a ℝ} (hP : Px.PosSemidef) (hR : R.PosSemidef) :
    (Hᵀ * (Px * H) + R).PosSemidef := by
  refine PosSemidef.add ?_ hR
  have := psd_conj hP Hᵀ
  rwa [transpose_transpose, Matrix.mul_assoc] at this

theorem ekf_joseph {Px : Matrix (Fin nx) (Fin nx) ℝ} {H : Matrix (Fin nx) a ℝ} (hP : Px.PosSemidef) (K : Matrix (Fin nx) a ℝ) :
    (Px - K * (Px * H)ᵀ - Px * H * Kᵀ + K * (Hᵀ * (Px * H)) * Kᵀ).PosSemidef := by
  have : Px - K * (Px * H)ᵀ - Px * H * Kᵀ + K * (Hᵀ * (Px * H)) * Kᵀ = (1 - K * Hᵀ) * Px * (1 - K * Hᵀ)ᵀ := by
    rw [transpose_sub, transpose_one, transpose_mul, transpose_mul, transpose_transpose, psd_symm hP]
    simp only [Matrix.sub_mul, Matrix.mul_sub, Matrix.one_mul, Matrix.mul_one, Matrix.mul_assoc]
    abel
  rw [this]
  exact psd_conj hP _

theorem ekf_correct_psd {Px : Matrix (Fin nx) (Fin nx) ℝ} {H : Matrix (Fin nx) a ℝ} {R : Matrix a a ℝ} (hP : Px.PosSemidef) (hR : R.PosSemidef)
    {x : Fin nx → ℝ} {e : a → ℝ} {m : Moments nx} {d : CorrData nx a} (h : CoreSpec x Px e (Px * H) (Hᵀ * (Px * H) + R) m d) :
    m.2.PosSemidef := by
  rw [h.cov]
  rw [joseph (psd_symm (ekf_psd hP hR)) h.det _ rfl]
  exact PosSemidef.add (ekf_joseph hP _) (psd_conj hR _)

theorem weights_nonneg {ut : UT nx} {kind : SqrtKind (Fin nx)} {kappa : ℝ} (h : UT.init nx kind kappa = .ok ut) (hk : 0 ≤ kappa) (k : Fin ut.nsigma) :
    0 ≤ ut.weights k := by
  unfold UT.init at h
  split at h
  · cases h
  · have h := Except.ok.inj h
    subst h
    dsimp only
    have hn : (0 : ℝ) ≤ nx + kappa := by positivity
    split
    · dsimp only
      split
      · positivity
      · positivity
    · positivity

omit [LinearOrder a] in
theorem ukf_Po_psd {cut : UT nx} {kind : SqrtKind (Fin nx)} {kappa : ℝ} (hi : UT.init nx kind kappa = .ok cut) (hk : 0 ≤ kappa)
    {x : Fin nx → ℝ} {Px : Matrix (Fin nx) (Fin nx) ℝ} {h : (Fin nx → ℝ) → a → ℝ} {t : UTData cut.nsigma (Fin nx) a}
    (ht : cut.transform x Px h = .ok t) : t.Po.PosSemidef := by
  have hPo : t.Po = of fun i j => ∑ k, t.odev k i * t.odev k j * cut.weights k := by ext i j; exact (transform_spec ht).Po i j
  rw [hPo]
  exact psd_wsum _ (weights_nonneg hi hk) _

omit [LinearOrder a] in
theorem ukf_joseph {cut : UT nx} {kind : SqrtKind (Fin nx)} {kappa : ℝ} (hi : UT.init nx kind kappa = .ok cut) (hk : 0 ≤ kappa)
    {x : Fin nx → ℝ} {Px : Matrix (Fin nx) (Fin nx) ℝ} {h : (Fin nx → ℝ) → a → ℝ} {t : UTData cut.nsigma (Fin nx) a}
    (ht : cut.transform x Px h = .ok t) (hS : t.Sᵀ * t.S = ((nx : ℝ) + kappa) • Px) (K : Matrix (Fin nx) a ℝ) :
    (Px - K * (cut.crosscov t)ᵀ - cut.crosscov t * Kᵀ + K * t.Po * Kᵀ).PosSemidef := by
  have hw := weights_nonneg hi hk
  have ts := transform_spec ht
  have hPo : t.Po = of fun i j => ∑ k, t.odev k i * t.odev k j * cut.weights k := by ext i j; exact ts.Po i j
  have hcov : Px = of fun i j => ∑ k, t.idev k i * t.idev k j * cut.weights k := by
    ext i j
    have := idev_cov hi t.S i j
    rw [hS, Matrix.smul_apply, smul_eq_mul, mul_div_cancel_left₀ _ (ut_init_ok hi).1, ← ts.idev] at this
    rw [of_apply, ← this]
    exact Finset.sum_congr rfl fun k _ => by ring
  have : Px - K * (cut.crosscov t)ᵀ - cut.crosscov t * Kᵀ + K * t.Po * Kᵀ =
      of fun i j => ∑ k, (t.idev k - K *ᵥ t.odev k) i * (t.idev k - K *ᵥ t.odev k) j * cut.weights k := by
    ext i j
    have e1 : (K * (cut.crosscov t)ᵀ) i j = ∑ k, (K *ᵥ t.odev k) i * t.idev k j * cut.weights k := by
      simp only [mul_apply, transpose_apply, UT.crosscov, of_apply, mulVec, dotProduct, Finset.mul_sum, Finset.sum_mul]
      rw [Finset.sum_comm]
      exact Finset.sum_congr rfl fun k _ => Finset.sum_congr rfl fun l _ => by ring
    have e2 : (cut.crosscov t * Kᵀ) i j = ∑ k, t.idev k i * (K *ᵥ t.odev k) j * cut.weights k := by
      simp only [mul_apply, transpose_apply, UT.crosscov, of_apply, mulVec, dotProduct, Finset.mul_sum, Finset.sum_mul]
      rw [Finset.sum_comm]
      exact Finset.sum_congr rfl fun k _ => Finset.sum_congr rfl fun l _ => by ring
    have e3 : (K * t.Po * Kᵀ) i j = ∑ k, (K *ᵥ t.odev k) i * (K *ᵥ t.odev k) j * cut.weights k := by
      rw [← sandwich_eq, of_apply, hPo]
      simp only [of_apply, mulVec, dotProduct, Finset.mul_sum, Finset.sum_mul]
      rw [Finset.sum_congr rfl fun l _ => Finset.sum_comm, Finset.sum_comm]
      refine Finset.sum_congr rfl fun k _ => ?_
      rw [Finset.sum_comm]
      exact Finset.sum_congr rfl fun l _ => Finset.sum_congr rfl fun l' _ => by ring
    rw [Matrix.add_apply, Matrix.sub_apply, Matrix.sub_apply, e1, e2, e3, hcov]
    simp only [of_apply, Pi.sub_apply]
    rw [← Finset.sum_sub_distrib, ← Finset.sum_sub_distrib, ← Finset.sum_add_distrib]
    exact Finset.sum_congr rfl fun k _ => by ring
  rw [this]
  exact psd_wsum _ hw _

/-- When the square root is exact. -/
theorem ukf_correct_psd {cut : UT nx} {kind : SqrtKind (Fin nx)} {kappa : ℝ} (hi : UT.init nx kind kappa = .ok cut) (hk : 0 ≤ kappa)
    {x : Fin nx → ℝ} {Px : Matrix (Fin nx) (Fin nx) ℝ} {h : (Fin nx → ℝ) → a → ℝ} {t : UTData cut.nsigma (Fin nx) a}
    (ht : cut.transform x Px h = .ok t) (hS : t.Sᵀ * t.S = ((nx : ℝ) + kappa) • Px) {R : Matrix a a ℝ} (hR : R.PosSemidef)
    {e : a → ℝ} {m : Moments nx} {d : CorrData nx a} (hc : CoreSpec x Px e (cut.crosscov t) (t.Po + R) m d) :
    m.2.PosSemidef := by
  rw [hc.cov, joseph (psd_symm ((ukf_Po_psd hi hk ht).add hR)) hc.det _ rfl]
  exact PosSemidef.add (ukf_joseph hi hk ht hS _) (psd_conj hR _)

omit [LinearOrder a] in
/-- A correction with positive definite matrices gives a positive definite one. -/
theorem joseph_pd [DecidableEq a] {Px : Matrix (Fin nx) (Fin nx) ℝ} {C : Matrix (Fin nx) a ℝ} {T R : Matrix a a ℝ} (hS : (T + R)ᵀ = T + R)
    (hdet : (T + R).det ≠ 0) {K : Matrix (Fin nx) a ℝ} (hK : K = C * (T + R)⁻¹) (hP : Px.PosDef) (hR : R.PosDef)
    (h : (Px - K * (T + R) * Kᵀ).PosSemidef) (hJ : (Px - K * Cᵀ - C * Kᵀ + K * T * Kᵀ).PosSemidef) :
    (Px - K * (T + R) * Kᵀ).PosDef := by
  refine PosDef.of_dotProduct_mulVec_pos h.isHermitian fun v hv => ?_
  rw [joseph hS hdet K hK]
  simp only [star_trivial, add_mulVec, dotProduct_add]
  have hj := hJ.dotProduct_mulVec_nonneg v
  rw [star_trivial, add_mulVec, dotProduct_add] at hj
  have e : v ⬝ᵥ (K * R * Kᵀ) *ᵥ v = (Kᵀ *ᵥ v) ⬝ᵥ R *ᵥ (Kᵀ *ᵥ v) := by
    rw [← mulVec_mulVec, ← mulVec_mulVec, dotProduct_mulVec, ← mulVec_transpose]
  by_cases hz : Kᵀ *ᵥ v = 0
  · have e0 : v ᵥ* K = 0 := by rw [← mulVec_transpose, hz]
    rw [e, hz, zero_dotProduct, add_zero, sub_mulVec, sub_mulVec]
    rw [← mulVec_mulVec v C, hz, ← mulVec_mulVec v K, ← mulVec_mulVec v (K * T), hz]
    simp only [mulVec_zero, sub_zero, add_zero, dotProduct_zero, dotProduct_sub, dotProduct_mulVec v K, e0, zero_dotProduct]
    have := hP.dotProduct_mulVec_pos hv
    rwa [star_trivial] at this
  · rw [e]
    have := hR.dotProduct_mulVec_pos hz
    rw [star_trivial] at this
    exact add_pos_of_nonneg_of_pos hj this

theorem ekf_correct_pd {Px : Matrix (Fin nx) (Fin nx) ℝ} {H : Matrix (Fin nx) a ℝ} {R : Matrix a a ℝ} (hP : Px.PosDef) (hR : R.PosDef)
    {x : Fin nx → ℝ} {e : a → ℝ} {m : Moments nx} {d : CorrData nx a} (h : CoreSpec x Px e (Px * H) (Hᵀ * (Px * H) + R) m d) :
    m.2.PosDef := by
  have hp := ekf_correct_psd hP.posSemidef hR.posSemidef h
  rw [h.cov] at hp ⊢
  exact joseph_pd (psd_symm (ekf_psd hP.posSemidef hR.posSemidef)) h.det rfl hP hR hp (ekf_joseph hP.posSemidef _)

theorem ukf_correct_pd {cut : UT nx} {kind : SqrtKind (Fin nx)} {kappa : ℝ} (hi : UT.init nx kind kappa = .ok cut) (hk : 0 ≤ kappa)
    {x : Fin nx → ℝ} {Px : Matrix (Fin nx) (Fin nx) ℝ} {h : (Fin nx → ℝ) → a → ℝ} {t : UTData cut.nsigma (Fin nx) a}
    (ht : cut.transform x Px h = .ok t) (hS : t.Sᵀ * t.S = ((nx : ℝ) + kappa) • Px) {R : Matrix a a ℝ} (hP : Px.PosDef) (hR : R.PosDef)
    {e : a → ℝ} {m : Moments nx} {d : CorrData nx a} (hc : CoreSpec x Px e (cut.crosscov t) (t.Po + R) m d) :
    m.2.PosDef := by
  have hp := ukf_correct_psd hi hk ht hS hR.posSemidef hc
  rw [hc.cov] at hp ⊢
  exact joseph_pd (psd_symm ((ukf_Po_psd hi hk ht).add hR.posSemidef)) hc.det rfl hP hR hp (ukf_joseph hi hk ht hS _)

/-- A square root that is returned is exact. -/
theorem sqrt_exact {ut : UT nx} (hr : RootOK ut.kind) {Q S : Matrix (Fin nx) (Fin nx) ℝ} (hQ : Q.PosSemidef) (h : ut.sqrt Q = .ok S) :
    Sᵀ * S = Q := by
  unfold UT.sqrt at h
  cases hk : ut.kind with
  | cholesky =>
    rw [hk] at h
    have := isChol_mul (cholU_isChol h)
    rwa [lowerSym_of_symm (psd_symm hQ)] at this
  | svd f =>
    rw [hk] at h hr
    obtain ⟨U, s, VT, e, hU, hV, hs, hQ'⟩ := hr Q
    simp only [e, py_bind_ok, py_pure] at h
    rw [← Except.ok.inj h]
    refine Eq.trans ?_ (svd_psd hQ hU hV hs hQ')
    ext a b
    rw [mul_apply, mul_apply]
    refine Finset.sum_congr rfl fun k _ => ?_
    rw [mul_diagonal, transpose_apply, transpose_apply, of_apply, of_apply]
    have := Real.mul_self_sqrt (hs k)
    calc U a k * Real.sqrt (s k) * (U b k * Real.sqrt (s k)) = U a k * (Real.sqrt (s k) * Real.sqrt (s k)) * U b k := by ring
      _ = _ := by rw [this]

theorem RootDom.psd {kind : SqrtKind (Fin nx)} {P : Matrix (Fin nx) (Fin nx) ℝ} (h : RootDom kind P) : P.PosSemidef := by
  cases kind with
  | cholesky => exact PosDef.posSemidef h
  | svd f => exact h.2

theorem RootDom.root {kind : SqrtKind (Fin nx)} {P : Matrix (Fin nx) (Fin nx) ℝ} (h : RootDom kind P) : RootOK kind := by
  cases kind with
  | cholesky => trivial
  | svd f => exact h.1

theorem RootDom.smul {kind : SqrtKind (Fin nx)} {P : Matrix (Fin nx) (Fin nx) ℝ} (h : RootDom kind P) {c : ℝ} (hc : 0 < c) : RootDom kind (c • P) := by
  cases kind with
  | cholesky => exact PosDef.smul h hc
  | svd f => exact ⟨h.1, h.2.smul hc.le⟩

theorem RootDom.psd_add {kind : SqrtKind (Fin nx)} {P Q : Matrix (Fin nx) (Fin nx) ℝ} (h : RootDom kind P) (hQ : Q.PosSemidef) : RootDom kind (Q + P) := by
  cases kind with
  | cholesky => exact PosDef.posSemidef_add hQ h
  | svd f => exact ⟨h.1, hQ.add h.2⟩

theorem RootDom.keep {kind : SqrtKind (Fin nx)} {P Q : Matrix (Fin nx) (Fin nx) ℝ} (h : RootDom kind P) (hQ : Q.PosSemidef) (hpd : P.PosDef → Q.PosDef) :
    RootDom kind Q := by
  cases kind with
  | cholesky => exact hpd h
  | svd f => exact ⟨h.1, hQ⟩

theorem sqrt_of {ut : UT nx} {Q : Matrix (Fin nx) (Fin nx) ℝ} (h : RootDom ut.kind Q) : ∃ S, ut.sqrt Q = .ok S := by
  unfold UT.sqrt
  cases hk : ut.kind with
  | cholesky =>
    rw [hk] at h
    obtain ⟨S, hS, -⟩ := cholU_ok h
    exact ⟨S, hS⟩
  | svd f =>
    rw [hk] at h
    obtain ⟨U, s, VT, e, -⟩ := h.1 Q
    simp only [e]
    exact ⟨_, rfl⟩

theorem transform_exact {ut : UT nx} {kind : SqrtKind (Fin nx)} {kappa : ℝ} (hi : UT.init nx kind kappa = .ok ut) (hk : 0 ≤ (nx : ℝ) + kappa)
    (hr : RootOK kind) {o : Type} {x : Fin nx → ℝ} {P : Matrix (Fin nx) (Fin nx) ℝ} {f : (Fin nx → ℝ) → o → ℝ}
    {d : UTData ut.nsigma (Fin nx) o} (hP : P.PosSemidef) (h : ut.transform x P f = .ok d) : d.Sᵀ * d.S = ((nx : ℝ) + kappa) • P := by
  obtain ⟨-, h1, h2, -⟩ := ut_init_ok hi
  have hS := (transform_spec h).S
  rw [h1] at hS
  exact sqrt_exact (by rwa [h2]) (hP.smul hk) hS

theorem transform_of {ut : UT nx} {kind : SqrtKind (Fin nx)} {kappa : ℝ} (hi : UT.init nx kind kappa = .ok ut) (hk : 0 < (nx : ℝ) + kappa)
    {o : Type} (x : Fin nx → ℝ) {P : Matrix (Fin nx) (Fin nx) ℝ} (f : (Fin nx → ℝ) → o → ℝ) (hP : RootDom kind P) :
    ∃ d : UTData ut.nsigma (Fin nx) o, ut.transform x P f = .ok d := by
  obtain ⟨-, h1, h2, -⟩ := ut_init_ok hi
  rw [transform_ok_iff]
  exact sqrt_of (by rw [h2, h1]; exact hP.smul hk)

/-! ### The methods -/

section methods
variable {o p : Type} [Fintype o] [LinearOrder o]

theorem activeR_psd (y : MaskedRow o) {R : Matrix o o ℝ} (h : R.PosSemidef) : (activeR y R).PosSemidef := h.submatrix Subtype.val

theorem activeR_pd (y : MaskedRow o) {R : Matrix o o ℝ} (h : R.PosDef) : (activeR y R).PosDef := h.submatrix Subtype.val_injective

theorem activeR_symm (y : MaskedRow o) {R : Matrix o o ℝ} (h : Rᵀ = R) : (activeR y R)ᵀ = activeR y R := by
  ext i j
  exact congrFun (congrFun h i.1) j.1

theorem ekf_predict_eq (model : KModel nx o p) (s : EKF nx o p) : EKF.predict model s =
    let F : Matrix (Fin nx) (Fin nx) ℝ := of (model.df_dx s.k s.x)
    let P := Fᵀ * (s.Px * F) + model.Q s.k s.x
    .ok ((model.f s.k s.x, P), { s with Pxf := some (s.Px * F), k := s.k + 1, x := model.f s.k s.x, Px := P }) := rfl

theorem ekf_correct_masked (model : KModel nx o p) {y : MaskedRow o} (hy : ∀ j, y.mask j = true) (s : EKF nx o p) :
    EKF.correct model y s = .ok ((s.x, s.Px), { s with last := .masked }) := by
  unfold EKF.correct
  rw [if_pos hy]

theorem ekf_correct_active (model : KModel nx o p) {y : MaskedRow o} (hy : ¬∀ j, y.mask j = true) (s : EKF nx o p) :
    EKF.correct model y s = (EKF.core s.x s.Px (fun j : y.Active => y.data j.1) (fun j => model.h s.k s.x j.1) (activeH y (model.dh_dx s.k s.x))
      (activeR y model.R) >>= fun r => .ok (r.1, { s with x := r.1.1, Px := r.1.2, last := .data y r.2 })) := by
  unfold EKF.correct
  rw [if_neg hy]
  rfl

theorem ekf_correct_cases {model : KModel nx o p} {y : MaskedRow o} {s s' : EKF nx o p} {m : Moments nx} (h : EKF.correct model y s = .ok (m, s')) :
    ((∀ j, y.mask j = true) ∧ m = (s.x, s.Px) ∧ s' = { s with last := .masked }) ∨
    ((¬∀ j, y.mask j = true) ∧ ∃ d, EKF.core s.x s.Px (fun j : y.Active => y.data j.1) (fun j => model.h s.k s.x j.1)
      (activeH y (model.dh_dx s.k s.x)) (activeR y model.R) = .ok (m, d) ∧ s' = { s with x := m.1, Px := m.2, last := .data y d }) := by
  by_cases hy : ∀ j, y.mask j = true
  · rw [ekf_correct_masked model hy] at h
    cases h
    exact .inl ⟨hy, rfl, rfl⟩
  · rw [ekf_correct_active model hy] at h
    obtain ⟨⟨m', d⟩, hc, h⟩ := py_bind_eq_ok h
    cases h
    exact .inr ⟨hy, d, hc, rfl⟩

theorem ukf_predict_cases {ns : Nat} {put : UT nx} {model : KModel nx o p} {s s' : UKF nx ns put.nsigma o p} {m : Moments nx}
    (h : UKF.predict put model s = .ok (m, s')) : ∃ d, put.transform s.x s.Px (model.f s.k) = .ok d ∧
      m = (d.mean, d.Po + model.Q s.k s.x) ∧ s' = { s with pred := some ⟨s.x, d, none⟩, k := s.k + 1, x := m.1, Px := m.2 } := by
  unfold UKF.predict at h
  obtain ⟨d, hd, h⟩ := py_bind_eq_ok h
  cases h
  exact ⟨d, hd, rfl, rfl⟩

theorem ukf_predict_of {ns : Nat} {put : UT nx} {model : KModel nx o p} (s : UKF nx ns put.nsigma o p) {d : UTData put.nsigma (Fin nx) (Fin nx)}
    (h : put.transform s.x s.Px (model.f s.k) = .ok d) : UKF.predict put model s = .ok ((d.mean, d.Po + model.Q s.k s.x),
      { s with pred := some ⟨s.x, d, none⟩, k := s.k + 1, x := d.mean, Px := d.Po + model.Q s.k s.x }) := by
  unfold UKF.predict
  rw [h]
  rfl

theorem ukf_correct_masked {ns' : Nat} {cut : UT nx} (model : KModel nx o p) {y : MaskedRow o} (hy : ∀ j, y.mask j = true)
    (s : UKF nx cut.nsigma ns' o p) : UKF.correct cut model y s = .ok ((s.x, s.Px), { s with last := .masked }) := by
  unfold UKF.correct
  rw [if_pos hy]

theorem ukf_correct_active {ns' : Nat} {cut : UT nx} (model : KModel nx o p) {y : MaskedRow o} (hy : ¬∀ j, y.mask j = true)
    (s : UKF nx cut.nsigma ns' o p) : UKF.correct cut model y s =
      (UKF.core cut s.x s.Px (fun j : y.Active => y.data j.1) (fun x j => model.h s.k x j.1) (activeR y model.R) >>= fun r =>
        .ok (r.1, { s with x := r.1.1, Px := r.1.2, last := .data y r.2 })) := by
  unfold UKF.correct
  rw [if_neg hy]
  rfl

theorem ukf_correct_cases {ns' : Nat} {cut : UT nx} {model : KModel nx o p} {y : MaskedRow o} {s s' : UKF nx cut.nsigma ns' o p} {m : Moments nx}
    (h : UKF.correct cut model y s = .ok (m, s')) :
    ((∀ j, y.mask j = true) ∧ m = (s.x, s.Px) ∧ s' = { s with last := .masked }) ∨
    ((¬∀ j, y.mask j = true) ∧ ∃ d, UKF.core cut s.x s.Px (fun j : y.Active => y.data j.1) (fun x j => model.h s.k x j.1)
      (activeR y model.R) = .ok (m, d) ∧ s' = { s with x := m.1, Px := m.2, last := .data y d }) := by
  by_cases hy : ∀ j, y.mask j = true
  · rw [ukf_correct_masked model hy] at h
    cases h
    exact .inl ⟨hy, rfl, rfl⟩
  · rw [ukf_correct_active model hy] at h
    obtain ⟨⟨m', d⟩, hc, h⟩ := py_bind_eq_ok h
    cases h
    exact .inr ⟨hy, d, hc, rfl⟩

theorem history_inv {Y M σ : Type} {correct : Y → σ → Py (M × σ)} {predict : σ → Py (M × σ)} (I : σ → Prop)
    (hc : ∀ y s m s', I s → correct y s = .ok (m, s') → I s') (hp : ∀ s m s', I s → predict s = .ok (m, s') → I s')
    {cs : List (Option Y)} {s s' : σ} (hs : I s) (h : Spec.history correct predict cs s = .ok s') : I s' := by
  induction cs generalizing s with
  | nil => cases h; exact hs
  | cons c cs ih =>
    cases c with
    | none =>
      obtain ⟨r, hr, h⟩ := py_bind_eq_ok h
      exact ih (hp _ _ _ hs hr) h
    | some y =>
      obtain ⟨r, hr, h⟩ := py_bind_eq_ok h
      exact ih (hc _ _ _ _ hs hr) h

end methods

end Ceacoest
