import Verif.Lemmas.GradMat
import Verif.Lemmas.KalmanMerit

/-! # First derivatives of the unscented filter -/

namespace Ceacoest
open Matrix Spec Filter Topology
variable {nx : Nat} {p a : Type} [Fintype a] [LinearOrder a]

omit [LinearOrder a] in
theorem cross_sandwich (A B : Matrix (Fin nx) a ℝ) (S : Matrix a a ℝ) :
    (of fun i j => ∑ k, ∑ l, A i k * B j l * S l k : Matrix (Fin nx) (Fin nx) ℝ) = A * Sᵀ * Bᵀ := by
  ext i j
  simp only [of_apply, mul_apply, transpose_apply, Finset.sum_mul]
  rw [Finset.sum_comm]
  exact Finset.sum_congr rfl fun k _ => Finset.sum_congr rfl fun l _ => by ring

omit [LinearOrder a] in
theorem triple_sum (A B C : Matrix a a ℝ) : (of fun i l => ∑ j, ∑ k, A i j * B j k * C k l : Matrix a a ℝ) = A * B * C := by
  ext i j
  simp only [of_apply, mul_apply, Finset.sum_mul]
  rw [Finset.sum_comm]

omit [LinearOrder a] in
theorem triple_sum_neg (A B C : Matrix a a ℝ) : (of fun i l => -∑ j, ∑ k, A i j * B j k * C k l : Matrix a a ℝ) = -(A * B * C) := by
  rw [← triple_sum]
  rfl

/-- What `correction_diff` computes, in matrix form. -/
structure CoreDiffSpec (cut : UT nx) (d : UCorr nx cut.nsigma p a) (dh_dq : (Fin nx → ℝ) → p → a → ℝ) (dh_dx : (Fin nx → ℝ) → Fin nx → a → ℝ)
    (dR : p → Matrix a a ℝ) (dx : p → Fin nx → ℝ) (dP : p → Matrix (Fin nx) (Fin nx) ℝ)
    (c : UCorrDiff nx cut.nsigma a p) (dx' : p → Fin nx → ℝ) (dP' : p → Matrix (Fin nx) (Fin nx) ℝ) : Prop where
  ut : cut.transformDiff d.ut dh_dq dh_dx dx dP = .ok c.ut
  de : ∀ b, c.de_dq b = -c.ut.do_dq b
  dPy : ∀ b, c.dPy_dq b = c.ut.dPo_dq b + dR b
  dPyI : ∀ b, c.dPyI_dq b = -(d.PyI * c.dPy_dq b * d.PyI)
  dPxh : c.dPxh_dq = cut.crosscovDiff d.ut c.ut
  dK : ∀ b, c.dK_dq b = d.Pxh * c.dPyI_dq b + c.dPxh_dq b * d.PyI
  dx' : ∀ b, dx' b = dx b + c.dK_dq b *ᵥ d.e + d.K *ᵥ c.de_dq b
  dP' : ∀ b, dP' b = dP b - d.K * (c.dPy_dq b)ᵀ * d.Kᵀ - (c.dK_dq b * d.Pyᵀ * d.Kᵀ + (c.dK_dq b * d.Pyᵀ * d.Kᵀ)ᵀ)

theorem coreDiff_spec {cut : UT nx} {d : UCorr nx cut.nsigma p a} {dh_dq : (Fin nx → ℝ) → p → a → ℝ} {dh_dx : (Fin nx → ℝ) → Fin nx → a → ℝ}
    {dR : p → Matrix a a ℝ} {dx : p → Fin nx → ℝ} {dP : p → Matrix (Fin nx) (Fin nx) ℝ}
    {c : UCorrDiff nx cut.nsigma a p} {dx' : p → Fin nx → ℝ} {dP' : p → Matrix (Fin nx) (Fin nx) ℝ}
    (h : UKF.coreDiff cut d dh_dq dh_dx dR dx dP = .ok (c, dx', dP')) : CoreDiffSpec cut d dh_dq dh_dx dR dx dP c dx' dP' := by
  unfold UKF.coreDiff at h
  obtain ⟨dd, hdd, h⟩ := py_bind_eq_ok h
  cases h
  refine ⟨hdd, fun _ => rfl, fun _ => rfl, fun b => triple_sum_neg _ _ _, rfl, fun b => rfl, fun b => rfl, fun b => ?_⟩
  dsimp only
  rw [cross_sandwich, cross_sandwich]

theorem coreDiff_of [Fintype p] {cut : UT nx} (hk : cut.kind = .cholesky) {d : UCorr nx cut.nsigma p a} {x : Fin nx → ℝ} {P : Matrix (Fin nx) (Fin nx) ℝ}
    {h : (Fin nx → ℝ) → a → ℝ} (ht : cut.transform x P h = .ok d.ut) (dh_dq : (Fin nx → ℝ) → p → a → ℝ) (dh_dx : (Fin nx → ℝ) → Fin nx → a → ℝ)
    (dR : p → Matrix a a ℝ) (dx : p → Fin nx → ℝ) (dP : p → Matrix (Fin nx) (Fin nx) ℝ) :
    ∃ c dx' dP', UKF.coreDiff cut d dh_dq dh_dx dR dx dP = .ok (c, dx', dP') := by
  obtain ⟨dd, hdd⟩ := diff_ok hk ht dh_dq dh_dx dx dP
  unfold UKF.coreDiff
  rw [hdd]
  exact ⟨_, _, _, rfl⟩

theorem core_transform {cut : UT nx} {x : Fin nx → ℝ} {Px : Matrix (Fin nx) (Fin nx) ℝ} {y : a → ℝ} {h : (Fin nx → ℝ) → a → ℝ} {R : Matrix a a ℝ}
    {m : Moments nx} {d : UCorr nx cut.nsigma p a} (hc : UKF.core cut x Px y h R = .ok (m, d)) :
    cut.transform x Px h = .ok d.ut ∧ d.Py = d.ut.Po + R ∧ cholU d.Py = .ok d.PyC := by
  unfold UKF.core at hc
  obtain ⟨t, ht, hc⟩ := py_bind_eq_ok hc
  dsimp only at hc
  obtain ⟨PyC, hC, hc⟩ := py_bind_eq_ok hc
  obtain ⟨PyCI, hI, hc⟩ := py_bind_eq_ok hc
  cases hc
  exact ⟨ht, rfl, hC⟩

theorem core_of_chol {cut : UT nx} {x : Fin nx → ℝ} {Px : Matrix (Fin nx) (Fin nx) ℝ} {y : a → ℝ} {h : (Fin nx → ℝ) → a → ℝ} {R : Matrix a a ℝ}
    {t : UTData cut.nsigma (Fin nx) a} (ht : cut.transform x Px h = .ok t) {S : Matrix a a ℝ} (hS : cholU (t.Po + R) = .ok S) :
    ∃ r : Moments nx × UCorr nx cut.nsigma p a, UKF.core cut x Px y h R = .ok r := by
  unfold UKF.core
  have hch := cholU_isChol hS
  have hdet : S.det ≠ 0 := by
    have := hch.posDef.det_pos
    rw [← isChol_mul hch, det_mul] at this
    exact fun h => by rw [h, mul_zero] at this; exact lt_irrefl _ this
  rw [ht]
  simp only [py_bind_ok, hS, npInv, if_neg hdet]
  exact ⟨_, rfl⟩

section
variable [Fintype p] {cut : UT nx} {x : (p → ℝ) → Fin nx → ℝ} {P : (p → ℝ) → Matrix (Fin nx) (Fin nx) ℝ} {y : a → ℝ}
  {h : (p → ℝ) → (Fin nx → ℝ) → a → ℝ} {R : (p → ℝ) → Matrix a a ℝ} {q₀ : p → ℝ}
  {dh_dq : (Fin nx → ℝ) → p → a → ℝ} {dh_dx : (Fin nx → ℝ) → Fin nx → a → ℝ} {dR : p → Matrix a a ℝ}
  {dx : p → Fin nx → ℝ} {dP : p → Matrix (Fin nx) (Fin nx) ℝ}

/-- A correction that returns does so nearby. -/
theorem core_eventually (hk : cut.kind = .cholesky) (hx : VGrad x dx q₀) (hP : MGrad P dP q₀)
    (hh : ∀ x j, HasGrad₂ (fun q x => h q x j) (fun a => dh_dq x a j) (fun i => dh_dx x i j) q₀ x) (hR : MGrad R dR q₀)
    {r₀ : Moments nx × UCorr nx cut.nsigma p a} (h0 : UKF.core cut (x q₀) (P q₀) y (h q₀) (R q₀) = .ok r₀) :
    ∀ᶠ q in 𝓝 q₀, ∃ r : Moments nx × UCorr nx cut.nsigma p a, UKF.core cut (x q) (P q) y (h q) (R q) = .ok r := by
  obtain ⟨m₀, d₀⟩ := r₀
  obtain ⟨ht, hPy, hC⟩ := core_transform h0
  obtain ⟨t, hte⟩ := choose_ok (transform_eventually hk ht hP)
  obtain ⟨dd, hdd⟩ := diff_ok hk hte.self_of_nhds dh_dq dh_dx dx dP
  have G := transform_grad hte hx hP hh hdd
  have hPyg : MGrad (fun q => (t q).Po + R q) (fun a => dd.dPo_dq a + dR a) q₀ := MGrad.add G.Po hR
  have e0 : t q₀ = d₀.ut := Except.ok.inj (hte.self_of_nhds.symm.trans ht)
  have hC' : cholU ((t q₀).Po + R q₀) = .ok d₀.PyC := by rw [e0, ← hPy]; exact hC
  filter_upwards [hte, cholU_eventually (Q := fun q => (t q).Po + R q) (fun r => hPyg _ _) hC'] with q h1 h2
  obtain ⟨S, hS⟩ := h2
  exact core_of_chol h1 hS

/-- The derivatives of everything that a correction computes. -/
structure CoreGrad (cut : UT nx) (r : (p → ℝ) → Moments nx × UCorr nx cut.nsigma p a) (c : UCorrDiff nx cut.nsigma a p)
    (dx' : p → Fin nx → ℝ) (dP' : p → Matrix (Fin nx) (Fin nx) ℝ) (q₀ : p → ℝ) : Prop where
  ut : UTGrad cut (fun q => (r q).2.ut) c.ut q₀
  e : VGrad (fun q => (r q).2.e) c.de_dq q₀
  Py : MGrad (fun q => (r q).2.Py) c.dPy_dq q₀
  PyI : MGrad (fun q => (r q).2.PyI) c.dPyI_dq q₀
  Pxh : MGrad (fun q => (r q).2.Pxh) c.dPxh_dq q₀
  K : MGrad (fun q => (r q).2.K) c.dK_dq q₀
  mean : VGrad (fun q => (r q).1.1) dx' q₀
  cov : MGrad (fun q => (r q).1.2) dP' q₀
  symm : ∀ᶠ q in 𝓝 q₀, (r q).2.Pyᵀ = (r q).2.Py
  symmI : ∀ᶠ q in 𝓝 q₀, (r q).2.PyIᵀ = (r q).2.PyI
  dsymm : ∀ b, (c.dPy_dq b)ᵀ = c.dPy_dq b

theorem core_grad (hx : VGrad x dx q₀) (hP : MGrad P dP q₀)
    (hh : ∀ x j, HasGrad₂ (fun q x => h q x j) (fun a => dh_dq x a j) (fun i => dh_dx x i j) q₀ x) (hR : MGrad R dR q₀)
    (hsym : ∀ᶠ q in 𝓝 q₀, (R q)ᵀ = R q) {r : (p → ℝ) → Moments nx × UCorr nx cut.nsigma p a}
    (hr : ∀ᶠ q in 𝓝 q₀, UKF.core cut (x q) (P q) y (h q) (R q) = .ok (r q)) {c : UCorrDiff nx cut.nsigma a p}
    {dx' : p → Fin nx → ℝ} {dP' : p → Matrix (Fin nx) (Fin nx) ℝ}
    (hc : UKF.coreDiff cut (r q₀).2 dh_dq dh_dx dR dx dP = .ok (c, dx', dP')) : CoreGrad cut r c dx' dP' q₀ := by
  have hs := coreDiff_spec hc
  have hok : ∀ᶠ q in 𝓝 q₀, cut.transform (x q) (P q) (h q) = .ok (r q).2.ut ∧
      CoreSpec (x q) (P q) (y - (r q).2.ut.mean) (cut.crosscov (r q).2.ut) ((r q).2.ut.Po + R q) (r q).1 (r q).2.toCorrData ∧
      ((r q).2.ut.Po + R q)ᵀ = (r q).2.ut.Po + R q := by
    filter_upwards [hr, hsym] with q h1 h2
    obtain ⟨a1, a2, -, a3, -⟩ := ukf_core_ok (m := (r q).1) (d := (r q).2) h2 h1
    exact ⟨a1, a2, by rw [← isChol_mul a3, transpose_mul, transpose_transpose]⟩
  have G : UTGrad cut (fun q => (r q).2.ut) c.ut q₀ := transform_grad (hok.mono fun q h => h.1) hx hP hh hs.ut
  have h0 := hok.self_of_nhds.2.1
  have hPy : MGrad (fun q => (r q).2.Py) c.dPy_dq q₀ :=
    ((MGrad.add G.Po hR).congr (hok.mono fun q h => h.2.1.Py)).congr_grad hs.dPy
  have he : VGrad (fun q => (r q).2.e) c.de_dq q₀ := by
    have := ((vgrad_const y).sub (G.mean : VGrad (fun q => (r q).2.ut.mean) c.ut.do_dq q₀)).congr (hok.mono fun q h => h.2.1.inn)
    exact this.congr_grad fun b => by rw [hs.de, zero_sub]
  have hsymm : ∀ᶠ q in 𝓝 q₀, (r q).2.Pyᵀ = (r q).2.Py := hok.mono fun q h => by rw [h.2.1.Py]; exact h.2.2
  have eI : ∀ᶠ q in 𝓝 q₀, (r q).2.PyI = (r q).2.Py⁻¹ := hok.mono fun q h => by rw [h.2.1.Py]; exact h.2.1.PyI
  have hPyI : MGrad (fun q => (r q).2.PyI) c.dPyI_dq q₀ := by
    have hdet : (r q₀).2.Py.det ≠ 0 := by rw [h0.Py]; exact h0.det
    refine ((hPy.inv hdet).congr eI).congr_grad fun b => ?_
    rw [hs.dPyI, eI.self_of_nhds]
  have hPxh : MGrad (fun q => (r q).2.Pxh) c.dPxh_dq q₀ := by
    rw [hs.dPxh]
    exact MGrad.congr G.crosscov (hok.mono fun q h => h.2.1.Pxh)
  have hK : MGrad (fun q => (r q).2.K) c.dK_dq q₀ := by
    refine ((hPxh.mul hPyI).congr ?_).congr_grad hs.dK
    filter_upwards [hok] with q h
    rw [h.2.1.K, h.2.1.Pxh, h.2.1.PyI]
  refine ⟨G, he, hPy, hPyI, hPxh, hK, ?_, ?_, hsymm, ?_, hPy.symm hsymm⟩
  · refine ((hx.add (hK.mulVec he)).congr ?_).congr_grad fun b => ?_
    · filter_upwards [hok] with q h
      rw [h.2.1.mean, h.2.1.K, h.2.1.inn]
    · rw [hs.dx']
      abel
  · refine ((hP.sub ((hK.mul hPy).mul hK.transpose)).congr ?_).congr_grad fun b => ?_
    · filter_upwards [hok] with q h
      rw [h.2.1.cov, h.2.1.K, h.2.1.Py]
    · rw [hs.dP', hPy.symm hsymm, hsymm.self_of_nhds, transpose_mul, transpose_mul, transpose_transpose, hsymm.self_of_nhds]
      simp only [Matrix.add_mul, Matrix.mul_assoc]
      abel
  · filter_upwards [eI, hsymm] with q h1 h2
    rw [h1, transpose_nonsing_inv, h2]

end

end Ceacoest
