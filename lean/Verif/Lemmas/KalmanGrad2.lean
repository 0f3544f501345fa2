import Verif.Lemmas.KalmanGrad
import Verif.Lemmas.KalmanSim

/-! # Second derivatives of a correction, and the derivatives of its likelihood -/

namespace Ceacoest
open Matrix Spec Filter Topology
variable {nx : Nat} {p a : Type} [Fintype a] [LinearOrder a]

omit [LinearOrder a] in
theorem quad_sum (u v : a → ℝ) (S : Matrix a a ℝ) : ∑ i, ∑ j, u i * S i j * v j = u ⬝ᵥ S *ᵥ v := by
  simp only [dotProduct, mulVec, Finset.mul_sum, mul_assoc]

/-- What `correction_diff2` computes, in matrix form. -/
structure CoreDiff2Spec (cut : UT nx) (d : UCorr nx cut.nsigma p a) (c : UCorrDiff nx cut.nsigma a p) (d2 : UTDiff2 cut.nsigma (Fin nx) a p)
    (d2R : p → p → Matrix a a ℝ) (d2x : p → p → Fin nx → ℝ) (d2P : p → p → Matrix (Fin nx) (Fin nx) ℝ)
    (r : UCorrDiff2 a p × (p → p → Fin nx → ℝ) × (p → p → Matrix (Fin nx) (Fin nx) ℝ)) (d2K : p → p → Matrix (Fin nx) a ℝ) : Prop where
  d2e_eq : ∀ b b', r.1.d2e_dq2 b b' = -d2.d2o_dq2 b b'
  d2Py_eq : ∀ b b', r.1.d2Py_dq2 b b' = d2.d2Po_dq2 b b' + d2R b b'
  d2PyI_eq : ∀ b b', r.1.d2PyI_dq2 b b' = -(c.dPyI_dq b * c.dPy_dq b' * d.PyI) - d.PyI * r.1.d2Py_dq2 b b' * d.PyI - d.PyI * c.dPy_dq b' * c.dPyI_dq b
  d2K_eq : ∀ b b', d2K b b' = c.dPxh_dq b * c.dPyI_dq b' + d.Pxh * r.1.d2PyI_dq2 b b' + cut.crosscovDiff2 d.ut c.ut d2 b b' * d.PyI +
    c.dPxh_dq b' * c.dPyI_dq b
  d2x_eq : ∀ b b', r.2.1 b b' = d2x b b' + d2K b b' *ᵥ d.e + c.dK_dq b' *ᵥ c.de_dq b + c.dK_dq b *ᵥ c.de_dq b' + d.K *ᵥ r.1.d2e_dq2 b b'
  d2P_eq : ∀ b b', r.2.2 b b' = d2P b b' - d2K b b' * d.Pyᵀ * d.Kᵀ - c.dK_dq b' * d.Pyᵀ * (c.dK_dq b)ᵀ - c.dK_dq b * d.Pyᵀ * (c.dK_dq b')ᵀ -
    ((c.dK_dq b' * (c.dPy_dq b)ᵀ * d.Kᵀ + (c.dK_dq b' * (c.dPy_dq b)ᵀ * d.Kᵀ)ᵀ) +
      (c.dK_dq b * (c.dPy_dq b')ᵀ * d.Kᵀ + (c.dK_dq b * (c.dPy_dq b')ᵀ * d.Kᵀ)ᵀ)) -
    d.K * d.Pyᵀ * (d2K b b')ᵀ - d.K * (r.1.d2Py_dq2 b b')ᵀ * d.Kᵀ

theorem coreDiff2_spec (cut : UT nx) (d : UCorr nx cut.nsigma p a) (c : UCorrDiff nx cut.nsigma a p)
    (d2h_dq2 : (Fin nx → ℝ) → p → p → a → ℝ) (d2h_dx2 : (Fin nx → ℝ) → Fin nx → Fin nx → a → ℝ)
    (d2h_dx_dq : (Fin nx → ℝ) → p → Fin nx → a → ℝ) (d2R : p → p → Matrix a a ℝ)
    (d2x : p → p → Fin nx → ℝ) (d2P : p → p → Matrix (Fin nx) (Fin nx) ℝ) :
    ∃ d2K, CoreDiff2Spec cut d c (cut.transformDiff2 d.ut c.ut d2h_dq2 d2h_dx2 d2h_dx_dq d2x d2P) d2R d2x d2P
      (UKF.coreDiff2 cut d c d2h_dq2 d2h_dx2 d2h_dx_dq d2R d2x d2P) d2K := by
  refine ⟨_, fun _ _ => rfl, fun _ _ => rfl, fun b b' => ?_, fun b b' => rfl, fun b b' => rfl, fun b b' => ?_⟩
  · unfold UKF.coreDiff2
    dsimp only
    rw [triple_sum_neg, triple_sum, triple_sum]
  · unfold UKF.coreDiff2
    dsimp only
    simp only [cross_sandwich]
    rfl

section
variable [Fintype p] {cut : UT nx} {x : (p → ℝ) → Fin nx → ℝ} {P : (p → ℝ) → Matrix (Fin nx) (Fin nx) ℝ} {y : a → ℝ}
  {h : (p → ℝ) → (Fin nx → ℝ) → a → ℝ} {R : (p → ℝ) → Matrix a a ℝ} {q₀ : p → ℝ}
  {dh_dq : (p → ℝ) → (Fin nx → ℝ) → p → a → ℝ} {dh_dx : (p → ℝ) → (Fin nx → ℝ) → Fin nx → a → ℝ} {dR : (p → ℝ) → p → Matrix a a ℝ}
  {dx : (p → ℝ) → p → Fin nx → ℝ} {dP : (p → ℝ) → p → Matrix (Fin nx) (Fin nx) ℝ}
  {d2h_dq2 : (Fin nx → ℝ) → p → p → a → ℝ} {d2h_dx2 : (Fin nx → ℝ) → Fin nx → Fin nx → a → ℝ}
  {d2h_dx_dq : (Fin nx → ℝ) → p → Fin nx → a → ℝ} {d2R : p → p → Matrix a a ℝ}
  {d2x : p → p → Fin nx → ℝ} {d2P : p → p → Matrix (Fin nx) (Fin nx) ℝ}

/-- The derivatives of everything that `correction_diff` computes. -/
structure CoreGrad2 (cut : UT nx) (c : (p → ℝ) → UCorrDiff nx cut.nsigma a p × (p → Fin nx → ℝ) × (p → Matrix (Fin nx) (Fin nx) ℝ))
    (r : UCorrDiff2 a p × (p → p → Fin nx → ℝ) × (p → p → Matrix (Fin nx) (Fin nx) ℝ)) (q₀ : p → ℝ) : Prop where
  de : ∀ b, VGrad (fun q => (c q).1.de_dq b) (fun a => r.1.d2e_dq2 a b) q₀
  dPy : ∀ b, MGrad (fun q => (c q).1.dPy_dq b) (fun a => r.1.d2Py_dq2 a b) q₀
  dPyI : ∀ b, MGrad (fun q => (c q).1.dPyI_dq b) (fun a => r.1.d2PyI_dq2 a b) q₀
  mean : ∀ b, VGrad (fun q => (c q).2.1 b) (fun a => r.2.1 a b) q₀
  cov : ∀ b, MGrad (fun q => (c q).2.2 b) (fun a => r.2.2 a b) q₀

omit [Fintype a] [LinearOrder a] [Fintype p] in
/-- The derivatives of a covariance that `transform_diff` returns are symmetric, whatever derivatives it is given. -/
theorem diff_symm {ut : UT nx} {d : UTData ut.nsigma (Fin nx) a} {df_dq : (Fin nx → ℝ) → p → a → ℝ} {df_di : (Fin nx → ℝ) → Fin nx → a → ℝ}
    {di : p → Fin nx → ℝ} {dP : p → Matrix (Fin nx) (Fin nx) ℝ} {dd : UTDiff ut.nsigma (Fin nx) a p}
    (h : ut.transformDiff d df_dq df_di di dP = .ok dd) (b : p) : (dd.dPo_dq b)ᵀ = dd.dPo_dq b := by
  unfold UT.transformDiff at h
  obtain ⟨c, -, h⟩ := py_bind_eq_ok h
  cases h
  simp only [transpose_add, transpose_transpose]
  exact add_comm _ _

theorem core_grad2 (hx : VGrad x (dx q₀) q₀) (hP : MGrad P (dP q₀) q₀)
    (hh : ∀ᶠ q in 𝓝 q₀, ∀ x j, HasGrad₂ (fun q x => h q x j) (fun a => dh_dq q x a j) (fun i => dh_dx q x i j) q x)
    (hR : ∀ᶠ q in 𝓝 q₀, MGrad R (dR q) q) (hsym : ∀ᶠ q in 𝓝 q₀, (R q)ᵀ = R q)
    (hdx : ∀ b, VGrad (fun q => dx q b) (fun a => d2x a b) q₀) (hdP : ∀ b, MGrad (fun q => dP q b) (fun a => d2P a b) q₀)
    (hhq : ∀ x b j, HasGrad₂ (fun q x => dh_dq q x b j) (fun a => d2h_dq2 x a b j) (fun i => d2h_dx_dq x b i j) q₀ x)
    (hhx : ∀ x i j, HasGrad₂ (fun q x => dh_dx q x i j) (fun a => d2h_dx_dq x a i j) (fun l => d2h_dx2 x i l j) q₀ x)
    (hdR : ∀ b, MGrad (fun q => dR q b) (fun a => d2R a b) q₀)
    {r : (p → ℝ) → Moments nx × UCorr nx cut.nsigma p a}
    (hr : ∀ᶠ q in 𝓝 q₀, UKF.core cut (x q) (P q) y (h q) (R q) = .ok (r q))
    {c : (p → ℝ) → UCorrDiff nx cut.nsigma a p × (p → Fin nx → ℝ) × (p → Matrix (Fin nx) (Fin nx) ℝ)}
    (hc : ∀ᶠ q in 𝓝 q₀, UKF.coreDiff cut (r q).2 (dh_dq q) (dh_dx q) (dR q) (dx q) (dP q) = .ok (c q)) :
    CoreGrad2 cut c (UKF.coreDiff2 cut (r q₀).2 (c q₀).1 d2h_dq2 d2h_dx2 d2h_dx_dq d2R d2x d2P) q₀ := by
  have G0 : CoreGrad cut r (c q₀).1 (c q₀).2.1 (c q₀).2.2 q₀ :=
    core_grad hx hP hh.self_of_nhds hR.self_of_nhds hsym hr hc.self_of_nhds
  have hs : ∀ᶠ q in 𝓝 q₀, CoreDiffSpec cut (r q).2 (dh_dq q) (dh_dx q) (dR q) (dx q) (dP q) (c q).1 (c q).2.1 (c q).2.2 := by
    filter_upwards [hc] with q hq
    exact coreDiff_spec hq
  have ht : ∀ᶠ q in 𝓝 q₀, cut.transform (x q) (P q) (h q) = .ok (r q).2.ut := by
    filter_upwards [hr] with q hq
    exact (core_transform (m := (r q).1) (d := (r q).2) hq).1
  have T2 := transform_grad2 ht hx hP hh.self_of_nhds hdx hdP hhq hhx (dd := fun q => (c q).1.ut)
    (hs.mono fun q h => h.ut)
  obtain ⟨d2K, S⟩ := coreDiff2_spec cut (r q₀).2 (c q₀).1 d2h_dq2 d2h_dx2 d2h_dx_dq d2R d2x d2P
  generalize UKF.coreDiff2 cut (r q₀).2 (c q₀).1 d2h_dq2 d2h_dx2 d2h_dx_dq d2R d2x d2P = z at S ⊢
  have hde : ∀ b, VGrad (fun q => (c q).1.de_dq b) (fun a => z.1.d2e_dq2 a b) q₀ := fun b =>
    (VGrad.congr (VGrad.neg (T2.do_dq b)) (hs.mono fun q h => h.de b)).congr_grad fun a => S.d2e_eq a b
  have hdPy : ∀ b, MGrad (fun q => (c q).1.dPy_dq b) (fun a => z.1.d2Py_dq2 a b) q₀ := fun b =>
    (MGrad.congr (MGrad.add (T2.dPo b) (hdR b)) (hs.mono fun q h => h.dPy b)).congr_grad fun a => S.d2Py_eq a b
  have hdPyI : ∀ b, MGrad (fun q => (c q).1.dPyI_dq b) (fun a => z.1.d2PyI_dq2 a b) q₀ := by
    intro b
    refine (((G0.PyI.mul (hdPy b)).mul G0.PyI).neg.congr (hs.mono fun q h => h.dPyI b)).congr_grad fun a => ?_
    rw [S.d2PyI_eq]
    simp only [Matrix.add_mul, Matrix.mul_add]
    abel
  have hdPxh : ∀ b, MGrad (fun q => (c q).1.dPxh_dq b) (fun a => cut.crosscovDiff2 (r q₀).2.ut (c q₀).1.ut _ a b) q₀ := fun b =>
    MGrad.congr (T2.crosscov b) (hs.mono fun q h => congrFun h.dPxh b)
  have hdK : ∀ b, MGrad (fun q => (c q).1.dK_dq b) (fun a => d2K a b) q₀ := by
    intro b
    refine (((G0.Pxh.mul (hdPyI b)).add ((hdPxh b).mul G0.PyI)).congr (hs.mono fun q h => h.dK b)).congr_grad fun a => ?_
    rw [S.d2K_eq]
    abel
  have hds : ∀ᶠ q in 𝓝 q₀, ∀ b, ((c q).1.dPy_dq b)ᵀ = (c q).1.dPy_dq b := by
    filter_upwards [hs, hR, eventually_eventually_nhds.2 hsym] with q h1 h2 h3 b
    rw [h1.dPy b, transpose_add, diff_symm h1.ut b, h2.symm h3 b]
  have hsym2 : ∀ a b, (z.1.d2Py_dq2 a b)ᵀ = z.1.d2Py_dq2 a b := fun a b =>
    (hdPy b).symm (hds.mono fun q h => h b) a
  refine ⟨hde, hdPy, hdPyI, fun b => ?_, fun b => ?_⟩
  · refine ((((hdx b).add ((hdK b).mulVec G0.e)).add (G0.K.mulVec (hde b))).congr (hs.mono fun q h => h.dx' b)).congr_grad fun a => ?_
    rw [S.d2x_eq]
    abel
  · have hX := ((hdK b).mul G0.Py.transpose).mul G0.K.transpose
    refine (((((hdP b).sub ((G0.K.mul (hdPy b).transpose).mul G0.K.transpose)).sub (hX.add hX.transpose))).congr
      (hs.mono fun q h => h.dP' b)).congr_grad fun a => ?_
    rw [S.d2P_eq]
    simp only [transpose_add, transpose_mul, transpose_transpose, G0.dsymm, hsym2, G0.symm.self_of_nhds, Matrix.add_mul, Matrix.mul_assoc]
    abel

/-! ### The likelihood -/

variable {dx₀ : p → Fin nx → ℝ} {dP₀ : p → Matrix (Fin nx) (Fin nx) ℝ}

theorem like_grad {r : (p → ℝ) → Moments nx × UCorr nx cut.nsigma p a} {c : UCorrDiff nx cut.nsigma a p} {ch : CholDiff a p}
    (G : CoreGrad cut r c dx₀ dP₀ q₀) (hC : ∀ᶠ q in 𝓝 q₀, cholU (r q).2.Py = .ok (r q).2.PyC) (hch : cholDiff (r q₀).2.PyC c.dPy_dq = .ok ch)
    {L : (p → ℝ) → ℝ} {dL : p → ℝ} (hL : HasGrad L dL q₀) :
    HasGrad (fun q => L q - 0.5 * (∑ i, ∑ j, (r q).2.e i * (r q).2.PyI i j * (r q).2.e j) - ∑ k, Real.log ((r q).2.PyC k k))
      (dlike (r q₀).2 c ch dL) q₀ := by
  have h0 := cholU_isChol hC.self_of_nhds
  have hPyC : ∀ i j, HasGrad (fun q => (r q).2.PyC i j) (fun a => ch.dS a i j) q₀ :=
    chol_grad (Q := fun q => (r q).2.Py) (fun r => G.Py _ _) hC hch
  have hlog := hasGrad_sum (Finset.univ : Finset a) fun k _ => (hPyC k k).log (h0.diag k)
  have hquad := (G.e.dot (G.PyI.mulVec G.e)).const_mul 0.5
  refine (((hL.sub hquad).sub hlog).congr ?_).congr_grad fun b => ?_
  · refine Eventually.of_forall fun q => ?_
    simp only [quad_sum]
  · unfold dlike
    simp only [quad_sum]
    have e1 : (r q₀).2.e ⬝ᵥ ((r q₀).2.PyI *ᵥ c.de_dq b) = c.de_dq b ⬝ᵥ ((r q₀).2.PyI *ᵥ (r q₀).2.e) := by
      conv_lhs => rw [← G.symmI.self_of_nhds]
      rw [mulVec_transpose, dotProduct_comm, ← dotProduct_mulVec]
    rw [dotProduct_add, e1]
    ring

theorem like_grad2 {r : (p → ℝ) → Moments nx × UCorr nx cut.nsigma p a}
    {c : (p → ℝ) → UCorrDiff nx cut.nsigma a p × (p → Fin nx → ℝ) × (p → Matrix (Fin nx) (Fin nx) ℝ)} {ch : (p → ℝ) → CholDiff a p}
    {z : UCorrDiff2 a p × (p → p → Fin nx → ℝ) × (p → p → Matrix (Fin nx) (Fin nx) ℝ)}
    (G : CoreGrad cut r (c q₀).1 (c q₀).2.1 (c q₀).2.2 q₀) (G2 : CoreGrad2 cut c z q₀)
    (hC : ∀ᶠ q in 𝓝 q₀, cholU (r q).2.Py = .ok (r q).2.PyC) (hch : ∀ᶠ q in 𝓝 q₀, cholDiff (r q).2.PyC (c q).1.dPy_dq = .ok (ch q))
    {dL : (p → ℝ) → p → ℝ} {d2L : p → p → ℝ} (hL : ∀ b, HasGrad (fun q => dL q b) (fun a => d2L a b) q₀) (b : p) :
    HasGrad (fun q => dlike (r q).2 (c q).1 (ch q) (dL q) b) (fun a => d2like (r q₀).2 (c q₀).1 z.1 (ch q₀) d2L a b) q₀ := by
  have h0 := cholU_isChol hC.self_of_nhds
  have hPyC : ∀ i j, HasGrad (fun q => (r q).2.PyC i j) (fun a => (ch q₀).dS a i j) q₀ :=
    chol_grad (Q := fun q => (r q).2.Py) (fun r => G.Py _ _) hC hch.self_of_nhds
  have hdPyC := chol_grad2 (Q := fun q => (r q).2.Py) (dQ := fun q => (c q).1.dPy_dq) (d2Q := z.1.d2Py_dq2) (fun r => G.Py _ _)
    (fun b r => G2.dPy b _ _) hC hch
  have hlog := hasGrad_sum (Finset.univ : Finset a) fun k _ => (hdPyC b k k).div (hPyC k k) (h0.diag k)
  have hq1 := (G2.de b).dot (G.PyI.mulVec G.e)
  have hq2 := (G.e.dot ((G2.dPyI b).mulVec G.e)).const_mul 0.5
  refine (((((hL b).sub hlog).sub hq1).sub hq2).congr ?_).congr_grad fun a => ?_
  · refine Eventually.of_forall fun q => ?_
    simp only [dlike, quad_sum]
  · have hsymI : ∀ b, ((c q₀).1.dPyI_dq b)ᵀ = (c q₀).1.dPyI_dq b := G.PyI.symm G.symmI
    have e1 : (r q₀).2.e ⬝ᵥ ((c q₀).1.dPyI_dq b *ᵥ (c q₀).1.de_dq a) = (c q₀).1.de_dq a ⬝ᵥ ((c q₀).1.dPyI_dq b *ᵥ (r q₀).2.e) := by
      conv_lhs => rw [← hsymI b]
      rw [mulVec_transpose, dotProduct_comm, ← dotProduct_mulVec]
    have e2 : (c q₀).1.de_dq b ⬝ᵥ ((r q₀).2.PyI *ᵥ (c q₀).1.de_dq a) = (c q₀).1.de_dq a ⬝ᵥ ((r q₀).2.PyI *ᵥ (c q₀).1.de_dq b) := by
      conv_lhs => rw [← G.symmI.self_of_nhds]
      rw [mulVec_transpose, dotProduct_comm, ← dotProduct_mulVec]
    unfold d2like
    simp only [quad_sum, dotProduct_add, Finset.sum_sub_distrib, e1, e2]
    have e3 : ∑ k, (ch q₀).dS b k k * (ch q₀).dS a k k / (r q₀).2.PyC k k ^ 2 = ∑ k, (ch q₀).dS a k k * ((ch q₀).dS b k k / (r q₀).2.PyC k k ^ 2) :=
      Finset.sum_congr rfl fun k _ => by ring
    rw [e3]
    ring

end
end Ceacoest
