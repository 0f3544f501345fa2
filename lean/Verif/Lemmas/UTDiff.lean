import Verif.Lemmas.CholDiff

/-! # The derivatives of the unscented transform -/

namespace Ceacoest
open Matrix Spec Filter Topology
variable {ni : Nat} {o p : Type} [Fintype o] [Fintype p] {ut : UT ni}

/-! ### What the functions return -/

structure TransformSpec (ut : UT ni) (i : Fin ni → ℝ) (P : Matrix (Fin ni) (Fin ni) ℝ) (f : (Fin ni → ℝ) → o → ℝ)
    (d : UTData ut.nsigma (Fin ni) o) : Prop where
  S : ut.sqrt (((ni : ℝ) + ut.kappa) • P) = .ok d.S
  idev : d.idev = UT.spread ut.nsigma fun k => d.S k
  isigma : ∀ k j, d.isigma k j = d.idev k j + i j
  mean : ∀ j, d.mean j = ∑ k, ut.weights k * f (d.isigma k) j
  odev : ∀ k j, d.odev k j = f (d.isigma k) j - d.mean j
  Po : ∀ i j, d.Po i j = ∑ k, d.odev k i * d.odev k j * ut.weights k

omit [Fintype o] in
theorem transform_spec {i : Fin ni → ℝ} {P : Matrix (Fin ni) (Fin ni) ℝ} {f : (Fin ni → ℝ) → o → ℝ} {d : UTData ut.nsigma (Fin ni) o}
    (h : ut.transform i P f = .ok d) : TransformSpec ut i P f d := by
  unfold UT.transform UT.sigmaPoints at h
  cases e : ut.sqrt (((ni : ℝ) + ut.kappa) • P) with
  | error err => rw [e] at h; cases h
  | ok S =>
    rw [e] at h
    simp only [py_bind_ok, py_pure] at h
    cases h
    exact ⟨e, rfl, fun _ _ => rfl, fun _ => rfl, fun _ _ => rfl, fun _ _ => rfl⟩

omit [Fintype o] in
theorem transform_ok_iff {i : Fin ni → ℝ} {P : Matrix (Fin ni) (Fin ni) ℝ} {f : (Fin ni → ℝ) → o → ℝ} :
    (∃ d, ut.transform i P f = .ok d) ↔ ∃ S, ut.sqrt (((ni : ℝ) + ut.kappa) • P) = .ok S := by
  constructor
  · rintro ⟨d, h⟩; exact ⟨_, (transform_spec h).S⟩
  · rintro ⟨S, h⟩
    unfold UT.transform UT.sigmaPoints
    rw [h]
    exact ⟨_, rfl⟩

structure DiffSpec (ut : UT ni) (d : UTData ut.nsigma (Fin ni) o) (df_dq : (Fin ni → ℝ) → p → o → ℝ)
    (df_di : (Fin ni → ℝ) → Fin ni → o → ℝ) (di_dq : p → Fin ni → ℝ) (dPi_dq : p → Matrix (Fin ni) (Fin ni) ℝ)
    (dd : UTDiff ut.nsigma (Fin ni) o p) : Prop where
  chol : ut.kind = .cholesky ∧ cholDiff d.S (fun a => ((ni : ℝ) + ut.kappa) • dPi_dq a) = .ok dd.chol
  didev : dd.didev = UT.spread ut.nsigma fun k a i => dd.chol.dS a k i
  disigma : ∀ k a i, dd.disigma k a i = dd.didev k a i + di_dq a i
  dfdi : ∀ k i j, dd.df_di k i j = df_di (d.isigma k) i j
  do_dq : ∀ a j, dd.do_dq a j = ∑ k, ut.weights k * (df_dq (d.isigma k) a j + ∑ i, df_di (d.isigma k) i j * dd.disigma k a i)
  dodev : ∀ k a j, dd.dodev k a j = (df_dq (d.isigma k) a j + ∑ i, df_di (d.isigma k) i j * dd.disigma k a i) - dd.do_dq a j
  dPo : ∀ a i j, dd.dPo_dq a i j = (∑ k, dd.dodev k a j * d.odev k i * ut.weights k) + ∑ k, dd.dodev k a i * d.odev k j * ut.weights k

omit [Fintype o] [Fintype p] in
theorem diff_spec {d : UTData ut.nsigma (Fin ni) o} {df_dq : (Fin ni → ℝ) → p → o → ℝ}
    {df_di : (Fin ni → ℝ) → Fin ni → o → ℝ} {di_dq : p → Fin ni → ℝ} {dPi_dq : p → Matrix (Fin ni) (Fin ni) ℝ}
    {dd : UTDiff ut.nsigma (Fin ni) o p} (h : ut.transformDiff d df_dq df_di di_dq dPi_dq = .ok dd) :
    DiffSpec ut d df_dq df_di di_dq dPi_dq dd := by
  unfold UT.transformDiff UT.sqrtDiff at h
  cases hk : ut.kind with
  | svd g => rw [hk] at h; cases h
  | cholesky =>
    rw [hk] at h
    simp only at h
    cases e : cholDiff d.S (fun a => ((ni : ℝ) + ut.kappa) • dPi_dq a) with
    | error err => rw [e] at h; cases h
    | ok c =>
      rw [e] at h
      simp only [py_bind_ok, py_pure] at h
      cases h
      exact ⟨⟨hk, e⟩, rfl, fun _ _ _ => rfl, fun _ _ _ => rfl, fun _ _ => rfl, fun _ _ _ => rfl, fun _ _ _ => rfl⟩

omit [Fintype o] in
theorem sqrt_cholesky {Q : Matrix (Fin ni) (Fin ni) ℝ} (h : ut.kind = .cholesky) : ut.sqrt Q = cholU Q := by
  unfold UT.sqrt; rw [h]

/-- After a transform with Cholesky factors, its derivative does not raise. -/
theorem diff_ok {i : Fin ni → ℝ} {P : Matrix (Fin ni) (Fin ni) ℝ} {f : (Fin ni → ℝ) → o → ℝ} {d : UTData ut.nsigma (Fin ni) o}
    (hk : ut.kind = .cholesky) (h : ut.transform i P f = .ok d) (df_dq : (Fin ni → ℝ) → p → o → ℝ)
    (df_di : (Fin ni → ℝ) → Fin ni → o → ℝ) (di_dq : p → Fin ni → ℝ) (dPi_dq : p → Matrix (Fin ni) (Fin ni) ℝ) :
    ∃ dd, ut.transformDiff d df_dq df_di di_dq dPi_dq = .ok dd := by
  have hS := (transform_spec h).S
  rw [sqrt_cholesky hk] at hS
  unfold UT.transformDiff UT.sqrtDiff
  rw [hk]
  simp only
  rw [cholDiff_ok (cholU_isChol hS)]
  exact ⟨_, rfl⟩

/-! ### First derivatives -/

theorem spread_grad {ns : Nat} {S : (p → ℝ) → Fin ni → Fin ni → ℝ} {dS : p → Fin ni → Fin ni → ℝ} {q₀ : p → ℝ}
    (h : ∀ i j, HasGrad (fun q => S q i j) (fun a => dS a i j) q₀) (k : Fin ns) (j : Fin ni) :
    HasGrad (fun q => UT.spread ns (fun k => S q k) k j) (fun a => UT.spread ns (fun k (a : p) i => dS a k i) k a j) q₀ := by
  unfold UT.spread
  split
  · exact h _ _
  · split
    · exact (h _ _).neg
    · exact hasGrad_const 0

variable {i : (p → ℝ) → Fin ni → ℝ} {P : (p → ℝ) → Matrix (Fin ni) (Fin ni) ℝ} {f : (p → ℝ) → (Fin ni → ℝ) → o → ℝ}
  {d : (p → ℝ) → UTData ut.nsigma (Fin ni) o} {q₀ : p → ℝ}

/-- The derivatives of everything that `transform` computes. -/
structure UTGrad (ut : UT ni) (d : (p → ℝ) → UTData ut.nsigma (Fin ni) o) (dd : UTDiff ut.nsigma (Fin ni) o p) (q₀ : p → ℝ) : Prop where
  idev : ∀ k j, HasGrad (fun q => (d q).idev k j) (fun a => dd.didev k a j) q₀
  isigma : ∀ k j, HasGrad (fun q => (d q).isigma k j) (fun a => dd.disigma k a j) q₀
  odev : ∀ k j, HasGrad (fun q => (d q).odev k j) (fun a => dd.dodev k a j) q₀
  mean : ∀ j, HasGrad (fun q => (d q).mean j) (fun a => dd.do_dq a j) q₀
  Po : ∀ i j, HasGrad (fun q => (d q).Po i j) (fun a => dd.dPo_dq a i j) q₀
  crosscov : ∀ i j, HasGrad (fun q => ut.crosscov (d q) i j) (fun a => ut.crosscovDiff (d q₀) dd a i j) q₀

theorem smul_grad {dP : p → Matrix (Fin ni) (Fin ni) ℝ} (hP : ∀ a b, HasGrad (fun q => P q a b) (fun c => dP c a b) q₀) (s : ℝ)
    (r : Tril (Fin ni)) : HasGrad (fun q => (s • P q) r.1.1 r.1.2) (fun a => (s • dP a) r.1.1 r.1.2) q₀ := by
  simp only [Matrix.smul_apply, smul_eq_mul]
  exact (hP _ _).const_mul s

omit [Fintype o] in
theorem transform_eventually (hk : ut.kind = .cholesky) {d₀ : UTData ut.nsigma (Fin ni) o} (h : ut.transform (i q₀) (P q₀) (f q₀) = .ok d₀)
    {dP : p → Matrix (Fin ni) (Fin ni) ℝ} (hP : ∀ a b, HasGrad (fun q => P q a b) (fun c => dP c a b) q₀) :
    ∀ᶠ q in 𝓝 q₀, ∃ d, ut.transform (i q) (P q) (f q) = .ok d := by
  have hS := (transform_spec h).S
  rw [sqrt_cholesky hk] at hS
  filter_upwards [cholU_eventually (Q := fun q => ((ni : ℝ) + ut.kappa) • P q) (smul_grad hP _) hS] with q hq
  rw [transform_ok_iff]
  simpa only [sqrt_cholesky hk] using hq

theorem transform_grad (hd : ∀ᶠ q in 𝓝 q₀, ut.transform (i q) (P q) (f q) = .ok (d q))
    {df_dq : (Fin ni → ℝ) → p → o → ℝ} {df_di : (Fin ni → ℝ) → Fin ni → o → ℝ} {di : p → Fin ni → ℝ} {dP : p → Matrix (Fin ni) (Fin ni) ℝ}
    (hi : ∀ j, HasGrad (fun q => i q j) (fun a => di a j) q₀) (hP : ∀ a b, HasGrad (fun q => P q a b) (fun c => dP c a b) q₀)
    (hf : ∀ x j, HasGrad₂ (fun q x => f q x j) (fun a => df_dq x a j) (fun i => df_di x i j) q₀ x)
    {dd : UTDiff ut.nsigma (Fin ni) o p} (hdd : ut.transformDiff (d q₀) df_dq df_di di dP = .ok dd) : UTGrad ut d dd q₀ := by
  have hs : ∀ᶠ q in 𝓝 q₀, TransformSpec ut (i q) (P q) (f q) (d q) := hd.mono fun q h => transform_spec h
  have s0 := hs.self_of_nhds
  have sd := diff_spec hdd
  have hSg := chol_grad (Q := fun q => ((ni : ℝ) + ut.kappa) • P q) (S := fun q => (d q).S) (smul_grad hP _)
    (hs.mono fun q h => by rw [← sqrt_cholesky sd.chol.1]; exact h.S) sd.chol.2
  have hidev : ∀ k j, HasGrad (fun q => (d q).idev k j) (fun a => dd.didev k a j) q₀ := by
    intro k j
    rw [sd.didev]
    refine (spread_grad (S := fun q => (d q).S) (dS := fun a => dd.chol.dS a) hSg k j).congr ?_
    filter_upwards [hs] with q h
    rw [h.idev]
  have hisigma : ∀ k j, HasGrad (fun q => (d q).isigma k j) (fun a => dd.disigma k a j) q₀ := by
    intro k j
    refine (((hidev k j).add (hi j)).congr ?_).congr_grad fun a => sd.disigma k a j
    filter_upwards [hs] with q h
    exact h.isigma k j
  have hos : ∀ k j, HasGrad (fun q => f q ((d q).isigma k) j)
      (fun a => df_dq ((d q₀).isigma k) a j + ∑ i, df_di ((d q₀).isigma k) i j * dd.disigma k a i) q₀ :=
    fun k j => (hf ((d q₀).isigma k) j).comp (X := fun q => (d q).isigma k) (dX := fun a => dd.disigma k a) (hisigma k)
  have hmean : ∀ j, HasGrad (fun q => (d q).mean j) (fun a => dd.do_dq a j) q₀ := by
    intro j
    refine ((hasGrad_sum Finset.univ fun k _ => (hos k j).const_mul (ut.weights k)).congr ?_).congr_grad fun a => sd.do_dq a j
    filter_upwards [hs] with q h
    exact h.mean j
  have hodev : ∀ k j, HasGrad (fun q => (d q).odev k j) (fun a => dd.dodev k a j) q₀ := by
    intro k j
    refine (((hos k j).sub (hmean j)).congr ?_).congr_grad fun a => sd.dodev k a j
    filter_upwards [hs] with q h
    exact h.odev k j
  refine ⟨hidev, hisigma, hodev, hmean, fun a b => ?_, fun a b => ?_⟩
  · refine ((hasGrad_sum Finset.univ fun k _ => ((hodev k a).mul (hodev k b)).mul_const (ut.weights k)).congr ?_).congr_grad fun c => ?_
    · filter_upwards [hs] with q h
      exact h.Po a b
    · rw [sd.dPo, ← Finset.sum_add_distrib]
      exact Finset.sum_congr rfl fun k _ => by ring
  · refine (hasGrad_sum Finset.univ fun k _ => ((hidev k a).mul (hodev k b)).mul_const (ut.weights k)).congr_grad fun c => ?_
    simp only [UT.crosscovDiff, of_apply]
    rw [← Finset.sum_add_distrib]
    exact Finset.sum_congr rfl fun k _ => by ring

/-! ### Second derivatives -/

/-- The derivatives of everything that `transform_diff` computes. -/
structure UTGrad2 (ut : UT ni) (d : (p → ℝ) → UTData ut.nsigma (Fin ni) o) (dd : (p → ℝ) → UTDiff ut.nsigma (Fin ni) o p)
    (d2 : UTDiff2 ut.nsigma (Fin ni) o p) (q₀ : p → ℝ) : Prop where
  didev : ∀ k b j, HasGrad (fun q => (dd q).didev k b j) (fun a => d2.d2idev k a b j) q₀
  dodev : ∀ k b j, HasGrad (fun q => (dd q).dodev k b j) (fun a => d2.d2odev k a b j) q₀
  do_dq : ∀ b j, HasGrad (fun q => (dd q).do_dq b j) (fun a => d2.d2o_dq2 a b j) q₀
  dPo : ∀ b i j, HasGrad (fun q => (dd q).dPo_dq b i j) (fun a => d2.d2Po_dq2 a b i j) q₀
  crosscov : ∀ b i j, HasGrad (fun q => ut.crosscovDiff (d q) (dd q) b i j) (fun a => ut.crosscovDiff2 (d q₀) (dd q₀) d2 a b i j) q₀

theorem transform_grad2 (hd : ∀ᶠ q in 𝓝 q₀, ut.transform (i q) (P q) (f q) = .ok (d q))
    {df_dq : (p → ℝ) → (Fin ni → ℝ) → p → o → ℝ} {df_di : (p → ℝ) → (Fin ni → ℝ) → Fin ni → o → ℝ} {di : (p → ℝ) → p → Fin ni → ℝ}
    {dP : (p → ℝ) → p → Matrix (Fin ni) (Fin ni) ℝ}
    {d2f_dq2 : (Fin ni → ℝ) → p → p → o → ℝ} {d2f_di2 : (Fin ni → ℝ) → Fin ni → Fin ni → o → ℝ}
    {d2f_di_dq : (Fin ni → ℝ) → p → Fin ni → o → ℝ} {d2i : p → p → Fin ni → ℝ} {d2P : p → p → Matrix (Fin ni) (Fin ni) ℝ}
    (hi : ∀ j, HasGrad (fun q => i q j) (fun a => di q₀ a j) q₀) (hP : ∀ a b, HasGrad (fun q => P q a b) (fun c => dP q₀ c a b) q₀)
    (hf : ∀ x j, HasGrad₂ (fun q x => f q x j) (fun a => df_dq q₀ x a j) (fun i => df_di q₀ x i j) q₀ x)
    (hdi : ∀ b j, HasGrad (fun q => di q b j) (fun a => d2i a b j) q₀)
    (hdP : ∀ b i j, HasGrad (fun q => dP q b i j) (fun a => d2P a b i j) q₀)
    (hfq : ∀ x b j, HasGrad₂ (fun q x => df_dq q x b j) (fun a => d2f_dq2 x a b j) (fun i => d2f_di_dq x b i j) q₀ x)
    (hfi : ∀ x i j, HasGrad₂ (fun q x => df_di q x i j) (fun a => d2f_di_dq x a i j) (fun l => d2f_di2 x i l j) q₀ x)
    {dd : (p → ℝ) → UTDiff ut.nsigma (Fin ni) o p}
    (hdd : ∀ᶠ q in 𝓝 q₀, ut.transformDiff (d q) (df_dq q) (df_di q) (di q) (dP q) = .ok (dd q)) :
    UTGrad2 ut d dd (ut.transformDiff2 (d q₀) (dd q₀) d2f_dq2 d2f_di2 d2f_di_dq d2i d2P) q₀ := by
  have hs : ∀ᶠ q in 𝓝 q₀, TransformSpec ut (i q) (P q) (f q) (d q) := hd.mono fun q h => transform_spec h
  have hsd : ∀ᶠ q in 𝓝 q₀, DiffSpec ut (d q) (df_dq q) (df_di q) (di q) (dP q) (dd q) := hdd.mono fun q h => diff_spec h
  have s0 := hs.self_of_nhds
  have sd := hsd.self_of_nhds
  have G := transform_grad hd hi hP hf hdd.self_of_nhds
  have hSg := chol_grad2 (Q := fun q => ((ni : ℝ) + ut.kappa) • P q) (S := fun q => (d q).S)
    (dQ := fun q a => ((ni : ℝ) + ut.kappa) • dP q a) (d2Q := fun a b => ((ni : ℝ) + ut.kappa) • d2P a b) (c := fun q => (dd q).chol)
    (smul_grad hP _) (fun b r => smul_grad (P := fun q => dP q b) (dP := fun a => d2P a b) (hdP b) _ r)
    (hs.mono fun q h => by rw [← sqrt_cholesky sd.chol.1]; exact h.S) (hsd.mono fun q h => h.chol.2)
  set d2 := ut.transformDiff2 (d q₀) (dd q₀) d2f_dq2 d2f_di2 d2f_di_dq d2i d2P with hd2
  have hdidev : ∀ k b j, HasGrad (fun q => (dd q).didev k b j) (fun a => d2.d2idev k a b j) q₀ := by
    intro k b j
    have h1 := spread_grad (ns := ut.nsigma) (S := fun q => of fun k i => (dd q).chol.dS b k i)
      (dS := fun a => of fun k i => cholDiff2 (dd q₀).chol (fun a b => ((ni : ℝ) + ut.kappa) • d2P a b) a b k i) (hSg b) k j
    refine (h1.congr ?_).congr_grad fun a => ?_
    · filter_upwards [hsd] with q h
      rw [h.didev]
      unfold UT.spread
      split
      · rfl
      · split <;> rfl
    · rw [hd2]
      simp only [UT.transformDiff2]
      unfold UT.spread
      split
      · rfl
      · split <;> rfl
  have hdisigma : ∀ k b j, HasGrad (fun q => (dd q).disigma k b j) (fun a => d2.d2idev k a b j + d2i a b j) q₀ := by
    intro k b j
    refine ((hdidev k b j).add (hdi b j)).congr ?_
    filter_upwards [hsd] with q h
    exact h.disigma k b j
  let D2 : Fin ut.nsigma → p → p → o → ℝ := fun k a b j =>
    (d2f_dq2 ((d q₀).isigma k) a b j + ∑ i, d2f_di_dq ((d q₀).isigma k) b i j * (dd q₀).disigma k a i) +
      ∑ i, (df_di q₀ ((d q₀).isigma k) i j * (d2.d2idev k a b i + d2i a b i) +
        (d2f_di_dq ((d q₀).isigma k) a i j + ∑ l, d2f_di2 ((d q₀).isigma k) i l j * (dd q₀).disigma k a l) * (dd q₀).disigma k b i)
  have hDo : ∀ k b j, HasGrad (fun q => df_dq q ((d q).isigma k) b j + ∑ i, df_di q ((d q).isigma k) i j * (dd q).disigma k b i)
      (fun a => D2 k a b j) q₀ := by
    intro k b j
    refine HasGrad.add ?_ (hasGrad_sum Finset.univ fun i _ => HasGrad.mul ?_ (hdisigma k b i))
    · exact (hfq ((d q₀).isigma k) b j).comp (X := fun q => (d q).isigma k) (dX := fun a => (dd q₀).disigma k a) (G.isigma k)
    · exact (hfi ((d q₀).isigma k) i j).comp (X := fun q => (d q).isigma k) (dX := fun a => (dd q₀).disigma k a) (G.isigma k)
  -- what the code computes
  have hcode : ∀ k a b j, D2 k a b j =
      ((((∑ i, d2f_di_dq ((d q₀).isigma k) b i j * (dd q₀).disigma k a i) + ∑ i, d2f_di_dq ((d q₀).isigma k) a i j * (dd q₀).disigma k b i) +
        d2f_dq2 ((d q₀).isigma k) a b j) + ∑ i, ∑ l, d2f_di2 ((d q₀).isigma k) i l j * (dd q₀).disigma k b i * (dd q₀).disigma k a l) +
        ∑ i, (dd q₀).df_di k i j * (d2.d2idev k a b i + d2i a b i) := by
    intro k a b j
    simp only [D2]
    have e1 : ∑ i, (df_di q₀ ((d q₀).isigma k) i j * (d2.d2idev k a b i + d2i a b i) +
        (d2f_di_dq ((d q₀).isigma k) a i j + ∑ l, d2f_di2 ((d q₀).isigma k) i l j * (dd q₀).disigma k a l) * (dd q₀).disigma k b i) =
        (∑ i, (dd q₀).df_di k i j * (d2.d2idev k a b i + d2i a b i)) + (∑ i, d2f_di_dq ((d q₀).isigma k) a i j * (dd q₀).disigma k b i) +
        ∑ i, ∑ l, d2f_di2 ((d q₀).isigma k) i l j * (dd q₀).disigma k b i * (dd q₀).disigma k a l := by
      rw [← Finset.sum_add_distrib, ← Finset.sum_add_distrib]
      refine Finset.sum_congr rfl fun i _ => ?_
      rw [sd.dfdi, add_mul, Finset.sum_mul, add_assoc]
      congr 2
      exact Finset.sum_congr rfl fun l _ => by ring
    rw [e1]
    ring
  have hdo : ∀ b j, HasGrad (fun q => (dd q).do_dq b j) (fun a => d2.d2o_dq2 a b j) q₀ := by
    intro b j
    refine ((hasGrad_sum Finset.univ fun k _ => (hDo k b j).const_mul (ut.weights k)).congr ?_).congr_grad fun a => ?_
    · filter_upwards [hsd] with q h
      exact h.do_dq b j
    · refine Eq.symm (Finset.sum_congr rfl fun k _ => ?_)
      rw [hcode]
      rfl
  have hdodev : ∀ k b j, HasGrad (fun q => (dd q).dodev k b j) (fun a => d2.d2odev k a b j) q₀ := by
    intro k b j
    refine (((hDo k b j).sub (hdo b j)).congr ?_).congr_grad fun a => ?_
    · filter_upwards [hsd] with q h
      exact h.dodev k b j
    · rw [hcode]
      rfl
  refine ⟨hdidev, hdodev, hdo, fun b i' j => ?_, fun b i' j => ?_⟩
  · have h1 := (hasGrad_sum Finset.univ fun k _ => ((hdodev k b j).mul (G.odev k i')).mul_const (ut.weights k)).add
      (hasGrad_sum Finset.univ fun k _ => ((hdodev k b i').mul (G.odev k j)).mul_const (ut.weights k))
    refine (h1.congr ?_).congr_grad fun a => ?_
    · filter_upwards [hsd] with q h
      exact h.dPo b i' j
    · show (((∑ k, d2.d2odev k a b i' * (d q₀).odev k j * ut.weights k) + ∑ k, (dd q₀).dodev k b i' * (dd q₀).dodev k a j * ut.weights k) +
        ((∑ k, d2.d2odev k a b j * (d q₀).odev k i' * ut.weights k) + ∑ k, (dd q₀).dodev k b j * (dd q₀).dodev k a i' * ut.weights k)) = _
      simp only [← Finset.sum_add_distrib]
      exact Finset.sum_congr rfl fun k _ => by ring
  · have h1 := (hasGrad_sum Finset.univ fun k _ => ((hdidev k b i').mul (G.odev k j)).mul_const (ut.weights k)).add
      (hasGrad_sum Finset.univ fun k _ => ((G.idev k i').mul (hdodev k b j)).mul_const (ut.weights k))
    refine h1.congr_grad fun a => ?_
    simp only [UT.crosscovDiff2, of_apply, Matrix.add_apply]
    simp only [← Finset.sum_add_distrib]
    exact Finset.sum_congr rfl fun k _ => by ring

end Ceacoest
