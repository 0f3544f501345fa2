import Verif.Lemmas.UTDiff
import Verif.Props.UT
import Mathlib.Analysis.Calculus.Deriv.Basic
import Mathlib.Analysis.Calculus.Deriv.Comp
import Mathlib.Analysis.Calculus.Deriv.Prod
import Mathlib.Analysis.Calculus.Deriv.Mul
import Mathlib.LinearAlgebra.Matrix.Notation
import Mathlib.Tactic.FinCases
import Mathlib.Tactic.NormNum

/-! # C44, C45: derivatives of Cholesky factors and of unscented transforms -/

namespace Ceacoest
open Matrix Spec Filter Topology
variable {ι : Type} [Fintype ι] [LinearOrder ι]

/-- **C44.** `diff` does not raise after a factorisation; for each perturbation it returns the upper triangular solution of
`Sᵀ dS + dSᵀ S = dQ`, and there is no other. -/
theorem C44_unique {p : Type} {Q S : Matrix ι ι ℝ} (h : cholU Q = .ok S) {dQ : p → Matrix ι ι ℝ} (hsym : ∀ b, (dQ b)ᵀ = dQ b) :
    ∃ c, cholDiff S dQ = .ok c ∧ ∀ b, (∀ j i, i < j → c.dS b j i = 0) ∧ Sᵀ * c.dS b + (c.dS b)ᵀ * S = dQ b ∧
      ∀ X : Matrix ι ι ℝ, (∀ j i, i < j → X j i = 0) → Sᵀ * X + Xᵀ * S = dQ b → X = c.dS b := by
  have h0 := cholU_isChol h
  have hdet := cholAL_det h0.upper h0.diag
  refine ⟨_, cholDiff_ok h0 dQ, fun b => ⟨fun j i hij => by dsimp only; exact fromTril_lower _ j i hij, ?_, fun X hX heq => ?_⟩⟩
  · have key := cholAL_solve' hdet fun r => dQ b r.1.1 r.1.2
    have hlow : ∀ i j, j ≤ i → (Sᵀ * fromTril (fun r => ∑ c, (cholAL S)⁻¹ r c * dQ b c.1.1 c.1.2) +
        (fromTril (fun r => ∑ c, (cholAL S)⁻¹ r c * dQ b c.1.1 c.1.2))ᵀ * S) i j = dQ b i j := by
      intro i j hij
      rw [Matrix.add_apply, mul_apply, mul_apply, ← Finset.sum_add_distrib]
      refine Eq.trans (Finset.sum_congr rfl fun k _ => ?_) (key ⟨(i, j), hij⟩)
      simp only [transpose_apply]
      ring
    ext i j
    rcases le_total j i with hij | hij
    · exact hlow i j hij
    · have h2 := hlow j i hij
      have hs : dQ b i j = dQ b j i := by rw [← transpose_apply (dQ b) j i, hsym b]
      rw [hs, ← h2, Matrix.add_apply, Matrix.add_apply, mul_apply, mul_apply, mul_apply, mul_apply, add_comm]
      congr 1 <;>
      · refine Finset.sum_congr rfl fun k _ => ?_
        simp only [transpose_apply]
        ring
  · have hs := cholAL_solve hdet (w := fun r => X r.1.2 r.1.1) (u := fun r => dQ b r.1.1 r.1.2) fun r => ?_
    · rw [← fromTril_of_upper hX]
      dsimp only
      congr 1
      funext r
      exact hs r
    · rw [fromTril_of_upper hX, ← heq, Matrix.add_apply, mul_apply, mul_apply, ← Finset.sum_add_distrib]
      refine Finset.sum_congr rfl fun k _ => ?_
      simp only [transpose_apply]
      ring

section
variable {p : Type} [Fintype p] {Q : (p → ℝ) → Matrix ι ι ℝ} {q₀ : p → ℝ} {dQ : (p → ℝ) → p → Matrix ι ι ℝ} {d2Q : p → p → Matrix ι ι ℝ}

/-- Where the factorisation of a differentiable matrix succeeds, so it does nearby, and `diff` gives the gradients of the factor. -/
theorem C44_gradient (hQ : ∀ i j, HasGrad (fun q => Q q i j) (fun a => dQ q₀ a i j) q₀) {S₀ : Matrix ι ι ℝ} (h0 : cholU (Q q₀) = .ok S₀) :
    (∀ᶠ q in 𝓝 q₀, ∃ S, cholU (Q q) = .ok S) ∧
    ∃ c, cholDiff S₀ (dQ q₀) = .ok c ∧ ∀ S : (p → ℝ) → Matrix ι ι ℝ, (∀ᶠ q in 𝓝 q₀, cholU (Q q) = .ok (S q)) →
      ∀ i j, HasGrad (fun q => S q i j) (fun a => c.dS a i j) q₀ := by
  have hc := cholDiff_ok (cholU_isChol h0) (dQ q₀)
  refine ⟨cholU_eventually (fun r => hQ _ _) h0, _, hc, fun S hS => ?_⟩
  have e : S q₀ = S₀ := Except.ok.inj (by rw [← hS.self_of_nhds, h0])
  exact chol_grad (fun r => hQ _ _) hS (by rw [e]; exact hc)

/-- `diff2` gives the second derivatives. -/
theorem C44_hessian (hQ : ∀ i j, ∀ᶠ q in 𝓝 q₀, HasGrad (fun q => Q q i j) (fun a => dQ q a i j) q)
    (hdQ : ∀ b i j, HasGrad (fun q => dQ q b i j) (fun a => d2Q a b i j) q₀) {S : (p → ℝ) → Matrix ι ι ℝ}
    (hS : ∀ᶠ q in 𝓝 q₀, cholU (Q q) = .ok (S q)) :
    ∃ c : (p → ℝ) → CholDiff ι p, (∀ᶠ q in 𝓝 q₀, cholDiff (S q) (dQ q) = .ok (c q)) ∧
      ∀ i j, HasHess (fun q => S q i j) (fun q b => (c q).dS b i j) (fun a b => cholDiff2 (c q₀) d2Q a b i j) q₀ := by
  have hQ' : ∀ᶠ q in 𝓝 q₀, ∀ i j, HasGrad (fun q => Q q i j) (fun a => dQ q a i j) q :=
    eventually_all.2 fun i => eventually_all.2 fun j => hQ i j
  let c : (p → ℝ) → CholDiff ι p := fun q =>
    ⟨fun b => fromTril fun r => ∑ c, (cholAL (S q))⁻¹ r c * dQ q b c.1.1 c.1.2, fun b r => dQ q b r.1.1 r.1.2, (cholAL (S q))⁻¹⟩
  have hc : ∀ q, cholU (Q q) = .ok (S q) → cholDiff (S q) (dQ q) = .ok (c q) := fun q h => cholDiff_ok (cholU_isChol h) (dQ q)
  refine ⟨c, hS.mono hc, fun i j => ⟨?_, fun b => ?_⟩⟩
  · filter_upwards [hQ', eventually_eventually_nhds.2 hS] with q h1 h2
    exact chol_grad (fun r => h1 _ _) h2 (hc q h2.self_of_nhds) i j
  · exact chol_grad2 (fun r => hQ'.self_of_nhds _ _) (fun b r => hdQ b _ _) hS (hS.mono hc) b i j
end

/-- The derivative of the factor along a path. -/
theorem C44_path {Q S : ℝ → Matrix ι ι ℝ} {Q' : Matrix ι ι ℝ} {t₀ : ℝ} (hQ : ∀ i j, HasDerivAt (fun t => Q t i j) (Q' i j) t₀)
    (hS : ∀ᶠ t in 𝓝 t₀, cholU (Q t) = .ok (S t)) :
    ∃ c, cholDiff (S t₀) (fun _ : Fin 1 => Q') = .ok c ∧ ∀ i j, HasDerivAt (fun t => S t i j) (c.dS 0 i j) t₀ := by
  have hc := cholDiff_ok (cholU_isChol hS.self_of_nhds) fun _ : Fin 1 => Q'
  refine ⟨_, hc, fun i j => ?_⟩
  have he : ContinuousAt (fun q : Fin 1 → ℝ => q 0) (fun _ => t₀) := (continuous_apply 0).continuousAt
  have hQ1 : ∀ i j, HasGrad (fun q : Fin 1 → ℝ => Q (q 0) i j) (fun _ => Q' i j) (fun _ => t₀) := by
    intro i j
    have h1 := HasDerivAt.comp_hasFDerivAt (fun _ : Fin 1 => t₀) (f := fun q : Fin 1 → ℝ => q 0) (hQ i j)
      (ContinuousLinearMap.proj (R := ℝ) (φ := fun _ : Fin 1 => ℝ) 0).hasFDerivAt
    have e : lin (fun _ : Fin 1 => Q' i j) = Q' i j • ContinuousLinearMap.proj (R := ℝ) (φ := fun _ : Fin 1 => ℝ) 0 := by
      ext v; simp [lin_apply]
    unfold HasGrad
    rw [e]
    exact h1
  have h2 := chol_grad (Q := fun q : Fin 1 → ℝ => Q (q 0)) (S := fun q => S (q 0)) (fun r => hQ1 _ _) (he.eventually hS) hc i j
  have h3 : HasDerivAt (fun t : ℝ => (fun _ : Fin 1 => t)) (fun _ => 1) t₀ := hasDerivAt_pi.2 fun _ => hasDerivAt_id t₀
  have h4 := HasFDerivAt.comp_hasDerivAt t₀ (f := fun t : ℝ => (fun _ : Fin 1 => t)) (l := fun q : Fin 1 → ℝ => S (q 0) i j) h2 h3
  exact h4.congr_deriv (by rw [lin_apply]; simp)

/-! ### C45 -/

section
variable {ni : Nat} {o p : Type} [Fintype o] [Fintype p] {ut : UT ni}
  {i : (p → ℝ) → Fin ni → ℝ} {P : (p → ℝ) → Matrix (Fin ni) (Fin ni) ℝ} {f : (p → ℝ) → (Fin ni → ℝ) → o → ℝ} {q₀ : p → ℝ}
  {df_dq : (p → ℝ) → (Fin ni → ℝ) → p → o → ℝ} {df_di : (p → ℝ) → (Fin ni → ℝ) → Fin ni → o → ℝ} {di : (p → ℝ) → p → Fin ni → ℝ}
  {dP : (p → ℝ) → p → Matrix (Fin ni) (Fin ni) ℝ}
  {d2f_dq2 : (Fin ni → ℝ) → p → p → o → ℝ} {d2f_di2 : (Fin ni → ℝ) → Fin ni → Fin ni → o → ℝ}
  {d2f_di_dq : (Fin ni → ℝ) → p → Fin ni → o → ℝ} {d2i : p → p → Fin ni → ℝ} {d2P : p → p → Matrix (Fin ni) (Fin ni) ℝ}

/-- **C45.** Where the transform with Cholesky factors succeeds, so it does nearby; `transform_diff` does not raise, and returns, with
`crosscov_diff`, the gradients of the mean, of the covariance and of the cross covariance. -/
theorem C45_gradient (hk : ut.kind = .cholesky) {d₀ : UTData ut.nsigma (Fin ni) o} (h0 : ut.transform (i q₀) (P q₀) (f q₀) = .ok d₀)
    (hi : ∀ j, HasGrad (fun q => i q j) (fun a => di q₀ a j) q₀) (hP : ∀ a b, HasGrad (fun q => P q a b) (fun c => dP q₀ c a b) q₀)
    (hf : ∀ x j, HasGrad₂ (fun q x => f q x j) (fun a => df_dq q₀ x a j) (fun i => df_di q₀ x i j) q₀ x) :
    (∀ᶠ q in 𝓝 q₀, ∃ d, ut.transform (i q) (P q) (f q) = .ok d) ∧
    ∃ dd, ut.transformDiff d₀ (df_dq q₀) (df_di q₀) (di q₀) (dP q₀) = .ok dd ∧
      ∀ d : (p → ℝ) → UTData ut.nsigma (Fin ni) o, (∀ᶠ q in 𝓝 q₀, ut.transform (i q) (P q) (f q) = .ok (d q)) →
        (∀ j, HasGrad (fun q => (d q).mean j) (fun a => dd.do_dq a j) q₀) ∧
        (∀ i j, HasGrad (fun q => (d q).Po i j) (fun a => dd.dPo_dq a i j) q₀) ∧
        (∀ i j, HasGrad (fun q => ut.crosscov (d q) i j) (fun a => ut.crosscovDiff d₀ dd a i j) q₀) := by
  obtain ⟨dd, hdd⟩ := diff_ok hk h0 (df_dq q₀) (df_di q₀) (di q₀) (dP q₀)
  refine ⟨transform_eventually hk h0 hP, dd, hdd, fun d hd => ?_⟩
  have e : d q₀ = d₀ := Except.ok.inj (by rw [← hd.self_of_nhds, h0])
  have G := transform_grad hd hi hP hf (by rw [e]; exact hdd)
  exact ⟨G.mean, G.Po, by rw [← e]; exact G.crosscov⟩

/-- `transform_diff2` and `crosscov_diff2` return the second derivatives. -/
theorem C45_hessian (hk : ut.kind = .cholesky)
    (hi : ∀ᶠ q in 𝓝 q₀, ∀ j, HasGrad (fun q => i q j) (fun a => di q a j) q)
    (hP : ∀ᶠ q in 𝓝 q₀, ∀ a b, HasGrad (fun q => P q a b) (fun c => dP q c a b) q)
    (hf : ∀ᶠ q in 𝓝 q₀, ∀ x j, HasGrad₂ (fun q x => f q x j) (fun a => df_dq q x a j) (fun i => df_di q x i j) q x)
    (hdi : ∀ b j, HasGrad (fun q => di q b j) (fun a => d2i a b j) q₀)
    (hdP : ∀ b i j, HasGrad (fun q => dP q b i j) (fun a => d2P a b i j) q₀)
    (hfq : ∀ x b j, HasGrad₂ (fun q x => df_dq q x b j) (fun a => d2f_dq2 x a b j) (fun i => d2f_di_dq x b i j) q₀ x)
    (hfi : ∀ x i j, HasGrad₂ (fun q x => df_di q x i j) (fun a => d2f_di_dq x a i j) (fun l => d2f_di2 x i l j) q₀ x)
    {d : (p → ℝ) → UTData ut.nsigma (Fin ni) o} (hd : ∀ᶠ q in 𝓝 q₀, ut.transform (i q) (P q) (f q) = .ok (d q))
    {dd : (p → ℝ) → UTDiff ut.nsigma (Fin ni) o p}
    (hdd : ∀ᶠ q in 𝓝 q₀, ut.transformDiff (d q) (df_dq q) (df_di q) (di q) (dP q) = .ok (dd q)) :
    let d2 := ut.transformDiff2 (d q₀) (dd q₀) d2f_dq2 d2f_di2 d2f_di_dq d2i d2P
    (∀ j, HasHess (fun q => (d q).mean j) (fun q b => (dd q).do_dq b j) (fun a b => d2.d2o_dq2 a b j) q₀) ∧
    (∀ i j, HasHess (fun q => (d q).Po i j) (fun q b => (dd q).dPo_dq b i j) (fun a b => d2.d2Po_dq2 a b i j) q₀) ∧
    (∀ i j, HasHess (fun q => ut.crosscov (d q) i j) (fun q b => ut.crosscovDiff (d q) (dd q) b i j)
      (fun a b => ut.crosscovDiff2 (d q₀) (dd q₀) d2 a b i j) q₀) := by
  intro d2
  have G2 := transform_grad2 hd hi.self_of_nhds hP.self_of_nhds hf.self_of_nhds hdi hdP hfq hfi hdd
  have G : ∀ᶠ q in 𝓝 q₀, UTGrad ut d (dd q) q := by
    filter_upwards [eventually_eventually_nhds.2 hd, hi, hP, hf, hdd] with q h1 h2 h3 h4 h5
    exact transform_grad h1 h2 h3 h4 h5
  exact ⟨fun j => ⟨G.mono fun q h => h.mean j, fun b => G2.do_dq b j⟩, fun i j => ⟨G.mono fun q h => h.Po i j, fun b => G2.dPo b i j⟩,
    fun i j => ⟨G.mono fun q h => h.crosscov i j, fun b => G2.crosscov b i j⟩⟩
end

/-! ### Concrete cases -/

/-- C44 is about this one, with any symmetric perturbation, for example this one. -/
example : ∃ c, cholDiff !![2, 1; 0, 2] (fun _ : Fin 1 => !![1, 0; 0, 3]) = .ok c ∧
    !![2, 1; 0, 2]ᵀ * c.dS 0 + (c.dS 0)ᵀ * !![2, 1; 0, 2] = !![1, 0; 0, 3] := by
  obtain ⟨c, h, hc⟩ := C44_unique chol_example (dQ := fun _ : Fin 1 => !![1, 0; 0, 3]) fun b => by
    ext i j; fin_cases i <;> fin_cases j <;> rfl
  exact ⟨c, h, (hc 0).2.1⟩

/-- A path through it. -/
example : ∃ c, cholDiff !![2, 1; 0, 2] (fun _ : Fin 1 => !![8, 0; 0, 0]) = .ok c ∧
    ∀ S : ℝ → Matrix (Fin 2) (Fin 2) ℝ, (∀ᶠ t in 𝓝 (1 / 2), cholU !![16 * (t * t), 2; 2, 5] = .ok (S t)) →
      HasDerivAt (fun t => S t 0 0) (2 * c.dS 0 0 0) (1 / 2) := by
  obtain ⟨c, h, hc⟩ := C44_unique chol_example (dQ := fun _ : Fin 1 => !![8, 0; 0, 0]) fun b => by
    ext i j; fin_cases i <;> fin_cases j <;> rfl
  refine ⟨c, h, fun S hS => ?_⟩
  have e0 : S (1 / 2) = !![2, 1; 0, 2] := by
    have := hS.self_of_nhds
    rw [show (16 * ((1 : ℝ) / 2 * (1 / 2))) = 4 by norm_num, chol_example] at this
    exact (Except.ok.inj this).symm
  have hd : ∀ i j, HasDerivAt (fun t : ℝ => (!![16 * (t * t), 2; 2, 5] : Matrix (Fin 2) (Fin 2) ℝ) i j)
      ((!![16, 0; 0, 0] : Matrix (Fin 2) (Fin 2) ℝ) i j) (1 / 2) := by
    intro i j
    fin_cases i <;> fin_cases j
    · have := (((hasDerivAt_id (1 / 2 : ℝ)).mul (hasDerivAt_id (1 / 2 : ℝ))).const_mul 16)
      simpa using this.congr_deriv (by norm_num)
    all_goals exact hasDerivAt_const _ _
  obtain ⟨c', h', hc'⟩ := C44_path (S := S) hd hS
  rw [e0] at h'
  obtain ⟨c'', h'', hu⟩ := C44_unique chol_example (dQ := fun _ : Fin 1 => !![16, 0; 0, 0]) fun b => by
    ext i j; fin_cases i <;> fin_cases j <;> rfl
  have ec : c' = c'' := Except.ok.inj (by rw [← h', h''])
  have := (hu 0).2.2 ((2 : ℝ) • c.dS 0) (fun j i hij => by simp [(hc 0).1 j i hij]) (by
    rw [Matrix.mul_smul, transpose_smul, Matrix.smul_mul, ← smul_add, (hc 0).2.1]
    ext i j; fin_cases i <;> fin_cases j <;> norm_num)
  have h3 := hc' 0 0
  rw [ec, ← this] at h3
  exact h3

/-- A function of parameters and inputs, for C45. -/
theorem hasGrad₂_example (q : Fin 1 → ℝ) (x : Fin 2 → ℝ) : HasGrad₂ (fun q x => q 0 * x 0 * x 1) (fun _ => x 0 * x 1)
    (fun i => if i = 0 then q 0 * x 1 else q 0 * x 0) q x := by
  have h0 : HasFDerivAt (fun z : (Fin 1 → ℝ) × (Fin 2 → ℝ) => z.1 0) ((ContinuousLinearMap.proj 0).comp (ContinuousLinearMap.fst ℝ _ _)) (q, x) :=
    ((ContinuousLinearMap.proj (R := ℝ) (φ := fun _ : Fin 1 => ℝ) 0).comp (ContinuousLinearMap.fst ℝ (Fin 1 → ℝ) (Fin 2 → ℝ))).hasFDerivAt
  have hx : ∀ i, HasFDerivAt (fun z : (Fin 1 → ℝ) × (Fin 2 → ℝ) => z.2 i) ((ContinuousLinearMap.proj i).comp (ContinuousLinearMap.snd ℝ _ _)) (q, x) :=
    fun i => ((ContinuousLinearMap.proj (R := ℝ) (φ := fun _ : Fin 2 => ℝ) i).comp (ContinuousLinearMap.snd ℝ (Fin 1 → ℝ) (Fin 2 → ℝ))).hasFDerivAt
  refine ((h0.mul (hx 0)).mul (hx 1)).congr_fderiv ?_
  ext v <;> simp [lin_apply, Fin.sum_univ_two] <;> ring

theorem hasGrad_smul_example (M : Matrix (Fin 2) (Fin 2) ℝ) (q : Fin 1 → ℝ) (a b : Fin 2) :
    HasGrad (fun q : Fin 1 → ℝ => (q 0 • M) a b) (fun _ => M a b) q := by
  refine ((hasGrad_coord 0).mul_const (M a b)).congr_grad fun c => ?_
  rw [if_pos (Subsingleton.elim _ _), one_mul]

/-- C45 is about the transform of this function, with a parametric covariance. -/
theorem case_C45 {M S : Matrix (Fin 2) (Fin 2) ℝ} (q₀ : Fin 1 → ℝ) (ut : UT 2) (h : UT.init 2 .cholesky 1 = .ok ut)
    (hM : cholU ((((2 : ℕ) : ℝ) + 1) • (q₀ 0 • M)) = .ok S) : ∃ d₀, ut.transform (fun _ => 0) (q₀ 0 • M)
      (fun x (_ : Fin 1) => q₀ 0 * x 0 * x 1) = .ok d₀ ∧
    ∃ dd, ut.transformDiff d₀ (fun x (_ : Fin 1) _ => x 0 * x 1) (fun x i _ => if i = 0 then q₀ 0 * x 1 else q₀ 0 * x 0) (fun _ _ => 0)
      (fun _ => M) = .ok dd ∧
      ∀ d : (Fin 1 → ℝ) → UTData ut.nsigma (Fin 2) (Fin 1), (∀ᶠ q in 𝓝 q₀, ut.transform (fun _ => 0)
          (q 0 • M) (fun x _ => q 0 * x 0 * x 1) = .ok (d q)) →
        HasGrad (fun q => (d q).mean 0) (fun a => dd.do_dq a 0) q₀ := by
  obtain ⟨-, hkap, hkind, -⟩ := ut_init_ok h
  have hS : ut.sqrt ((((2 : ℕ) : ℝ) + ut.kappa) • (q₀ 0 • M)) = .ok S := by
    rw [sqrt_cholesky hkind, hkap, hM]
  obtain ⟨d₀, hd₀⟩ := (transform_ok_iff (i := fun _ => 0) (f := fun x (_ : Fin 1) => q₀ 0 * x 0 * x 1)).2 ⟨_, hS⟩
  have key := C45_gradient (ut := ut) (o := Fin 1) (q₀ := q₀) (i := fun _ _ => 0)
    (P := fun q => q 0 • M) (f := fun q x (_ : Fin 1) => q 0 * x 0 * x 1)
    (di := fun _ _ _ => 0) (dP := fun _ _ => M) (df_dq := fun _ x _ _ => x 0 * x 1)
    (df_di := fun q x i _ => if i = 0 then q 0 * x 1 else q 0 * x 0) hkind (d₀ := d₀) hd₀
    (fun j => hasGrad_const 0) (fun a b => hasGrad_smul_example M q₀ a b) (fun x j => hasGrad₂_example q₀ x)
  exact ⟨d₀, hd₀, key.2.choose, key.2.choose_spec.1, fun d hd => (key.2.choose_spec.2 d hd).1 0⟩

example (ut : UT 2) (h : UT.init 2 .cholesky 1 = .ok ut) := case_C45 (M := !![4, 2; 2, 5]) (S := !![2, 1; 0, 2]) (fun _ => 1 / 3) ut h (by
  rw [smul_smul, show (((2 : ℕ) : ℝ) + 1) * (1 / 3) = 1 by norm_num, one_smul, chol_example])

end Ceacoest
