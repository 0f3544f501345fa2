import Verif.Lemmas.Chol
import Verif.Lemmas.Lists
import Verif.Lemmas.Grad
import Mathlib.Analysis.Calculus.InverseFunctionTheorem.FDeriv
import Mathlib.Topology.Algebra.Module.FiniteDimension
import Mathlib.LinearAlgebra.Matrix.ToLinearEquiv

/-! # The derivative of the Cholesky factor -/

namespace Ceacoest
open Matrix Spec Filter Topology
variable {ι : Type} [Fintype ι] [LinearOrder ι]

omit [Fintype ι] in
theorem fromTril_apply (v : Tril ι → ℝ) (r : Tril ι) : fromTril v r.1.2 r.1.1 = v r := by
  simp only [fromTril, of_apply]
  rw [dif_pos r.2]

omit [Fintype ι] in
theorem fromTril_lower (v : Tril ι → ℝ) (j i : ι) (h : i < j) : fromTril v j i = 0 := by
  simp only [fromTril, of_apply]
  rw [dif_neg (not_le.2 h)]

omit [Fintype ι] in
/-- An upper triangular matrix comes from its entries. -/
theorem fromTril_of_upper {S : Matrix ι ι ℝ} (h : ∀ j i, i < j → S j i = 0) : fromTril (fun r => S r.1.2 r.1.1) = S := by
  ext j i
  simp only [fromTril, of_apply]
  split
  · rfl
  · rename_i hn
    exact (h j i (not_le.1 hn)).symm

theorem sum_tril (w : Tril ι → ℝ) (s : ι → ℝ) (i : ι) :
    ∑ c : Tril ι, (if c.1.1 = i then s c.1.2 else 0) * w c = ∑ k, s k * fromTril w k i := by
  let G : ι × ι → ℝ := fun c => (if c.1 = i then s c.2 else 0) * fromTril w c.2 c.1
  have h1 : ∑ c : Tril ι, (if c.1.1 = i then s c.1.2 else 0) * w c = ∑ c : Tril ι, G c.1 :=
    Finset.sum_congr rfl fun c _ => by simp only [G]; rw [fromTril_apply]
  rw [h1, ← Finset.sum_subtype (Finset.univ.filter fun c : ι × ι => c.2 ≤ c.1) (by simp) G, Finset.sum_filter, Fintype.sum_prod_type,
    Finset.sum_eq_single i]
  · refine Finset.sum_congr rfl fun k _ => ?_
    simp only [G, if_pos]
    split
    · rfl
    · rename_i hn
      rw [fromTril_lower w k i (not_le.1 hn), mul_zero]
  · intro b _ hb
    refine Finset.sum_eq_zero fun k _ => ?_
    simp only [G, if_neg hb, zero_mul, ite_self]
  · intro h; exact absurd (Finset.mem_univ i) h

/-- The matrix of the linearised equation. -/
theorem cholAL_mulVec (S : Matrix ι ι ℝ) (w : Tril ι → ℝ) (r : Tril ι) :
    ∑ c, cholAL S r c * w c = ∑ k, (S k r.1.2 * fromTril w k r.1.1 + S k r.1.1 * fromTril w k r.1.2) := by
  rw [Finset.sum_add_distrib, ← sum_tril w (fun k => S k r.1.2), ← sum_tril w (fun k => S k r.1.1), ← Finset.sum_add_distrib]
  refine Finset.sum_congr rfl fun c _ => ?_
  simp only [cholAL, of_apply, cholA]
  ring

/-- The linearised equation has one solution. -/
theorem cholAL_injective {S : Matrix ι ι ℝ} (hup : ∀ j i, i < j → S j i = 0) (hd : ∀ i, S i i ≠ 0) {w : Tril ι → ℝ}
    (h : ∀ r : Tril ι, ∑ k, (S k r.1.2 * fromTril w k r.1.1 + S k r.1.1 * fromTril w k r.1.2) = 0) : w = 0 := by
  have key : ∀ j i, j ≤ i → fromTril w j i = 0 := by
    intro j
    induction j using WellFoundedLT.induction with
    | ind j ih =>
      have hcol : ∀ i, j ≤ i → S j j * fromTril w j i + S j i * fromTril w j j = 0 := by
        intro i hij
        have := h ⟨(i, j), hij⟩
        simp only at this
        rw [Finset.sum_eq_single j] at this
        · exact this
        · intro k _ hk
          rcases lt_or_gt_of_ne hk with hk | hk
          · rw [ih k hk i (hk.le.trans hij), ih k hk j hk.le]; ring
          · rw [hup k j hk, fromTril_lower w k j hk]; ring
        · intro hh; exact absurd (Finset.mem_univ j) hh
      have hjj : fromTril w j j = 0 := by
        have := hcol j le_rfl
        have h2 : S j j * fromTril w j j = 0 := by linarith
        exact (mul_eq_zero.1 h2).resolve_left (hd j)
      intro i hij
      have := hcol i hij
      rw [hjj, mul_zero, add_zero] at this
      exact (mul_eq_zero.1 this).resolve_left (hd j)
  funext r
  rw [← fromTril_apply w r, key _ _ r.2]
  rfl

theorem cholAL_det {S : Matrix ι ι ℝ} (hup : ∀ j i, i < j → S j i = 0) (hd : ∀ i, S i i ≠ 0) : (cholAL S).det ≠ 0 := by
  intro h
  obtain ⟨v, hv, hz⟩ := exists_mulVec_eq_zero_iff.2 h
  refine hv (cholAL_injective hup hd fun r => ?_)
  rw [← cholAL_mulVec]
  exact congrFun hz r

theorem IsChol.upper {Q S : Matrix ι ι ℝ} (h : IsChol Q Sᵀ) : ∀ j i, i < j → S j i = 0 := fun j i hij => h.lower i j hij

theorem IsChol.diag {Q S : Matrix ι ι ℝ} (h : IsChol Q Sᵀ) : ∀ i, S i i ≠ 0 := fun i => (h.pos i).ne'

theorem cholDiff_ok {p : Type} {Q S : Matrix ι ι ℝ} (h : IsChol Q Sᵀ) (dQ : p → Matrix ι ι ℝ) :
    cholDiff S dQ = .ok ⟨fun b => fromTril fun r => ∑ c, (cholAL S)⁻¹ r c * dQ b c.1.1 c.1.2, fun b r => dQ b r.1.1 r.1.2, (cholAL S)⁻¹⟩ := by
  unfold cholDiff npInvT
  rw [if_neg (cholAL_det h.upper h.diag)]
  rfl

/-- A solution of the linearised equation is the one computed. -/
theorem cholAL_solve {S : Matrix ι ι ℝ} (hdet : (cholAL S).det ≠ 0) {w u : Tril ι → ℝ}
    (h : ∀ r : Tril ι, ∑ k, (S k r.1.2 * fromTril w k r.1.1 + S k r.1.1 * fromTril w k r.1.2) = u r) (r : Tril ι) :
    w r = ∑ c, (cholAL S)⁻¹ r c * u c := by
  have hm : cholAL S *ᵥ w = u := by
    funext r
    rw [← h r, ← cholAL_mulVec]
    rfl
  have := congrArg (fun v => (cholAL S)⁻¹ *ᵥ v) hm
  simp only [mulVec_mulVec] at this
  rw [nonsing_inv_mul _ (isUnit_iff_ne_zero.2 hdet), one_mulVec] at this
  exact congrFun this r

theorem cholAL_solve' {S : Matrix ι ι ℝ} (hdet : (cholAL S).det ≠ 0) (u : Tril ι → ℝ) (r : Tril ι) :
    ∑ k, (S k r.1.2 * fromTril (fun r => ∑ c, (cholAL S)⁻¹ r c * u c) k r.1.1 +
      S k r.1.1 * fromTril (fun r => ∑ c, (cholAL S)⁻¹ r c * u c) k r.1.2) = u r := by
  rw [← cholAL_mulVec]
  have : cholAL S *ᵥ ((cholAL S)⁻¹ *ᵥ u) = u := by
    rw [mulVec_mulVec, mul_nonsing_inv _ (isUnit_iff_ne_zero.2 hdet), one_mulVec]
  exact congrFun this r

/-! ### The factor as a function of the lower triangle -/

/-- The products of columns of the upper triangular matrix with these entries. -/
def gram (v : Tril ι → ℝ) : Tril ι → ℝ := fun r => ∑ k, fromTril v k r.1.1 * fromTril v k r.1.2

theorem hasStrictFDerivAt_entry (k i : ι) (v : Tril ι → ℝ) : ∃ f' : (Tril ι → ℝ) →L[ℝ] ℝ,
    HasStrictFDerivAt (fun v : Tril ι → ℝ => fromTril v k i) f' v ∧ ∀ w, f' w = fromTril w k i := by
  by_cases h : k ≤ i
  · refine ⟨ContinuousLinearMap.proj (⟨(i, k), h⟩ : Tril ι), ?_, fun w => by simp [fromTril, h]⟩
    have : (fun v : Tril ι → ℝ => fromTril v k i) = fun v => v ⟨(i, k), h⟩ := by funext v; simp [fromTril, h]
    rw [this]
    exact (ContinuousLinearMap.proj (R := ℝ) (φ := fun _ : Tril ι => ℝ) (⟨(i, k), h⟩ : Tril ι)).hasStrictFDerivAt
  · refine ⟨0, ?_, fun w => by simp [fromTril, h]⟩
    have : (fun v : Tril ι → ℝ => fromTril v k i) = fun _ => 0 := by funext v; simp [fromTril, h]
    rw [this]
    exact hasStrictFDerivAt_const 0 v

theorem hasStrictFDerivAt_gram (v : Tril ι → ℝ) : ∃ f' : (Tril ι → ℝ) →L[ℝ] (Tril ι → ℝ),
    HasStrictFDerivAt gram f' v ∧ ∀ w r, f' w r = ∑ k, (fromTril v k r.1.2 * fromTril w k r.1.1 + fromTril v k r.1.1 * fromTril w k r.1.2) := by
  choose e he hev using fun k i => hasStrictFDerivAt_entry (ι := ι) k i v
  refine ⟨ContinuousLinearMap.pi fun r => ∑ k, (fromTril v k r.1.1 • e k r.1.2 + fromTril v k r.1.2 • e k r.1.1), ?_, fun w r => ?_⟩
  · refine hasStrictFDerivAt_pi.2 fun r => ?_
    exact HasStrictFDerivAt.fun_sum fun k _ => (he k r.1.1).mul (he k r.1.2)
  · simp only [ContinuousLinearMap.coe_pi', ContinuousLinearMap.sum_apply, ContinuousLinearMap.add_apply, ContinuousLinearMap.smul_apply,
      smul_eq_mul, hev]
    exact Finset.sum_congr rfl fun k _ => add_comm _ _

theorem isChol_fromTril {v : Tril ι → ℝ} (hpos : ∀ i, 0 < fromTril v i i) {Q : Matrix ι ι ℝ}
    (h : ∀ r : Tril ι, gram v r = Q r.1.1 r.1.2) : IsChol (lowerSym Q) (fromTril v)ᵀ := by
  refine ⟨fun i j hij => fromTril_lower v j i hij, hpos, ?_⟩
  ext i j
  rw [transpose_transpose, mul_apply]
  simp only [transpose_apply, lowerSym, of_apply]
  split
  · rename_i hij
    exact h ⟨(i, j), hij⟩
  · rename_i hij
    rw [← h ⟨(j, i), (not_le.1 hij).le⟩]
    exact Finset.sum_congr rfl fun k _ => mul_comm _ _

theorem gram_of_isChol {Q S : Matrix ι ι ℝ} (h : IsChol (lowerSym Q) Sᵀ) (r : Tril ι) :
    gram (fun r => S r.1.2 r.1.1) r = Q r.1.1 r.1.2 := by
  have e := congrFun (congrFun h.eq r.1.1) r.1.2
  rw [transpose_transpose, mul_apply] at e
  simp only [transpose_apply, lowerSym, of_apply] at e
  rw [if_pos r.2] at e
  unfold gram
  rw [fromTril_of_upper h.upper]
  exact e

theorem cholU_of_isChol {Q S : Matrix ι ι ℝ} (h : IsChol (lowerSym Q) Sᵀ) : cholU Q = .ok S := by
  have e : npCholesky Q = .ok Sᵀ := (npCholesky_ok_iff Q _).2 h
  rw [cholU, e]
  show Except.ok Sᵀᵀ = _
  rw [transpose_transpose]

/-- Near a factor there is a differentiable choice of factors. -/
theorem chol_local {Q₀ S₀ : Matrix ι ι ℝ} (h : IsChol (lowerSym Q₀) S₀ᵀ) :
    ∃ g : (Tril ι → ℝ) → Tril ι → ℝ, DifferentiableAt ℝ g (fun r => Q₀ r.1.1 r.1.2) ∧
      (∀ᶠ u in 𝓝 (fun r : Tril ι => Q₀ r.1.1 r.1.2), ∀ Q : Matrix ι ι ℝ, (∀ r : Tril ι, Q r.1.1 r.1.2 = u r) →
        IsChol (lowerSym Q) (fromTril (g u))ᵀ) := by
  let v₀ : Tril ι → ℝ := fun r => S₀ r.1.2 r.1.1
  have hv₀ : fromTril v₀ = S₀ := fromTril_of_upper h.upper
  obtain ⟨f', hf, hf'⟩ := hasStrictFDerivAt_gram v₀
  have hinj : Function.Injective f' := by
    refine (injective_iff_map_eq_zero f').2 fun w hw => cholAL_injective h.upper h.diag fun r => ?_
    have := hf' w r
    rw [hw, hv₀] at this
    exact this.symm
  let e : (Tril ι → ℝ) ≃L[ℝ] (Tril ι → ℝ) := (LinearEquiv.ofInjectiveEndo (f' : (Tril ι → ℝ) →ₗ[ℝ] (Tril ι → ℝ)) hinj).toContinuousLinearEquiv
  have he : (e : (Tril ι → ℝ) →L[ℝ] (Tril ι → ℝ)) = f' := by
    ext w : 1
    rfl
  rw [← he] at hf
  have hQ : gram v₀ = fun r => Q₀ r.1.1 r.1.2 := funext fun r => gram_of_isChol h r
  refine ⟨hf.localInverse, ?_, ?_⟩
  · rw [← hQ]
    exact hf.to_localInverse.hasFDerivAt.differentiableAt
  · rw [← hQ]
    have h1 := hf.eventually_right_inverse
    have hc := hf.localInverse_continuousAt
    have hpos : ∀ᶠ v in 𝓝 v₀, ∀ i, 0 < fromTril v i i := by
      refine eventually_all.2 fun i => ?_
      have hci : Continuous fun v : Tril ι → ℝ => fromTril v i i := by
        have : (fun v : Tril ι → ℝ => fromTril v i i) = fun v => v ⟨(i, i), le_rfl⟩ := by funext v; simp [fromTril]
        rw [this]
        exact continuous_apply _
      refine (hci.continuousAt (x := v₀)).eventually (lt_mem_nhds ?_)
      have := h.pos i
      rwa [← hv₀] at this
    have h2 := hc.eventually (by rw [hf.localInverse_apply_image]; exact hpos)
    filter_upwards [h1, h2] with u hu hp Q hQu
    exact isChol_fromTril hp fun r => by rw [hu, hQu]

/-! ### Gradients -/

variable {p : Type} [Fintype p] {Q : (p → ℝ) → Matrix ι ι ℝ} {S : (p → ℝ) → Matrix ι ι ℝ} {q₀ : p → ℝ}

theorem lower_continuousAt {dQ : p → Matrix ι ι ℝ} (hQ : ∀ r : Tril ι, HasGrad (fun q => Q q r.1.1 r.1.2) (fun a => dQ a r.1.1 r.1.2) q₀) :
    DifferentiableAt ℝ (fun q => fun r : Tril ι => Q q r.1.1 r.1.2) q₀ :=
  differentiableAt_pi.2 fun r => (hQ r).differentiableAt

/-- A factorisation that succeeds does so nearby. -/
theorem cholU_eventually {dQ : p → Matrix ι ι ℝ} (hQ : ∀ r : Tril ι, HasGrad (fun q => Q q r.1.1 r.1.2) (fun a => dQ a r.1.1 r.1.2) q₀)
    {S₀ : Matrix ι ι ℝ} (h : cholU (Q q₀) = .ok S₀) : ∀ᶠ q in 𝓝 q₀, ∃ S, cholU (Q q) = .ok S := by
  obtain ⟨g, -, hg⟩ := chol_local (cholU_isChol h)
  filter_upwards [(lower_continuousAt hQ).continuousAt.eventually hg] with q hq
  exact ⟨_, cholU_of_isChol (hq (Q q) fun _ => rfl)⟩

/-- The gradient of the factor. -/
theorem chol_grad {dQ : p → Matrix ι ι ℝ} (hQ : ∀ r : Tril ι, HasGrad (fun q => Q q r.1.1 r.1.2) (fun a => dQ a r.1.1 r.1.2) q₀)
    (hS : ∀ᶠ q in 𝓝 q₀, cholU (Q q) = .ok (S q)) {c : CholDiff ι p} (hc : cholDiff (S q₀) dQ = .ok c) (i j : ι) :
    HasGrad (fun q => S q i j) (fun a => c.dS a i j) q₀ := by
  have h0 := cholU_isChol hS.self_of_nhds
  obtain ⟨g, hgd, hg⟩ := chol_local h0
  have hSg : ∀ᶠ q in 𝓝 q₀, S q = fromTril (g fun r => Q q r.1.1 r.1.2) := by
    filter_upwards [(lower_continuousAt hQ).continuousAt.eventually hg, hS] with q hq hSq
    have := cholU_of_isChol (hq (Q q) fun _ => rfl)
    rw [hSq] at this
    exact Except.ok.inj this
  have hup : ∀ᶠ q in 𝓝 q₀, ∀ j i, i < j → S q j i = 0 := by
    filter_upwards [hS] with q hq
    exact (cholU_isChol hq).upper
  -- the entries are differentiable
  have hd : ∀ r : Tril ι, ∃ d, HasGrad (fun q => S q r.1.2 r.1.1) d q₀ := by
    intro r
    have hcomp : DifferentiableAt ℝ (fun q => g (fun r => Q q r.1.1 r.1.2)) q₀ := DifferentiableAt.comp q₀ hgd (lower_continuousAt hQ)
    obtain ⟨d, hd⟩ := HasGrad.of_differentiableAt (differentiableAt_pi.1 hcomp r)
    refine ⟨d, hd.congr ?_⟩
    filter_upwards [hSg] with q hq
    rw [hq, fromTril_apply]
  choose d hd using hd
  have hent : ∀ k i, HasGrad (fun q => S q k i) (fun a => fromTril (fun r => d r a) k i) q₀ := by
    intro k i
    by_cases hk : k ≤ i
    · refine (hd ⟨(i, k), hk⟩).congr_grad fun a => ?_
      simp [fromTril, hk]
    · have hz : ∀ a, fromTril (fun r => d r a) k i = 0 := fun a => fromTril_lower _ _ _ (not_le.1 hk)
      refine (HasGrad.congr_grad ((hasGrad_const 0).congr ?_) hz)
      filter_upwards [hup] with q hq
      exact hq k i (not_le.1 hk)
  -- differentiate the equation
  have heq : ∀ (r : Tril ι) a, ∑ k, (S q₀ k r.1.2 * fromTril (fun r => d r a) k r.1.1 + S q₀ k r.1.1 * fromTril (fun r => d r a) k r.1.2) =
      dQ a r.1.1 r.1.2 := by
    intro r a
    have h1 := hasGrad_sum Finset.univ fun k _ => (hent k r.1.1).mul (hent k r.1.2)
    have h2 : HasGrad (fun q => ∑ k, S q k r.1.1 * S q k r.1.2) (fun a => dQ a r.1.1 r.1.2) q₀ := by
      refine (hQ r).congr ?_
      filter_upwards [hS] with q hq
      have hq := cholU_isChol hq
      have := gram_of_isChol hq r
      unfold gram at this
      rwa [fromTril_of_upper hq.upper] at this
    rw [← congrFun (h1.unique h2) a]
    exact Finset.sum_congr rfl fun k _ => by ring
  rw [cholDiff_ok h0] at hc
  cases hc
  refine (hent i j).congr_grad fun a => ?_
  have e : (fun r => d r a) = fun r => ∑ c, (cholAL (S q₀))⁻¹ r c * dQ a c.1.1 c.1.2 :=
    funext fun r => cholAL_solve (cholAL_det h0.upper h0.diag) (heq · a) r
  rw [e]

omit [Fintype ι] in
theorem cholAL_grad {dS : p → Matrix ι ι ℝ} (hS : ∀ i j, HasGrad (fun q => S q i j) (fun a => dS a i j) q₀) (r c : Tril ι) :
    HasGrad (fun q => cholAL (S q) r c) (fun a => cholAL (dS a) r c) q₀ := by
  simp only [cholAL, of_apply, cholA]
  refine HasGrad.add ?_ ?_
  · split
    · exact hS _ _
    · exact hasGrad_const 0
  · split
    · exact hS _ _
    · exact hasGrad_const 0

/-- The second derivatives of the factor. -/
theorem chol_grad2 {dQ : (p → ℝ) → p → Matrix ι ι ℝ} {d2Q : p → p → Matrix ι ι ℝ}
    (hQ : ∀ r : Tril ι, HasGrad (fun q => Q q r.1.1 r.1.2) (fun a => dQ q₀ a r.1.1 r.1.2) q₀)
    (hdQ : ∀ b, ∀ r : Tril ι, HasGrad (fun q => dQ q b r.1.1 r.1.2) (fun a => d2Q a b r.1.1 r.1.2) q₀)
    (hS : ∀ᶠ q in 𝓝 q₀, cholU (Q q) = .ok (S q)) {c : (p → ℝ) → CholDiff ι p} (hc : ∀ᶠ q in 𝓝 q₀, cholDiff (S q) (dQ q) = .ok (c q))
    (b : p) (i j : ι) : HasGrad (fun q => (c q).dS b i j) (fun a => cholDiff2 (c q₀) d2Q a b i j) q₀ := by
  have h0 := cholU_isChol hS.self_of_nhds
  have hS' := chol_grad hQ hS hc.self_of_nhds
  have hAL := cholAL_grad hS'
  have hinv := hasGrad_inv (M := fun q => cholAL (S q)) (dM := fun a => cholAL ((c q₀).dS a)) hAL (cholAL_det h0.upper h0.diag)
  have hceq : ∀ᶠ q in 𝓝 q₀, c q = ⟨fun b => fromTril fun r => ∑ c, (cholAL (S q))⁻¹ r c * dQ q b c.1.1 c.1.2,
      fun b r => dQ q b r.1.1 r.1.2, (cholAL (S q))⁻¹⟩ := by
    filter_upwards [hS, hc] with q h1 h2
    rw [cholDiff_ok (cholU_isChol h1)] at h2
    exact (Except.ok.inj h2).symm
  have hc0 := hceq.self_of_nhds
  have hF : HasGrad (fun q => fromTril (fun r => ∑ c, (cholAL (S q))⁻¹ r c * dQ q b c.1.1 c.1.2) i j)
      (fun a => cholDiff2 (c q₀) d2Q a b i j) q₀ := by
    by_cases hij : i ≤ j
    · have e : ∀ v : Tril ι → ℝ, fromTril v i j = v ⟨(j, i), hij⟩ := fun v => by simp [fromTril, hij]
      simp only [cholDiff2, e]
      have h1 := hasGrad_sum Finset.univ fun c _ => (hinv ⟨(j, i), hij⟩ c).mul (hdQ b c)
      refine h1.congr_grad fun a => ?_
      rw [← Finset.sum_add_distrib]
      refine Finset.sum_congr rfl fun l _ => ?_
      simp only [of_apply]
      congr 1
      · rw [hc0]
      · congr 1
        · congr 1
          rw [mul_apply, Finset.sum_comm]
          refine Finset.sum_congr rfl fun k _ => ?_
          rw [mul_apply, Finset.sum_mul]
          exact Finset.sum_congr rfl fun m _ => by rw [hc0]
        · rw [hc0]
    · simp only [cholDiff2, fromTril_lower _ i j (not_le.1 hij)]
      exact hasGrad_const 0
  refine hF.congr ?_
  filter_upwards [hceq] with q hq
  rw [hq]

end Ceacoest
