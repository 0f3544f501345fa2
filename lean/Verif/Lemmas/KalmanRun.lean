import Verif.Lemmas.KalmanGrad2
import Verif.Spec.KalmanGrad
import Mathlib.Analysis.Calculus.FDeriv.Symmetric

/-! # The derivative passes of the unscented filter on smooth families -/

namespace Ceacoest
open Matrix Spec Filter Topology

namespace Spec
variable {p : Type} [Fintype p]

/-- Hessians are symmetric. -/
theorem HasHess.symm {F : (p → ℝ) → ℝ} {g : (p → ℝ) → p → ℝ} {h : p → p → ℝ} {q₀ : p → ℝ} (H : HasHess F g h q₀) (a b : p) : h a b = h b a := by
  classical
  let L : (p → ℝ) →L[ℝ] ((p → ℝ) →L[ℝ] ℝ) := ∑ b, (lin fun a => h a b).smulRight (ContinuousLinearMap.proj (R := ℝ) (φ := fun _ : p => ℝ) b)
  have hL : HasFDerivAt (fun q => lin (g q)) L q₀ := by
    unfold lin
    refine HasFDerivAt.fun_sum fun b _ => ?_
    have h1 : HasFDerivAt (fun q => g q b) (lin fun a => h a b) q₀ := H.2 b
    exact h1.smul_const (ContinuousLinearMap.proj (R := ℝ) (φ := fun _ : p => ℝ) b)
  have := second_derivative_symmetric_of_eventually (f := F) (f' := fun q => lin (g q)) (f'' := L) (x := q₀) H.1 hL (Pi.single a 1) (Pi.single b 1)
  have e : ∀ a b : p, L (Pi.single a 1) (Pi.single b 1) = h a b := by
    intro a b
    simp only [L, ContinuousLinearMap.sum_apply, ContinuousLinearMap.smulRight_apply, lin_apply, ContinuousLinearMap.smul_apply,
      ContinuousLinearMap.proj_apply, smul_eq_mul, Pi.single_apply, mul_ite, mul_one, mul_zero, Finset.sum_ite_eq', Finset.mem_univ, if_true,
      Finset.sum_ite_eq]
  rwa [e, e] at this

/-- The partial derivatives with respect to the vector. -/
theorem HasGrad₂.right {n : Type} [Fintype n] {F : (p → ℝ) → (n → ℝ) → ℝ} {gq : p → ℝ} {gx : n → ℝ} {q : p → ℝ} {x : n → ℝ}
    (h : HasGrad₂ F gq gx q x) : HasGrad (F q) gx x := by
  have h2 := HasFDerivAt.comp x (f := fun x => (q, x)) (g := fun z : (p → ℝ) × (n → ℝ) => F z.1 z.2) h
    ((hasFDerivAt_const q x).prodMk (hasFDerivAt_id x))
  have : lin gx = ((lin gq).coprod (lin gx)).comp ((0 : (n → ℝ) →L[ℝ] (p → ℝ)).prod (ContinuousLinearMap.id ℝ (n → ℝ))) := by
    ext v
    simp
  unfold HasGrad
  rw [this]
  exact h2

end Spec

variable {nx : Nat} {o p : Type} [Fintype o] [LinearOrder o]
variable {put cut : UT nx}

/-! ### What the passes have in common -/

section
variable {M : KModel nx o p}

theorem meritA_masked {y : MaskedRow o} (hy : ∀ j, y.mask j = true) (A : FilterAttrs nx p) : meritA cut M y A = .ok A := by
  unfold meritA; rw [if_pos hy]

theorem gradA_masked {y : MaskedRow o} (hy : ∀ j, y.mask j = true) (A : FilterAttrs nx p) : gradA cut M y A = .ok A := by
  unfold gradA; rw [if_pos hy]

theorem hessA_masked {y : MaskedRow o} (hy : ∀ j, y.mask j = true) (A : FilterAttrs nx p) : hessA cut M y A = .ok A := by
  unfold hessA; rw [if_pos hy]

section
variable {y : MaskedRow o} {A : FilterAttrs nx p} {r : Moments nx × UCorr nx cut.nsigma p y.Active}
  {c : UCorrDiff nx cut.nsigma y.Active p × (p → Fin nx → ℝ) × (p → Matrix (Fin nx) (Fin nx) ℝ)} {ch : CholDiff y.Active p}

theorem meritA_of (hy : ¬∀ j, y.mask j = true) (hr : coreY cut M y A = .ok r) : meritA cut M y A =
    .ok { A with x := r.1.1, Px := r.1.2, L := A.L - 0.5 * (∑ i, ∑ j, r.2.e i * r.2.PyI i j * r.2.e j) - ∑ k, Real.log (r.2.PyC k k) } := by
  unfold meritA; rw [if_neg hy, hr, py_bind_ok]

theorem gradA_of (hy : ¬∀ j, y.mask j = true) (hr : coreY cut M y A = .ok r) (hc : coreDiffY cut M y A r.2 = .ok c)
    (hch : cholDiff r.2.PyC c.1.dPy_dq = .ok ch) : gradA cut M y A = .ok { A with
      x := r.1.1, Px := r.1.2, L := A.L - 0.5 * (∑ i, ∑ j, r.2.e i * r.2.PyI i j * r.2.e j) - ∑ k, Real.log (r.2.PyC k k),
      dx_dq := c.2.1, dPx_dq := c.2.2, dL_dq := dlike r.2 c.1 ch A.dL_dq } := by
  unfold gradA; rw [if_neg hy, hr, py_bind_ok, hc, py_bind_ok, hch, py_bind_ok]

theorem hessA_of (hy : ¬∀ j, y.mask j = true) (hr : coreY cut M y A = .ok r) (hc : coreDiffY cut M y A r.2 = .ok c)
    (hch : cholDiff r.2.PyC c.1.dPy_dq = .ok ch) : hessA cut M y A = .ok
      ⟨r.1.1, r.1.2, A.k, A.L - 0.5 * (∑ i, ∑ j, r.2.e i * r.2.PyI i j * r.2.e j) - ∑ k, Real.log (r.2.PyC k k),
        dlike r.2 c.1 ch A.dL_dq, d2like r.2 c.1 (coreDiff2Y cut M y A r.2 c.1).1 ch A.d2L_dq2, c.2.1, c.2.2,
        (coreDiff2Y cut M y A r.2 c.1).2.1, (coreDiff2Y cut M y A r.2 c.1).2.2⟩ := by
  unfold hessA; rw [if_neg hy, hr, py_bind_ok, hc, py_bind_ok, hch, py_bind_ok]
end

section
variable {A : FilterAttrs nx p} {d : UTData put.nsigma (Fin nx) (Fin nx)} {dd : UTDiff put.nsigma (Fin nx) (Fin nx) p}

theorem meritP_of (hd : put.transform A.x A.Px (M.f A.k) = .ok d) : meritP put M A =
    .ok { A with k := A.k + 1, x := d.mean, Px := d.Po + M.Q A.k A.x } := by unfold meritP; rw [hd, py_bind_ok]

theorem gradP_of (hd : put.transform A.x A.Px (M.f A.k) = .ok d) (hdd : put.transformDiff d (M.df_dq A.k) (M.df_dx A.k) A.dx_dq A.dPx_dq = .ok dd) :
    gradP put M A = .ok { A with
      k := A.k + 1, x := d.mean, Px := d.Po + M.Q A.k A.x, dx_dq := dd.do_dq, dPx_dq := fun b => dd.dPo_dq b + totalQ M A b } := by
  unfold gradP; rw [hd, py_bind_ok, hdd, py_bind_ok]

theorem hessP_of (hd : put.transform A.x A.Px (M.f A.k) = .ok d) (hdd : put.transformDiff d (M.df_dq A.k) (M.df_dx A.k) A.dx_dq A.dPx_dq = .ok dd) :
    hessP put M A = .ok { A with
      k := A.k + 1, x := d.mean, Px := d.Po + M.Q A.k A.x, dx_dq := dd.do_dq, dPx_dq := fun b => dd.dPo_dq b + totalQ M A b,
      d2x_dq2 := (put.transformDiff2 d dd (M.d2f_dq2 A.k) (M.d2f_dx2 A.k) (M.d2f_dx_dq A.k) A.d2x_dq2 A.d2Px_dq2).d2o_dq2,
      d2Px_dq2 := fun b b' => (put.transformDiff2 d dd (M.d2f_dq2 A.k) (M.d2f_dx2 A.k) (M.d2f_dx_dq A.k) A.d2x_dq2 A.d2Px_dq2).d2Po_dq2 b b' +
        totalQ2 M A b b' } := by
  unfold hessP; rw [hd, py_bind_ok, hdd, py_bind_ok]
end

theorem gradA_cases {y : MaskedRow o} {A B : FilterAttrs nx p} (h : gradA cut M y A = .ok B) :
    ((∀ j, y.mask j = true) ∧ B = A) ∨ ((¬∀ j, y.mask j = true) ∧ ∃ r c ch, coreY cut M y A = .ok r ∧ coreDiffY cut M y A r.2 = .ok c ∧
      cholDiff r.2.PyC c.1.dPy_dq = .ok ch ∧ B = { A with
        x := r.1.1, Px := r.1.2, L := A.L - 0.5 * (∑ i, ∑ j, r.2.e i * r.2.PyI i j * r.2.e j) - ∑ k, Real.log (r.2.PyC k k),
        dx_dq := c.2.1, dPx_dq := c.2.2, dL_dq := dlike r.2 c.1 ch A.dL_dq }) := by
  unfold gradA at h
  split at h
  case isTrue hy => cases h; exact .inl ⟨hy, rfl⟩
  case isFalse hy =>
    obtain ⟨r, hr, h⟩ := py_bind_eq_ok h
    obtain ⟨c, hc, h⟩ := py_bind_eq_ok h
    obtain ⟨ch, hch, h⟩ := py_bind_eq_ok h
    cases h
    exact .inr ⟨hy, r, c, ch, hr, hc, hch, rfl⟩

theorem hessA_cases {y : MaskedRow o} {A B : FilterAttrs nx p} (h : hessA cut M y A = .ok B) :
    ((∀ j, y.mask j = true) ∧ B = A) ∨ ((¬∀ j, y.mask j = true) ∧ ∃ r c ch, coreY cut M y A = .ok r ∧ coreDiffY cut M y A r.2 = .ok c ∧
      cholDiff r.2.PyC c.1.dPy_dq = .ok ch ∧
      B = ⟨r.1.1, r.1.2, A.k, A.L - 0.5 * (∑ i, ∑ j, r.2.e i * r.2.PyI i j * r.2.e j) - ∑ k, Real.log (r.2.PyC k k),
        dlike r.2 c.1 ch A.dL_dq, d2like r.2 c.1 (coreDiff2Y cut M y A r.2 c.1).1 ch A.d2L_dq2, c.2.1, c.2.2,
        (coreDiff2Y cut M y A r.2 c.1).2.1, (coreDiff2Y cut M y A r.2 c.1).2.2⟩) := by
  unfold hessA at h
  split at h
  case isTrue hy => cases h; exact .inl ⟨hy, rfl⟩
  case isFalse hy =>
    obtain ⟨r, hr, h⟩ := py_bind_eq_ok h
    obtain ⟨c, hc, h⟩ := py_bind_eq_ok h
    obtain ⟨ch, hch, h⟩ := py_bind_eq_ok h
    cases h
    exact .inr ⟨hy, r, c, ch, hr, hc, hch, rfl⟩

theorem meritA_cases {y : MaskedRow o} {A B : FilterAttrs nx p} (h : meritA cut M y A = .ok B) :
    ((∀ j, y.mask j = true) ∧ B = A) ∨ ((¬∀ j, y.mask j = true) ∧ ∃ r, coreY cut M y A = .ok r ∧
      B = { A with x := r.1.1, Px := r.1.2, L := A.L - 0.5 * (∑ i, ∑ j, r.2.e i * r.2.PyI i j * r.2.e j) - ∑ k, Real.log (r.2.PyC k k) }) := by
  unfold meritA at h
  split at h
  case isTrue hy => cases h; exact .inl ⟨hy, rfl⟩
  case isFalse hy =>
    obtain ⟨r, hr, h⟩ := py_bind_eq_ok h
    cases h
    exact .inr ⟨hy, r, hr, rfl⟩

section
variable [Fintype p]

/-- After a correction with Cholesky factors, the derivatives do not raise. -/
theorem diff_of_core (hk : cut.kind = .cholesky) {y : MaskedRow o} {A : FilterAttrs nx p} {r : Moments nx × UCorr nx cut.nsigma p y.Active}
    (h : coreY cut M y A = .ok r) : ∃ c ch, coreDiffY cut M y A r.2 = .ok c ∧ cholDiff r.2.PyC c.1.dPy_dq = .ok ch := by
  obtain ⟨m, d⟩ := r
  obtain ⟨ht, -, hC⟩ := core_transform h
  obtain ⟨c, dx, dP, hc⟩ := coreDiff_of hk ht (fun x a j => M.dh_dq A.k x a j.1) (fun x i j => M.dh_dx A.k x i j.1)
    (fun a => activeR y (M.dR_dq a)) A.dx_dq A.dPx_dq
  exact ⟨(c, dx, dP), _, hc, cholDiff_ok (cholU_isChol hC) _⟩

theorem merit_grad (hk : cut.kind = .cholesky) (y : MaskedRow o) (A A' B : FilterAttrs nx p) (hAB : A.zeroth = B.zeroth)
    (h : meritA cut M y A = .ok A') : ∃ B', gradA cut M y B = .ok B' ∧ A'.zeroth = B'.zeroth := by
  obtain ⟨x, P, k, L, dL, d2L, dx, dP, d2x, d2P⟩ := A
  obtain ⟨x', P', k', L', dL', d2L', dx', dP', d2x', d2P'⟩ := B
  cases hAB
  rcases meritA_cases h with ⟨hy, rfl⟩ | ⟨hy, r, hr, rfl⟩
  · refine ⟨_, gradA_masked hy _, rfl⟩
  · have hr : coreY cut M y ⟨x, P, k, L, dL', d2L', dx', dP', d2x', d2P'⟩ = .ok r := hr
    obtain ⟨c, ch, hc, hch⟩ := diff_of_core hk hr
    refine ⟨_, gradA_of hy hr hc hch, rfl⟩

theorem merit_gradP (hk : put.kind = .cholesky) (A A' B : FilterAttrs nx p) (hAB : A.zeroth = B.zeroth)
    (h : meritP put M A = .ok A') : ∃ B', gradP put M B = .ok B' ∧ A'.zeroth = B'.zeroth := by
  obtain ⟨x, P, k, L, dL, d2L, dx, dP, d2x, d2P⟩ := A
  obtain ⟨x', P', k', L', dL', d2L', dx', dP', d2x', d2P'⟩ := B
  cases hAB
  obtain ⟨d, hd, h⟩ := py_bind_eq_ok h
  cases h
  obtain ⟨dd, hdd⟩ := diff_ok hk hd (M.df_dq k) (M.df_dx k) dx' dP'
  have hd : put.transform (FilterAttrs.mk x P k L dL' d2L' dx' dP' d2x' d2P').x P (M.f k) = .ok d := hd
  exact ⟨_, gradP_of hd hdd, rfl⟩
end

theorem grad_merit (y : MaskedRow o) (A A' B : FilterAttrs nx p) (hAB : A.zeroth = B.zeroth)
    (h : gradA cut M y A = .ok A') : ∃ B', meritA cut M y B = .ok B' ∧ A'.zeroth = B'.zeroth := by
  obtain ⟨x, P, k, L, dL, d2L, dx, dP, d2x, d2P⟩ := A
  obtain ⟨x', P', k', L', dL', d2L', dx', dP', d2x', d2P'⟩ := B
  cases hAB
  rcases gradA_cases h with ⟨hy, rfl⟩ | ⟨hy, r, c, ch, hr, hc, hch, rfl⟩
  · refine ⟨_, meritA_masked hy _, rfl⟩
  · have hr : coreY cut M y ⟨x, P, k, L, dL', d2L', dx', dP', d2x', d2P'⟩ = .ok r := hr
    refine ⟨_, meritA_of hy hr, rfl⟩

theorem grad_meritP (A A' B : FilterAttrs nx p) (hAB : A.zeroth = B.zeroth)
    (h : gradP put M A = .ok A') : ∃ B', meritP put M B = .ok B' ∧ A'.zeroth = B'.zeroth := by
  obtain ⟨x, P, k, L, dL, d2L, dx, dP, d2x, d2P⟩ := A
  obtain ⟨x', P', k', L', dL', d2L', dx', dP', d2x', d2P'⟩ := B
  cases hAB
  obtain ⟨d, hd, h⟩ := py_bind_eq_ok h
  obtain ⟨dd, hdd, h⟩ := py_bind_eq_ok h
  cases h
  exact ⟨_, meritP_of hd, rfl⟩

theorem grad_hess (y : MaskedRow o) (A A' B : FilterAttrs nx p) (hAB : A.first = B.first)
    (h : gradA cut M y A = .ok A') : ∃ B', hessA cut M y B = .ok B' ∧ A'.first = B'.first := by
  obtain ⟨x, P, k, L, dL, d2L, dx, dP, d2x, d2P⟩ := A
  obtain ⟨x', P', k', L', dL', d2L', dx', dP', d2x', d2P'⟩ := B
  cases hAB
  rcases gradA_cases h with ⟨hy, rfl⟩ | ⟨hy, r, c, ch, hr, hc, hch, rfl⟩
  · refine ⟨_, hessA_masked hy _, rfl⟩
  · have hr : coreY cut M y ⟨x, P, k, L, dL, d2L', dx, dP, d2x', d2P'⟩ = .ok r := hr
    have hc : coreDiffY cut M y ⟨x, P, k, L, dL, d2L', dx, dP, d2x', d2P'⟩ r.2 = .ok c := hc
    refine ⟨_, hessA_of hy hr hc hch, rfl⟩

theorem grad_hessP (A A' B : FilterAttrs nx p) (hAB : A.first = B.first)
    (h : gradP put M A = .ok A') : ∃ B', hessP put M B = .ok B' ∧ A'.first = B'.first := by
  obtain ⟨x, P, k, L, dL, d2L, dx, dP, d2x, d2P⟩ := A
  obtain ⟨x', P', k', L', dL', d2L', dx', dP', d2x', d2P'⟩ := B
  cases hAB
  obtain ⟨d, hd, h⟩ := py_bind_eq_ok h
  obtain ⟨dd, hdd, h⟩ := py_bind_eq_ok h
  cases h
  exact ⟨_, hessP_of hd hdd, rfl⟩

theorem hess_grad (y : MaskedRow o) (A A' B : FilterAttrs nx p) (hAB : A.first = B.first)
    (h : hessA cut M y A = .ok A') : ∃ B', gradA cut M y B = .ok B' ∧ A'.first = B'.first := by
  obtain ⟨x, P, k, L, dL, d2L, dx, dP, d2x, d2P⟩ := A
  obtain ⟨x', P', k', L', dL', d2L', dx', dP', d2x', d2P'⟩ := B
  cases hAB
  rcases hessA_cases h with ⟨hy, rfl⟩ | ⟨hy, r, c, ch, hr, hc, hch, rfl⟩
  · refine ⟨_, gradA_masked hy _, rfl⟩
  · have hr : coreY cut M y ⟨x, P, k, L, dL, d2L', dx, dP, d2x', d2P'⟩ = .ok r := hr
    have hc : coreDiffY cut M y ⟨x, P, k, L, dL, d2L', dx, dP, d2x', d2P'⟩ r.2 = .ok c := hc
    refine ⟨_, gradA_of hy hr hc hch, rfl⟩

theorem hess_gradP (A A' B : FilterAttrs nx p) (hAB : A.first = B.first)
    (h : hessP put M A = .ok A') : ∃ B', gradP put M B = .ok B' ∧ A'.first = B'.first := by
  obtain ⟨x, P, k, L, dL, d2L, dx, dP, d2x, d2P⟩ := A
  obtain ⟨x', P', k', L', dL', d2L', dx', dP', d2x', d2P'⟩ := B
  cases hAB
  obtain ⟨d, hd, h⟩ := py_bind_eq_ok h
  obtain ⟨dd, hdd, h⟩ := py_bind_eq_ok h
  cases h
  exact ⟨_, gradP_of hd hdd, rfl⟩

end

/-! ### First derivatives -/

section
variable [Fintype p] {M : (p → ℝ) → KModel nx o p} {A B : (p → ℝ) → FilterAttrs nx p} {q₀ : p → ℝ} {y : MaskedRow o}

theorem SmoothAttrs.of_first (h : SmoothAttrs A q₀) (e : ∀ᶠ q in 𝓝 q₀, (A q).first = (B q).first) : SmoothAttrs B q₀ := by
  have e0 := e.self_of_nhds
  simp only [FilterAttrs.first, Prod.mk.injEq] at e e0
  obtain ⟨e1, -, -, -, e2, e3, e4⟩ := e0
  refine ⟨?_, fun i => ?_, fun i j => ?_, ?_⟩
  · filter_upwards [h.k, e] with q h1 h2
    rw [← h2.1, h1, e1]
  · rw [← e2]
    exact (h.x i).congr (e.mono fun q h => (congrFun h.2.1 i).symm)
  · rw [← e3]
    exact (h.Px i j).congr (e.mono fun q h => (congrFun (congrFun h.2.2.1 i) j).symm)
  · rw [← e4]
    exact h.L.congr (e.mono fun q h => h.2.2.2.1.symm)

theorem activeR_symm' {R : (p → ℝ) → Matrix o o ℝ} (h : ∀ᶠ q in 𝓝 q₀, (R q)ᵀ = R q) : ∀ᶠ q in 𝓝 q₀, (activeR y (R q))ᵀ = activeR y (R q) :=
  h.mono fun _ h => activeR_symm y h

theorem coreY_const (hA : ∀ᶠ q in 𝓝 q₀, (A q).k = (A q₀).k) : ∀ᶠ q in 𝓝 q₀, coreY cut (M q) y (A q) =
    UKF.core cut (A q).x (A q).Px (fun j : y.Active => y.data j.1) (fun x j => (M q).h (A q₀).k x j.1) (activeR y (M q).R) := by
  filter_upwards [hA] with q h
  unfold coreY
  rw [h]

theorem gradA_eventually (hk : cut.kind = .cholesky) (hM : SmoothModel M q₀) (hA : SmoothAttrs A q₀) {B₀ : FilterAttrs nx p}
    (h : gradA cut (M q₀) y (A q₀) = .ok B₀) : ∀ᶠ q in 𝓝 q₀, ∃ B, gradA cut (M q) y (A q) = .ok B := by
  rcases gradA_cases h with ⟨hy, -⟩ | ⟨hy, r, c, ch, hr, -, -, -⟩
  · exact Eventually.of_forall fun q => ⟨_, gradA_masked hy _⟩
  · have hcore := core_eventually (x := fun q => (A q).x) (P := fun q => (A q).Px) (y := fun j : y.Active => y.data j.1)
      (h := fun q x (j : y.Active) => (M q).h (A q₀).k x j.1) (R := fun q => activeR y (M q).R) hk hA.x hA.Px
      (fun x j => hM.h (A q₀).k x j.1) (dR := fun a => activeR y ((M q₀).dR_dq a)) (fun i j => hM.R i.1 j.1) hr
    filter_upwards [hcore, coreY_const (cut := cut) (M := M) (y := y) hA.k] with q h1 h2
    obtain ⟨r, hr⟩ := h1
    have hr := h2.trans hr
    obtain ⟨c, ch, hc, hch⟩ := diff_of_core hk hr
    exact ⟨_, gradA_of hy hr hc hch⟩

theorem gradA_smooth (hM : SmoothModel M q₀) (hA : SmoothAttrs A q₀)
    (h : ∀ᶠ q in 𝓝 q₀, gradA cut (M q) y (A q) = .ok (B q)) : SmoothAttrs B q₀ := by
  by_cases hy : ∀ j, y.mask j = true
  · refine hA.of_first (h.mono fun q h => ?_)
    rw [gradA_masked hy] at h
    rw [Except.ok.inj h]
  · have hr : ∀ᶠ q in 𝓝 q₀, ∃ r, coreY cut (M q) y (A q) = .ok r := by
      filter_upwards [h] with q h
      rcases gradA_cases h with ⟨hy', -⟩ | ⟨-, r, c, ch, hr, -⟩
      · exact absurd hy' hy
      · exact ⟨r, hr⟩
    obtain ⟨r, hr⟩ := choose_ok hr
    have hB : ∀ᶠ q in 𝓝 q₀, ∃ c ch, coreDiffY cut (M q) y (A q) (r q).2 = .ok c ∧ cholDiff (r q).2.PyC c.1.dPy_dq = .ok ch ∧ B q = { A q with
        x := (r q).1.1, Px := (r q).1.2,
        L := (A q).L - 0.5 * (∑ i, ∑ j, (r q).2.e i * (r q).2.PyI i j * (r q).2.e j) - ∑ k, Real.log ((r q).2.PyC k k),
        dx_dq := c.2.1, dPx_dq := c.2.2, dL_dq := dlike (r q).2 c.1 ch (A q).dL_dq } := by
      filter_upwards [h, hr] with q h hr
      rcases gradA_cases h with ⟨hy', -⟩ | ⟨-, r', c, ch, hr', hc, hch, hB⟩
      · exact absurd hy' hy
      · rw [hr] at hr'
        cases hr'
        exact ⟨c, ch, hc, hch, hB⟩
    obtain ⟨c, ch, hc, hch, hB0⟩ := hB.self_of_nhds
    have hcore : ∀ᶠ q in 𝓝 q₀, UKF.core cut (A q).x (A q).Px (fun j : y.Active => y.data j.1) (fun x j => (M q).h (A q₀).k x j.1)
        (activeR y (M q).R) = .ok (r q) := by
      filter_upwards [hr, coreY_const (cut := cut) (M := M) (y := y) hA.k] with q h1 h2
      rw [← h2, h1]
    have G := core_grad (x := fun q => (A q).x) (P := fun q => (A q).Px) (R := fun q => activeR y (M q).R) hA.x hA.Px
      (fun x j => hM.h (A q₀).k x j.1) (dR := fun a => activeR y ((M q₀).dR_dq a)) (fun i j => hM.R i.1 j.1) (activeR_symm' hM.symm) hcore
      (c := c.1) (dx' := c.2.1) (dP' := c.2.2) hc
    have hC : ∀ᶠ q in 𝓝 q₀, cholU (r q).2.Py = .ok (r q).2.PyC :=
      hcore.mono fun q h => (core_transform (m := (r q).1) (d := (r q).2) h).2.2
    have hL := like_grad G hC hch hA.L
    refine ⟨?_, fun i => ?_, fun i j => ?_, ?_⟩
    · filter_upwards [hB, hA.k] with q h1 h2
      obtain ⟨c', ch', -, -, h1⟩ := h1
      rw [h1, hB0]
      exact h2
    · rw [hB0]
      refine (G.mean i).congr ?_
      filter_upwards [hB] with q h1
      obtain ⟨c', ch', -, -, h1⟩ := h1
      rw [h1]
    · rw [hB0]
      refine (G.cov i j).congr ?_
      filter_upwards [hB] with q h1
      obtain ⟨c', ch', -, -, h1⟩ := h1
      rw [h1]
    · rw [hB0]
      refine hL.congr ?_
      filter_upwards [hB] with q h1
      obtain ⟨c', ch', -, -, h1⟩ := h1
      rw [h1]

theorem transform_const (hA : ∀ᶠ q in 𝓝 q₀, (A q).k = (A q₀).k) : ∀ᶠ q in 𝓝 q₀, put.transform (A q).x (A q).Px ((M q).f (A q).k) =
    put.transform (A q).x (A q).Px ((M q).f (A q₀).k) := by
  filter_upwards [hA] with q h
  rw [h]

theorem gradP_eventually (hk : put.kind = .cholesky) (hA : SmoothAttrs A q₀) {B₀ : FilterAttrs nx p}
    (h : gradP put (M q₀) (A q₀) = .ok B₀) : ∀ᶠ q in 𝓝 q₀, ∃ B, gradP put (M q) (A q) = .ok B := by
  obtain ⟨d, hd, -⟩ := py_bind_eq_ok h
  have ht := transform_eventually (i := fun q => (A q).x) (P := fun q => (A q).Px) (f := fun q => (M q).f (A q₀).k) hk hd hA.Px
  filter_upwards [ht, transform_const (put := put) (M := M) hA.k] with q h1 h2
  obtain ⟨d, hd⟩ := h1
  have hd := h2.trans hd
  obtain ⟨dd, hdd⟩ := diff_ok hk hd ((M q).df_dq (A q).k) ((M q).df_dx (A q).k) (A q).dx_dq (A q).dPx_dq
  exact ⟨_, gradP_of hd hdd⟩

theorem totalQ_grad (hM : SmoothModel M q₀) (hA : SmoothAttrs A q₀) :
    MGrad (fun q => (M q).Q (A q).k (A q).x) (fun b => totalQ (M q₀) (A q₀) b) q₀ := by
  intro i j
  refine ((hM.Q (A q₀).k (A q₀).x i j).comp (X := fun q => (A q).x) hA.x).congr (hA.k.mono fun q h => ?_) |>.congr_grad fun b => ?_
  · dsimp only
    rw [h]
  simp only [totalQ, Matrix.add_apply, of_apply]
  congr 1
  exact Finset.sum_congr rfl fun k _ => mul_comm _ _

theorem gradP_smooth (hM : SmoothModel M q₀) (hA : SmoothAttrs A q₀)
    (h : ∀ᶠ q in 𝓝 q₀, gradP put (M q) (A q) = .ok (B q)) : SmoothAttrs B q₀ := by
  have hd : ∀ᶠ q in 𝓝 q₀, ∃ d, put.transform (A q).x (A q).Px ((M q).f (A q).k) = .ok d := by
    filter_upwards [h] with q h
    obtain ⟨d, hd, -⟩ := py_bind_eq_ok h
    exact ⟨d, hd⟩
  obtain ⟨d, hd⟩ := choose_ok hd
  have hB : ∀ᶠ q in 𝓝 q₀, ∃ dd, put.transformDiff (d q) ((M q).df_dq (A q).k) ((M q).df_dx (A q).k) (A q).dx_dq (A q).dPx_dq = .ok dd ∧
      B q = { A q with
        k := (A q).k + 1, x := (d q).mean, Px := (d q).Po + (M q).Q (A q).k (A q).x, dx_dq := dd.do_dq,
        dPx_dq := fun b => dd.dPo_dq b + totalQ (M q) (A q) b } := by
    filter_upwards [h, hd] with q h hd
    obtain ⟨d', hd', h⟩ := py_bind_eq_ok h
    rw [hd] at hd'
    cases hd'
    obtain ⟨dd, hdd, h⟩ := py_bind_eq_ok h
    exact ⟨dd, hdd, (Except.ok.inj h).symm⟩
  obtain ⟨dd, hdd, hB0⟩ := hB.self_of_nhds
  have ht : ∀ᶠ q in 𝓝 q₀, put.transform (A q).x (A q).Px ((M q).f (A q₀).k) = .ok (d q) := by
    filter_upwards [hd, transform_const (put := put) (M := M) hA.k] with q h1 h2
    rw [← h2, h1]
  have G := transform_grad ht hA.x hA.Px (fun x j => hM.f (A q₀).k x j) hdd
  have hP := MGrad.add G.Po (totalQ_grad hM hA)
  refine ⟨?_, fun i => ?_, fun i j => ?_, ?_⟩
  · filter_upwards [hB, hA.k] with q h1 h2
    obtain ⟨_, -, h1⟩ := h1
    rw [h1, hB0]
    exact congrArg (· + 1) h2
  · rw [hB0]
    refine (G.mean i).congr ?_
    filter_upwards [hB] with q h1
    obtain ⟨_, -, h1⟩ := h1
    rw [h1]
  · rw [hB0]
    refine (hP i j).congr ?_
    filter_upwards [hB] with q h1
    obtain ⟨_, -, h1⟩ := h1
    rw [h1]
  · rw [hB0]
    refine hA.L.congr ?_
    filter_upwards [hB] with q h1
    obtain ⟨_, -, h1⟩ := h1
    rw [h1]

end

end Ceacoest
