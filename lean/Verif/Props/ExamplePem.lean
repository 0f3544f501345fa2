import Verif.Lemmas.ExamplePem
import Verif.Props.ExampleFilter
import Verif.Props.KalmanGrad
import Verif.Props.KalmanAffine

/-! # C112: parameter estimation with a discretised stochastic differential equation -/

namespace Ceacoest.Pem
open SymSDE Matrix TestKalman Spec Filter Topology FilterClass
open scoped ContDiff
variable {nx nw ny nq : Nat} {S : SDE nx nw ny nq}

theorem exists_ut (hn : 0 < nx) : ∃ ut, UT.init nx .cholesky (0 : ℝ) = .ok ut := by
  unfold UT.init
  have h : (0 : ℝ) < nx := by exact_mod_cast hn
  rw [if_neg (by simpa using h.ne')]
  exact ⟨_, rfl⟩

/-- **C112.** For any continuous-time model with smooth functions: where `merit` returns, so it does nearby, `grad` returns its gradient there, and `hess` returns the multiples of
the second derivatives at the pairs `hess_inds`; the second derivatives are symmetric, so nothing is lost. -/
theorem C112_pem (hS : Smooth S) (dt : ℝ) (y : List (MaskedRow (Fin ny))) (q₀ : Fin nq → ℝ) {L₀ : ℝ} (h : merit S dt y q₀ = .ok L₀) :
    ∃ (ℓ : (Fin nq → ℝ) → ℝ) (g : (Fin nq → ℝ) → Fin nq → ℝ) (H : Fin nq → Fin nq → ℝ),
      (∀ᶠ q in 𝓝 q₀, merit S dt y q = .ok (ℓ q) ∧ grad S dt y q = .ok (g q)) ∧
      (∀ c, hess S dt y q₀ c = .ok ((trilIndices nq).map fun r => c * H r.1 r.2)) ∧ HasHess ℓ g H q₀ ∧ ∀ a b, H a b = H b a := by
  unfold merit at h
  obtain ⟨ut, hut, h⟩ := py_bind_eq_ok h
  obtain ⟨⟨L, s'⟩, h, -⟩ := py_bind_eq_ok h
  have hkind := (ut_init_ok hut).2.2.1
  obtain ⟨ℓ, g, H, h1, ⟨t, h2⟩, h3⟩ := C47_hessian ut ut hkind hkind (ito S dt) (fun q => ⟨start S q, none, .never⟩) q₀ (ito_smooth hS dt q₀) (start_smooth hS q₀) y _ h
  refine ⟨ℓ, g, H, h1.mono fun q hq => ?_, fun c => ?_, h3, h3.symm⟩
  · obtain ⟨⟨t1, e1⟩, t2, e2⟩ := hq
    constructor
    · unfold merit
      rw [hut, py_bind_ok, e1]
      rfl
    · unfold grad
      rw [hut, py_bind_ok, e2]
      rfl
  · unfold hess
    rw [hut, py_bind_ok, h2]
    rfl

/-- **C112** (clock). The filter starts at sample zero with the initial moments of the model: it ends at the number of its last sample, so that sample `n` is corrected with the output function
at time `n * dt`. -/
theorem C112_clock (dt : ℝ) (q : Fin nq → ℝ) (ut : UT nx) (y : List (MaskedRow (Fin ny))) {n : Nat} (hn : n < y.length) {ms : List (Moments nx)}
    {s' : UKF nx ut.nsigma ut.nsigma (Fin ny) (Fin nq)} (h : (UKF.cls ut ut (ito S dt q)).filter (y.take (n + 1)) ⟨start S q, none, .never⟩ = .ok (ms, s')) (x : Fin nx → ℝ) :
    s'.k = n ∧ (ito S dt q).h s'.k x = S.h q (n * dt) x ∧ (start S q).x = S.x0 q ∧ (start S q).Px = S.Px0 q := by
  have hk : s'.k = n := by
    have := C39_index_ukf _ _ _ _ _ _ _ h
    rw [List.length_take] at this
    have e : (⟨start S q, none, .never⟩ : UKF nx ut.nsigma ut.nsigma (Fin ny) (Fin nq)).k = 0 := rfl
    rw [e] at this
    omega
  refine ⟨hk, ?_, rfl, rfl⟩
  rw [hk]
  simp [ito, generated, SymSDE.h, SDE.at]

/-- The pairs are those of the lower triangle, row by row; each is listed once. -/
theorem C112_tril (n : Nat) : (trilIndices n).Pairwise (fun r s => r.1 < s.1 ∨ r.1 = s.1 ∧ r.2 < s.2) ∧ ∀ r : Fin n × Fin n, r ∈ trilIndices n ↔ r.2 ≤ r.1 := by
  constructor
  · unfold trilIndices
    rw [List.pairwise_flatMap]
    refine ⟨fun a _ => List.pairwise_map.2 (((List.pairwise_lt_finRange n).filter _).imp fun h => .inr ⟨rfl, h⟩), ?_⟩
    refine (List.pairwise_lt_finRange n).imp fun {a b} hab r h1 s h2 => ?_
    obtain ⟨_, -, rfl⟩ := List.mem_map.1 h1
    obtain ⟨_, -, rfl⟩ := List.mem_map.1 h2
    exact .inl hab
  · rintro ⟨a, b⟩
    simp only [trilIndices, List.mem_flatMap, List.mem_finRange, true_and, List.mem_map, List.mem_filter, decide_eq_true_eq, Prod.mk.injEq]
    constructor
    · rintro ⟨a', b', h, rfl, rfl⟩
      exact h
    · exact fun h => ⟨a, b, h, rfl, rfl⟩

/-! ### The factor of the covariance of the noise -/

/-- The merit depends on the functions of the model, not on its derivatives. -/
theorem pemMerit_congr {o p : Type} [Fintype o] [LinearOrder o] [Fintype p] {put cut : UT nx} {M M' : KModel nx o p} (hf : M.f = M'.f) (hh : M.h = M'.h) (hQ : M.Q = M'.Q)
    (hR : M.R = M'.R) (y : List (MaskedRow o)) (A B : FilterAttrs nx p) (hAB : A.zeroth = B.zeroth) {L : ℝ}
    (h : ∃ s', (UKF.cls put cut M).pemMerit y ⟨A, none, .never⟩ = .ok (L, s')) : ∃ s', (UKF.cls put cut M').pemMerit y ⟨B, none, .never⟩ = .ok (L, s') := by
  obtain ⟨C, h1, rfl⟩ := pemMerit_iff.1 h
  obtain ⟨D, h2, e⟩ := walk_sim (g' := meritA cut M') (h' := meritP put M') (fun A B : FilterAttrs nx p => A.zeroth = B.zeroth) (fun y A A' B hAB h => by
      obtain ⟨x, P, k, L, dL, d2L, dx, dP, d2x, d2P⟩ := A
      obtain ⟨x', P', k', L', dL', d2L', dx', dP', d2x', d2P'⟩ := B
      cases hAB
      rcases meritA_cases h with ⟨hy, rfl⟩ | ⟨hy, r, hr, rfl⟩
      · exact ⟨_, meritA_masked hy _, rfl⟩
      · have hr : coreY cut M' y ⟨x, P, k, L, dL', d2L', dx', dP', d2x', d2P'⟩ = .ok r := by
          rw [← hr]
          unfold coreY
          rw [hh, hR]
        exact ⟨_, meritA_of hy hr, rfl⟩) (fun A A' B hAB h => by
      obtain ⟨x, P, k, L, dL, d2L, dx, dP, d2x, d2P⟩ := A
      obtain ⟨x', P', k', L', dL', d2L', dx', dP', d2x', d2P'⟩ := B
      cases hAB
      obtain ⟨d, hd, h⟩ := py_bind_eq_ok h
      cases h
      rw [hf] at hd
      have hd : put.transform (FilterAttrs.mk x P k L dL' d2L' dx' dP' d2x' d2P').x P (M'.f k) = .ok d := hd
      refine ⟨_, meritP_of hd, ?_⟩
      rw [hQ]
      rfl) y _ _ B hAB h1
  exact pemMerit_iff.2 ⟨D, h2, (congrArg (fun z => z.2.2.2) e).symm⟩

/-- The transition covariance, from the covariance of the noise. -/
theorem Q_eq (S : SDE nx nw ny nq) {dt : ℝ} (hdt : 0 ≤ dt) (q : Fin nq → ℝ) (k : ℤ) (x : Fin nx → ℝ) :
    let G := S.g q (k * dt) x * (S.g q (k * dt) x)ᵀ
    let J := jacobian (S.f q) (k * dt) x
    (ito S dt q).Q k x = dt • G + (dt ^ 2 / 2) • (J * G + G * Jᵀ) + (dt ^ 3 / 3) • (J * G * Jᵀ) := by
  intro G J
  have h := ito_cov_of (S.at q) dt k hdt x
  refine h.trans ?_
  have e : ∀ A : Matrix (Fin nx) (Fin nw) ℝ, (J * A)ᵀ = Aᵀ * Jᵀ := fun A => transpose_mul _ _
  change dt • (S.g q (k * dt) x * _) + (dt ^ 2 / 2) • (J * _ * _ + _ * (J * _)ᵀ) + (dt ^ 3 / 3) • (J * _ * (J * _)ᵀ) = _
  simp only [e, G, Matrix.mul_assoc]
  rfl

/-- The drift, from the covariance of the noise. -/
theorem f_eq (S : SDE nx nw ny nq) (dt : ℝ) (q : Fin nq → ℝ) (k : ℤ) (x : Fin nx → ℝ) (i : Fin nx) :
    (ito S dt q).f k x i = x i + dt * S.f q (k * dt) x i + dt ^ 2 / 2 * generator (S.f q) (S.g q) (fun s z => S.f q s z i) (k * dt) x := by
  have h := l0f_of (S.at q) (k * dt) x i rfl (fun _ _ => rfl) (fun _ _ => rfl)
  change itoF (S.at q) dt k x i = _
  simp only [itoF, mul_comm dt (k : ℝ)]
  rw [h]
  simp only [SDE.at]
  ring

/-- **C112** (noise). Only the product of the diffusion matrix with its transpose matters: two models that differ in the diffusion matrix have the same merit if that product is the
same. Hence the sign of a noise gain cannot be found, and unused columns do not matter. -/
theorem C112_factor {nw' : Nat} {S' : SDE nx nw' ny nq} {dt : ℝ} (hdt : 0 ≤ dt) {q q' : Fin nq → ℝ} (hf : S.f q = S'.f q')
    (hg : ∀ t x, S.g q t x * (S.g q t x)ᵀ = S'.g q' t x * (S'.g q' t x)ᵀ) (hh : S.h q = S'.h q') (hR : S.R q = S'.R q') (hx : S.x0 q = S'.x0 q') (hP : S.Px0 q = S'.Px0 q')
    (y : List (MaskedRow (Fin ny))) (L : ℝ) : merit S dt y q = .ok L ↔ merit S' dt y q' = .ok L := by
  have key : ∀ {nw nw' : Nat} {S : SDE nx nw ny nq} {S' : SDE nx nw' ny nq} {q q' : Fin nq → ℝ}, S.f q = S'.f q' →
      (∀ t x, S.g q t x * (S.g q t x)ᵀ = S'.g q' t x * (S'.g q' t x)ᵀ) → S.h q = S'.h q' → S.R q = S'.R q' → S.x0 q = S'.x0 q' → S.Px0 q = S'.Px0 q' →
      merit S dt y q = .ok L → merit S' dt y q' = .ok L := by
    intro nw nw' S S' q q' hf hg hh hR hx hP h
    unfold merit at h ⊢
    obtain ⟨ut, hut, h⟩ := py_bind_eq_ok h
    obtain ⟨⟨L', s'⟩, h, e⟩ := py_bind_eq_ok h
    cases e
    have e1 : (ito S dt q).f = (ito S' dt q').f := by
      funext k x i
      rw [f_eq, f_eq]
      unfold generator
      rw [hf, hg]
    have e2 : (ito S dt q).Q = (ito S' dt q').Q := by
      funext k x
      rw [Q_eq S hdt, Q_eq S' hdt, hf, hg]
    have e3 : (ito S dt q).h = (ito S' dt q').h := by
      funext k x
      exact congrFun (congrFun hh _) x
    obtain ⟨s'', h'⟩ := pemMerit_congr e1 e3 e2 (show (ito S dt q).R = (ito S' dt q').R from hR) y (start S q) (start S' q')
      (by simp only [FilterAttrs.zeroth, start, hx, hP]) ⟨s', h⟩
    rw [hut, py_bind_ok, h']
    rfl
  exact ⟨key hf hg hh hR hx hP, key hf.symm (fun t x => (hg t x).symm) hh.symm hR.symm hx.symm hP.symm⟩

/-! ### Exact measurements -/

section
variable {o p : Type} [Fintype o] [LinearOrder o]

theorem transform_error {put : UT nx} {kappa : ℝ} (hput : UT.init nx .cholesky kappa = .ok put) (hk : 0 < (nx : ℝ) + kappa) {o' : Type} [Fintype o'] {x : Fin nx → ℝ}
    {P : Matrix (Fin nx) (Fin nx) ℝ} (hs : Pᵀ = P) (h : ¬P.PosDef) (f : (Fin nx → ℝ) → o' → ℝ) : put.transform x P f = .error .linAlgError := by
  obtain ⟨-, h1, h2, -⟩ := ut_init_ok hput
  have e : put.sqrt (((nx : ℝ) + put.kappa) • P) = .error .linAlgError := by
    unfold UT.sqrt
    rw [h2]
    refine cholU_error ?_
    rw [lowerSym_of_symm (by rw [transpose_smul, hs]), h1]
    intro hp
    refine h ?_
    have := hp.smul (inv_pos.2 hk)
    rwa [smul_smul, inv_mul_cancel₀ hk.ne', one_smul] at this
  unfold UT.transform UT.sigmaPoints
  rw [e]
  rfl

/-- **C112** (exact measurements). An unscented filter with Cholesky factors stops with LinAlgError at the prediction after a measurement without noise, if the output is an affine
function of the state: at parameters with no measurement noise, which the bounds of the script allow, `merit` raises. -/
theorem C112_exact {put cut : UT nx} {kappa kappa' : ℝ} (hput : UT.init nx .cholesky kappa = .ok put) (hcut : UT.init nx .cholesky kappa' = .ok cut) (hk : 0 < (nx : ℝ) + kappa)
    (hk' : 0 < (nx : ℝ) + kappa') (M : KModel nx o p) (y y' : MaskedRow o) (ys : List (MaskedRow o)) (hy : ¬∀ j, y.mask j = true) (s : UKF nx cut.nsigma put.nsigma o p)
    (hP : s.Px.PosDef) (C : Matrix o (Fin nx) ℝ) (c : o → ℝ) (hh : ∀ x, M.h s.k x = C *ᵥ x + c) (hR : ∀ i j, y.mask i = false → y.mask j = false → M.R i j = 0) :
    (UKF.cls put cut M).pemMerit (y :: y' :: ys) s = .error .linAlgError := by
  have hR0 : activeR y M.R = 0 := by
    ext i j
    exact hR i.1 j.1 i.2 j.2
  obtain ⟨u, hu⟩ := transform_of hcut hk' s.x (fun x (j : y.Active) => M.h s.k x j.1) (show RootDom .cholesky s.Px from hP)
  let Ca : Matrix y.Active (Fin nx) ℝ := of fun j i => C j.1 i
  obtain ⟨-, a2, a3⟩ := affine_transform hcut hk'.le trivial (A := Ca) (b := fun j => c j.1) (funext fun x => funext fun j => congrFun (hh x) j.1) hP.posSemidef hu
  rw [pemMerit_eq]
  suffices H : walk (meritG (UKF.cls put cut M)) (meritH (UKF.cls put cut M)) (y :: y' :: ys) s = .error .linAlgError by rw [H]; rfl
  unfold walk meritG
  rw [show (UKF.cls put cut M).correct y s = _ from ukf_correct_active M hy s, hR0]
  by_cases hpd : (u.Po + 0).PosDef
  · obtain ⟨m, d, hd⟩ := ukf_core_of (p := p) (y := fun j : y.Active => y.data j.1) hu hpd
    obtain ⟨hu', hcs, -⟩ := ukf_core_ok (by simp) hd
    obtain rfl : u = d.ut := by rw [hu] at hu'; exact Except.ok.inj hu'
    rw [hd]
    simp only [py_bind_ok]
    rw [a2, a3, add_zero] at hcs
    rw [a2, add_zero] at hpd
    have hsS : (Ca * s.Px * Caᵀ)ᵀ = Ca * s.Px * Caᵀ := psd_symm hpd.posSemidef
    have hsP : s.Pxᵀ = s.Px := psd_symm hP.posSemidef
    have hdet : IsUnit (Ca * s.Px * Caᵀ).det := isUnit_iff_ne_zero.2 hcs.det
    have ht : (s.Px * Caᵀ * (Ca * s.Px * Caᵀ)⁻¹)ᵀ = (Ca * s.Px * Caᵀ)⁻¹ * (Ca * s.Px) := by
      rw [transpose_mul, transpose_nonsing_inv, hsS, transpose_mul, transpose_transpose, hsP]
    have hcov : m.2 = s.Px - s.Px * Caᵀ * (Ca * s.Px * Caᵀ)⁻¹ * (Ca * s.Px) := by
      have e : m.2 = s.Px - s.Px * Caᵀ * (Ca * s.Px * Caᵀ)⁻¹ * (Ca * s.Px * Caᵀ) * (s.Px * Caᵀ * (Ca * s.Px * Caᵀ)⁻¹)ᵀ := by convert hcs.cov
      rw [e, ht, nonsing_inv_mul_cancel_right _ _ hdet, Matrix.mul_assoc, Matrix.mul_assoc]
      simp only [Matrix.mul_assoc]
    have hsym : m.2ᵀ = m.2 := by
      rw [hcov, transpose_sub, hsP]
      congr 1
      rw [transpose_mul, ht, transpose_mul, hsP]
      simp only [Matrix.mul_assoc]
    have hz : m.2 * Caᵀ = 0 := by
      rw [hcov, Matrix.sub_mul, Matrix.mul_assoc _ (Ca * s.Px), nonsing_inv_mul_cancel_right _ _ hdet, sub_self]
    have hnp : ¬m.2.PosDef := by
      intro hp
      obtain ⟨j, hj⟩ := not_forall.1 hy
      have hCa : Caᵀ = 0 := by
        have := congrArg (m.2⁻¹ * ·) hz
        rwa [nonsing_inv_mul_cancel_left _ _ (isUnit_iff_ne_zero.2 hp.det_pos.ne'), Matrix.mul_zero] at this
      have : (Ca * s.Px * Caᵀ) ⟨j, by simpa using hj⟩ ⟨j, by simpa using hj⟩ = 0 := by rw [hCa, Matrix.mul_zero]; rfl
      exact (hpd.diag_pos (i := ⟨j, by simpa using hj⟩)).ne' this
    have e : ∀ s' : UKF nx cut.nsigma put.nsigma o p, s'.Px = m.2 → UKF.predict put M s' = .error .linAlgError := fun s' h => by
      unfold UKF.predict
      rw [h, transform_error hput hk hsym hnp]
      rfl
    unfold meritH
    rw [show (UKF.cls put cut M).updateLikelihood _ = UKF.updateLikelihood _ from rfl]
    unfold UKF.updateLikelihood
    simp only [py_bind_ok]
    rw [show (UKF.cls put cut M).predict _ = UKF.predict put M _ from rfl, e _ rfl]
    rfl
  · have e : UKF.core (p := p) cut s.x s.Px (fun j : y.Active => y.data j.1) (fun x j => M.h s.k x j.1) 0 = .error .linAlgError := by
      unfold UKF.core
      rw [hu]
      simp only [py_bind_ok]
      rw [cholU_error]
      · rfl
      · rwa [lowerSym_of_symm]
        rw [add_zero, a2]
        exact psd_symm (psd_conj hP.posSemidef _)
    rw [e]
    rfl

end

/-! ### The Duffing oscillator -/

variable (gamma omega x0_std v0_std dt : ℝ)

theorem C112_smooth : Smooth (duffing gamma omega x0_std v0_std) where
  f i := by
    fin_cases i
    · exact (contDiff_apply ℝ ℝ (1 : Fin 2)).comp (contDiff_snd.comp contDiff_snd)
    · have q : ∀ a : Fin 7, ContDiff ℝ ∞ fun z : (Fin 7 → ℝ) × ℝ × (Fin 2 → ℝ) => z.1 a := fun a => (contDiff_apply ℝ ℝ a).comp contDiff_fst
      have x : ∀ a : Fin 2, ContDiff ℝ ∞ fun z : (Fin 7 → ℝ) × ℝ × (Fin 2 → ℝ) => z.2.2 a := fun a => (contDiff_apply ℝ ℝ a).comp (contDiff_snd.comp contDiff_snd)
      have t : ContDiff ℝ ∞ fun z : (Fin 7 → ℝ) × ℝ × (Fin 2 → ℝ) => z.2.1 := contDiff_fst.comp contDiff_snd
      exact (((((q 2).neg.mul (x 1)).sub ((q 1).mul (x 0))).sub ((q 0).mul ((x 0).pow 3))).add (contDiff_const.mul (Real.contDiff_cos.comp (t.mul contDiff_const))))
  g i j := by
    fin_cases i <;> fin_cases j <;> first | exact contDiff_const | exact (contDiff_apply ℝ ℝ (3 : Fin 7)).comp contDiff_fst
  h i := by
    fin_cases i
    exact (contDiff_apply ℝ ℝ (0 : Fin 2)).comp (contDiff_snd.comp contDiff_snd)
  R i j := by
    fin_cases i; fin_cases j
    exact (contDiff_apply ℝ ℝ (4 : Fin 7)).pow 2
  x0 i := by
    fin_cases i
    · exact contDiff_apply ℝ ℝ (5 : Fin 7)
    · exact contDiff_apply ℝ ℝ (6 : Fin 7)
  Px0 i j := contDiff_const
  symm q := by
    ext i j
    fin_cases i; fin_cases j
    rfl

theorem duffing_G (q : Fin 7 → ℝ) (t : ℝ) (x : Fin 2 → ℝ) :
    (duffing gamma omega x0_std v0_std).g q t x * ((duffing gamma omega x0_std v0_std).g q t x)ᵀ = !![0, 0; 0, q 3 ^ 2] := by
  ext i j
  fin_cases i <;> fin_cases j <;> simp [duffing, Matrix.mul_apply, Fin.sum_univ_two, pow_two]

/-- The transition covariance. -/
theorem duffing_Q (hdt : 0 ≤ dt) (q : Fin 7 → ℝ) (k : ℤ) (x : Fin 2 → ℝ) : (ito (duffing gamma omega x0_std v0_std) dt q).Q k x =
    q 3 ^ 2 • !![dt ^ 3 / 3, dt ^ 2 / 2 - q 2 * dt ^ 3 / 3; dt ^ 2 / 2 - q 2 * dt ^ 3 / 3, dt - q 2 * dt ^ 2 + q 2 ^ 2 * dt ^ 3 / 3] := by
  rw [Q_eq _ hdt]
  have h0 : jacobian ((duffing gamma omega x0_std v0_std).f q) (k * dt) x 0 1 = 1 := by
    simp only [jacobian, partialD, of_apply, duffing, cons_val_zero, Function.update_self]
    exact deriv_id _
  have h1 : jacobian ((duffing gamma omega x0_std v0_std).f q) (k * dt) x 1 1 = -q 2 := by
    simp only [jacobian, partialD, of_apply, duffing, cons_val_one, cons_val_fin_one, Function.update_self, Function.update_of_ne (show (0 : Fin 2) ≠ 1 by decide)]
    have := (((((hasDerivAt_id' (x 1)).const_mul (-q 2)).sub_const (q 1 * x 0)).sub_const (q 0 * x 0 ^ 3)).add_const (gamma * Real.cos (k * dt * omega))).deriv
    rw [this, mul_one]
  rw [duffing_G]
  generalize jacobian ((duffing gamma omega x0_std v0_std).f q) (k * dt) x = J at h0 h1
  ext i j
  fin_cases i <;> fin_cases j <;> simp [Matrix.mul_apply, Fin.sum_univ_two, h0, h1, vecMul, dotProduct] <;> ring

theorem duffing_posDef (hdt : 0 < dt) (q : Fin 7 → ℝ) (hq : q 3 ≠ 0) (k : ℤ) (x : Fin 2 → ℝ) : ((ito (duffing gamma omega x0_std v0_std) dt q).Q k x).PosDef := by
  rw [duffing_Q _ _ _ _ _ hdt.le]
  have hg : 0 < q 3 ^ 2 := by positivity
  refine PosDef.smul (Sim.two_posDef (by positivity) ?_) hg
  have : 0 < dt ^ 4 / 12 := by positivity
  nlinarith

/-- **C112** (Duffing). `merit` returns at all parameters with noise in state and measurement, whatever the measurements and whatever of them is masked, … -/
theorem C112_returns (hdt : 0 < dt) (hx : x0_std ≠ 0) (hv : v0_std ≠ 0) (y : List (MaskedRow (Fin 1))) (q : Fin 7 → ℝ) (h3 : q 3 ≠ 0) (h4 : q 4 ≠ 0) :
    ∃ L, merit (duffing gamma omega x0_std v0_std) dt y q = .ok L := by
  obtain ⟨ut, hut⟩ := exists_ut (nx := 2) (by norm_num)
  have hR : ((duffing gamma omega x0_std v0_std).R q).PosDef := by
    have e : (duffing gamma omega x0_std v0_std).R q = diagonal fun _ => q 4 ^ 2 := by
      ext i j
      fin_cases i; fin_cases j
      rfl
    rw [e]
    exact PosDef.diagonal fun _ => by positivity
  have hP : ((duffing gamma omega x0_std v0_std).Px0 q).PosDef := PosDef.diagonal fun i => by
    fin_cases i
    · show 0 < x0_std ^ 2
      positivity
    · show 0 < v0_std ^ 2
      positivity
  obtain ⟨⟨ms, s', h, -⟩, -⟩ := C111_ukf_returns hut hut le_rfl le_rfl (ito (duffing gamma omega x0_std v0_std) dt q)
    (duffing_posDef gamma omega x0_std v0_std dt hdt q h3) hR y ⟨start (duffing gamma omega x0_std v0_std) q, none, .never⟩ hP
  obtain ⟨L, s'', h', -⟩ := C48_ukf_returns_partial ut ut _ (psd_symm hR.posSemidef) y _ _ _ h
  refine ⟨L, ?_⟩
  unfold merit
  rw [hut, py_bind_ok, h']
  rfl

/-- … and there `grad` and `hess` return its derivatives, … -/
theorem C112_duffing (hdt : 0 < dt) (hx : x0_std ≠ 0) (hv : v0_std ≠ 0) (y : List (MaskedRow (Fin 1))) :
    let S := duffing gamma omega x0_std v0_std
    ∃ (ℓ : (Fin 7 → ℝ) → ℝ) (g : (Fin 7 → ℝ) → Fin 7 → ℝ) (H : (Fin 7 → ℝ) → Fin 7 → Fin 7 → ℝ), ∀ q, q 3 ≠ 0 → q 4 ≠ 0 →
      merit S dt y q = .ok (ℓ q) ∧ grad S dt y q = .ok (g q) ∧ (∀ c, hess S dt y q c = .ok ((trilIndices 7).map fun r => c * H q r.1 r.2)) ∧
      HasHess ℓ g (H q) q ∧ ∀ a b, H q a b = H q b a := by
  intro S
  have key : ∀ q : Fin 7 → ℝ, ∃ (ℓ : (Fin 7 → ℝ) → ℝ) (g : (Fin 7 → ℝ) → Fin 7 → ℝ) (H : Fin 7 → Fin 7 → ℝ), q 3 ≠ 0 → q 4 ≠ 0 →
      (∀ᶠ q in 𝓝 q, merit S dt y q = .ok (ℓ q) ∧ grad S dt y q = .ok (g q)) ∧
      (∀ c, hess S dt y q c = .ok ((trilIndices 7).map fun r => c * H r.1 r.2)) ∧ HasHess ℓ g H q ∧ ∀ a b, H a b = H b a := fun q => by
    by_cases h : q 3 ≠ 0 ∧ q 4 ≠ 0
    · obtain ⟨L, hL⟩ := C112_returns gamma omega x0_std v0_std dt hdt hx hv y q h.1 h.2
      obtain ⟨ℓ, g, H, h1⟩ := C112_pem (C112_smooth gamma omega x0_std v0_std) dt y q hL
      exact ⟨ℓ, g, H, fun _ _ => h1⟩
    · exact ⟨0, 0, 0, fun a b => absurd ⟨a, b⟩ h⟩
  choose ℓ g H hl using key
  refine ⟨fun q => ℓ q q, fun q => g q q, H, fun q h3 h4 => ?_⟩
  obtain ⟨h1, h2, h5, h6⟩ := hl q h3 h4
  have hev : ∀ᶠ q' in 𝓝 q, ℓ q' q' = ℓ q q' ∧ g q' q' = g q q' := by
    have o3 : ∀ᶠ q' : Fin 7 → ℝ in 𝓝 q, q' 3 ≠ 0 := (continuous_apply 3).continuousAt.eventually_ne h3
    have o4 : ∀ᶠ q' : Fin 7 → ℝ in 𝓝 q, q' 4 ≠ 0 := (continuous_apply 4).continuousAt.eventually_ne h4
    filter_upwards [h1, o3, o4] with q' a b c
    have d := (hl q' b c).1.self_of_nhds
    exact ⟨Except.ok.inj (d.1.symm.trans a.1), Except.ok.inj (d.2.symm.trans a.2)⟩
  refine ⟨h1.self_of_nhds.1, h1.self_of_nhds.2, h2, ⟨?_, fun b => ?_⟩, h6⟩
  · filter_upwards [h5.1, hev.eventually_nhds] with q' a b
    have e : g q' q' = g q q' := b.self_of_nhds.2
    rw [e]
    exact a.congr (b.mono fun z hz => hz.1)
  · exact (h5.2 b).congr (hev.mono fun z hz => congrFun hz.2 b)

/-- … which do not tell the sign of `g2` and `x_meas_std`; … -/
theorem C112_signs (hdt : 0 ≤ dt) (y : List (MaskedRow (Fin 1))) (q : Fin 7 → ℝ) (L : ℝ) :
    (merit (duffing gamma omega x0_std v0_std) dt y (Function.update q 3 (-q 3)) = .ok L ↔ merit (duffing gamma omega x0_std v0_std) dt y q = .ok L) ∧
    (merit (duffing gamma omega x0_std v0_std) dt y (Function.update q 4 (-q 4)) = .ok L ↔ merit (duffing gamma omega x0_std v0_std) dt y q = .ok L) := by
  have key : ∀ q' : Fin 7 → ℝ, (∀ i, i ≠ 3 → i ≠ 4 → q' i = q i) → q' 3 ^ 2 = q 3 ^ 2 → q' 4 ^ 2 = q 4 ^ 2 →
      (merit (duffing gamma omega x0_std v0_std) dt y q' = .ok L ↔ merit (duffing gamma omega x0_std v0_std) dt y q = .ok L) := by
    intro q' h h3 h4
    have h0 := h 0 (by decide) (by decide)
    have h1 := h 1 (by decide) (by decide)
    have h2 := h 2 (by decide) (by decide)
    have h5 := h 5 (by decide) (by decide)
    have h6 := h 6 (by decide) (by decide)
    have ef : (duffing gamma omega x0_std v0_std).f q' = (duffing gamma omega x0_std v0_std).f q := by
      simp only [duffing, h0, h1, h2]
    have eg : ∀ t x, (duffing gamma omega x0_std v0_std).g q' t x * ((duffing gamma omega x0_std v0_std).g q' t x)ᵀ =
        (duffing gamma omega x0_std v0_std).g q t x * ((duffing gamma omega x0_std v0_std).g q t x)ᵀ := by
      intro t x
      rw [duffing_G, duffing_G, h3]
    have eR : (duffing gamma omega x0_std v0_std).R q' = (duffing gamma omega x0_std v0_std).R q := by
      simp only [duffing, h4]
    have ex : (duffing gamma omega x0_std v0_std).x0 q' = (duffing gamma omega x0_std v0_std).x0 q := by
      simp only [duffing, h5, h6]
    exact C112_factor hdt ef eg (by simp only [duffing]) eR ex (by simp only [duffing]) y L
  refine ⟨key _ (fun i h _ => Function.update_of_ne h _ _) ?_ ?_, key _ (fun i _ h => Function.update_of_ne h _ _) ?_ ?_⟩
  · rw [Function.update_self, neg_sq]
  · rw [Function.update_of_ne (by decide)]
  · rw [Function.update_of_ne (by decide)]
  · rw [Function.update_self, neg_sq]

/-- … but at the bound `x_meas_std = 0` of the script `merit` raises LinAlgError, if the first of at least two samples is measured. -/
theorem C112_bound (hx : x0_std ≠ 0) (hv : v0_std ≠ 0) (y y' : MaskedRow (Fin 1)) (ys : List (MaskedRow (Fin 1))) (hy : y.mask 0 = false) (q : Fin 7 → ℝ) (h4 : q 4 = 0) :
    merit (duffing gamma omega x0_std v0_std) dt (y :: y' :: ys) q = .error .linAlgError := by
  obtain ⟨ut, hut⟩ := exists_ut (nx := 2) (by norm_num)
  have hP : ((duffing gamma omega x0_std v0_std).Px0 q).PosDef := PosDef.diagonal fun i => by
    fin_cases i
    · show 0 < x0_std ^ 2
      positivity
    · show 0 < v0_std ^ 2
      positivity
  have h := C112_exact hut hut (by norm_num) (by norm_num) (ito (duffing gamma omega x0_std v0_std) dt q) y y' ys (fun h => by rw [h 0] at hy; cases hy)
    ⟨start (duffing gamma omega x0_std v0_std) q, none, .never⟩ hP !![1, 0] 0 (fun x => by
      ext i
      fin_cases i
      simp [ito, generated, SymSDE.h, SDE.at, duffing, mulVec, dotProduct, Fin.sum_univ_two]) (fun i j _ _ => by
      fin_cases i; fin_cases j
      show q 4 ^ 2 = 0
      rw [h4]; norm_num)
  unfold merit
  rw [hut, py_bind_ok, h]
  rfl

/-- The parameters of the script, with every fourth of 599 samples measured. -/
example (data : Nat → ℝ) : ∃ L, merit (duffing 0.3 1 0.1 0.1) 0.05 ((List.range 599).map fun k => ⟨fun _ => data k, fun _ => k % 4 != 0⟩) ![1, -1, 0.2, 0.1, 0.1, 1, 0] = .ok L :=
  C112_returns _ _ _ _ _ (by norm_num) (by norm_num) (by norm_num) _ _ (by simp; norm_num) (by simp; norm_num)

end Ceacoest.Pem
