import Verif.Lemmas.TestKalmanFixture
import Verif.Props.TestKalman
import Verif.Props.TestKalmanDiff
import Verif.Props.KalmanSteps
import Verif.Props.KalmanMerit

/-! # C102, for the fixtures of test_kalman.py -/

namespace Ceacoest.TestKalman
open Matrix Spec Filter Topology FilterClass

variable {nx ny nq : Nat}

/-- What the fixture calls derivatives are derivatives. -/
theorem C102_fixture_right (x₀ : Fin nx → ℝ) (Px : Matrix (Fin nx) (Fin nx) ℝ) (q₀ : Fin nq → ℝ) : RightSetup (fixture ny nq x₀ Px) q₀ where
  M := {
    near := .of_forall fun q => {
      f := fun _ x j => hasGrad₂_partial (f_smooth j) q x
      h := fun _ x j => hasGrad₂_partial (h_smooth j) q x
      Q := fun _ x i j => hasGrad₂_partial (Q_smooth i j) q x
      R := fun i j => hasGrad_partial (R_smooth i j) q
      symm := .of_forall fun q => R_symm ny q }
    df_dq := fun _ x b j => df_dq_grad (f_smooth j) b q₀ x
    df_dx := fun _ x i j => df_dx_grad (f_smooth j) i q₀ x
    dh_dq := fun _ x b j => df_dq_grad (h_smooth j) b q₀ x
    dh_dx := fun _ x i j => df_dx_grad (h_smooth j) i q₀ x
    dQ_dq := fun _ x b j m => df_dq_grad (Q_smooth j m) b q₀ x
    dQ_dx := fun _ x i j m => df_dx_grad (Q_smooth j m) i q₀ x
    dR_dq := fun b j l => hasGrad_partial2 (R_smooth j l) b q₀ }
  v := .of_forall fun q i => hasGrad_partial (v_smooth x₀ i) q
  Pv := .of_forall fun q i j => hasGrad_partial (Pv_smooth Px i j) q
  dv := fun b i => hasGrad_partial2 (v_smooth x₀ i) b q₀
  dPv := fun b i j => hasGrad_partial2 (Pv_smooth Px i j) b q₀

theorem Pv_posDef (q : Fin nq → ℝ) {Px : Matrix (Fin nx) (Fin nx) ℝ} (h : Px.PosDef) : (Pv q Px).PosDef := by
  rw [Pv_eq]
  exact h.add_posSemidef (PosSemidef.diagonal fun i => by have := Real.neg_one_le_sin (sumSlice q none (some (-(i.1 : Int)))); simp only [Pi.zero_apply]; linarith)

theorem Q_posDef (hn : nx ≤ 3) (x : Fin nx → ℝ) (q : Fin nq → ℝ) : (Q x q).PosDef := by
  refine posDef_of_form (Q_symm x q) fun a ha => ?_
  have h3 := Q_form x q a
  have h4 := norm_pos' a ha
  have h5 : (nx : ℝ) ≤ 3 := by exact_mod_cast hn
  nlinarith

theorem R_posDef : (∀ q : Fin nq → ℝ, (R 1 q).PosDef) ∧ (∀ q : Fin 3 → ℝ, (R 3 q).PosDef) ∧ ∀ q : Fin 1 → ℝ, -1 < Real.sin (q 0) → (R 3 q).PosDef := by
  refine ⟨fun q => ?_, fun q => ?_, fun q hq => ?_⟩
  · refine posDef_of_form (R_symm 1 q) fun a ha => ?_
    have h4 := norm_pos' a ha
    rw [R_one]
    simp only [Fin.sum_univ_one, of_apply] at h4 ⊢
    nlinarith
  · refine posDef_of_form (R_symm 3 q) fun a ha => ?_
    have h4 := norm_pos' a ha
    rw [R_33]
    simp [Fin.sum_univ_three] at h4 ⊢
    nlinarith [Real.neg_one_le_sin (q 1), mul_self_nonneg (a 2), mul_self_nonneg (a 1), mul_self_nonneg (a 0),
      mul_nonneg (sub_nonneg.2 (Real.neg_one_le_sin (q 1))) (mul_self_nonneg (a 2))]
  · refine posDef_of_form (R_symm 3 q) fun a ha => ?_
    have h4 := norm_pos' a ha
    rw [R_31]
    simp [Fin.sum_univ_three] at h4 ⊢
    refine (three_pos (A := a 0 * a 0) (D := (a 1 - a 2) ^ 2) (P := (a 1 + a 2) ^ 2) (α := 2) (β := 1)
      (γ := (2 + 2 * Real.sin (q 0)) / 2) (by norm_num) (by norm_num) (by linarith) (mul_self_nonneg _) (sq_nonneg _)
      (sq_nonneg _) ?_).trans_eq ?_
    · exact h4.trans_eq (by ring)
    · ring

variable {ut : UT nx} {kappa : ℝ} {x₀ : Fin nx → ℝ} {Px : Matrix (Fin nx) (Fin nx) ℝ} {q₀ : Fin nq → ℝ}

/-- All tests of derivatives of transforms and predictions pass, … -/
theorem C102_fixture (hi : UT.init nx .cholesky kappa = .ok ut) (hk : 0 ≤ kappa) (hn : 0 < nq) (hP : Px.PosDef) :
    ForSmallSteps fun c =>
      testUtSqrtDiff (fixture ny nq x₀ Px) ut c q₀ = .ok () ∧ testUtSqrtDiff2 (fixture ny nq x₀ Px) ut c q₀ = .ok () ∧
      testSigmaPointsDiff (fixture ny nq x₀ Px) ut c q₀ = .ok () ∧ testSigmaPointsDiff2 (fixture ny nq x₀ Px) ut c q₀ = .ok () ∧
      testUtDiff (fixture ny nq x₀ Px) ut c q₀ = .ok () ∧ testUtDiff2 (fixture ny nq x₀ Px) ut c q₀ = .ok () ∧
      testUtPredDiff (fixture ny nq x₀ Px) ut c q₀ = .ok () ∧ testUtPredDiff2 (fixture ny nq x₀ Px) ut c q₀ = .ok () := by
  have hT := C102_fixture_right (ny := ny) x₀ Px q₀
  obtain ⟨hne, -, hkind, -⟩ := ut_init_ok hi
  have hpos : 0 < (nx : ℝ) + kappa := lt_of_le_of_ne (by positivity) (Ne.symm hne)
  have hPv : RootDom .cholesky ((fixture ny nq x₀ Px).Pv q₀) := Pv_posDef q₀ hP
  obtain ⟨S, hS⟩ := sqrt_of (ut := ut) (Q := (fixture ny nq x₀ Px).Pv q₀) (by rw [hkind]; exact hPv)
  obtain ⟨d, hd⟩ := transform_of hi hpos ((fixture ny nq x₀ Px).v q₀) (((fixture ny nq x₀ Px).M q₀).f 0) hPv
  have hp : ∃ s, predAt (fixture ny nq x₀ Px) ut q₀ q₀ = .ok s := by
    unfold predAt
    rw [ukf_predict_of (parametrizedUkf (fixture ny nq x₀ Px) ut q₀ q₀) hd]
    exact ⟨_, rfl⟩
  obtain ⟨s, hp⟩ := hp
  exact (C102_sqrt hkind hn hT hS).and <| (C102_sqrt2 hkind hn hT hS).and <| (C102_sigma hkind hn hT (sigmaPoints_ok hd)).and <|
    (C102_sigma2 hkind hn hT (sigmaPoints_ok hd)).and <| (C102_ut hkind hn hT hd).and <| (C102_ut2 hkind hn hT hd).and <|
    (C102_pred hkind hn hT hp).and (C102_pred2 hkind hn hT hp)

/-- … those of corrections pass if `R` is positive definite, … -/
theorem C102_fixture_corr (hi : UT.init nx .cholesky kappa = .ok ut) (hk : 0 ≤ kappa) (hn : 0 < nq) (hP : Px.PosDef) (hR : (R ny q₀).PosDef)
    (y : Fin ny → ℝ) : ForSmallSteps fun c =>
      testUtCorrDiff (fixture ny nq x₀ Px) ut c q₀ y = .ok () ∧ testUtCorrDiff2 (fixture ny nq x₀ Px) ut c q₀ y = .ok () := by
  have hT := C102_fixture_right (ny := ny) x₀ Px q₀
  obtain ⟨hne, -, hkind, -⟩ := ut_init_ok hi
  have hpos : 0 < (nx : ℝ) + kappa := lt_of_le_of_ne (by positivity) (Ne.symm hne)
  have hPv : RootDom .cholesky ((fixture ny nq x₀ Px).Pv q₀) := Pv_posDef q₀ hP
  have hc : ∃ s, corrAt (fixture ny nq x₀ Px) ut q₀ y q₀ = .ok s := by
    by_cases hy : ∀ j, (plain y).mask j = true
    · obtain ⟨l, t, ht, -⟩ := contribution (R_symm ny q₀) (ukf_correct_masked ((fixture ny nq x₀ Px).M q₀) hy (parametrizedUkf (fixture ny nq x₀ Px) ut q₀ q₀))
      unfold corrAt
      rw [ukf_correct_masked ((fixture ny nq x₀ Px).M q₀) hy]
      exact ⟨t, ht⟩
    · obtain ⟨t, ht⟩ := transform_of hi hpos ((fixture ny nq x₀ Px).v q₀)
        (fun x (j : (plain y).Active) => ((fixture ny nq x₀ Px).M q₀).h 0 x j.1) hPv
      obtain ⟨m, d, hd⟩ := ukf_core_of (p := Fin nq) (y := fun j : (plain y).Active => (plain y).data j.1) ht
        (PosDef.posSemidef_add (ukf_Po_psd hi hk ht) (activeR_pd (plain y) hR))
      have e : UKF.correct ut ((fixture ny nq x₀ Px).M q₀) (plain y) (parametrizedUkf (fixture ny nq x₀ Px) ut q₀ q₀) =
          .ok (m, { parametrizedUkf (fixture ny nq x₀ Px) ut q₀ q₀ with x := m.1, Px := m.2, last := .data (plain y) d }) := by
        refine (ukf_correct_active ((fixture ny nq x₀ Px).M q₀) hy _).trans ?_
        have hd' := congrArg (fun z => z >>= fun r : _ × _ => (.ok (r.1, { parametrizedUkf (fixture ny nq x₀ Px) ut q₀ q₀ with x := r.1.1, Px := r.1.2, last := .data (plain y) r.2 }) :
          Py (Moments nx × UKF nx ut.nsigma ut.nsigma (Fin ny) (Fin nq)))) hd
        exact hd'
      obtain ⟨l, t, ht, -⟩ := contribution (R_symm ny q₀) e
      unfold corrAt
      rw [e]
      exact ⟨t, ht⟩
  obtain ⟨s, hc⟩ := hc
  exact (C102_corr hkind hn hT hc).and (C102_corr2 hkind hn hT hc)

/-- … and those of merits do if there are no more than three states. -/
theorem C102_fixture_pem (hi : UT.init nx .cholesky kappa = .ok ut) (hk : 0 ≤ kappa) (hn : 0 < nq) (hP : Px.PosDef) (hR : (R ny q₀).PosDef)
    (hx : nx ≤ 3) (y : Fin ny → ℝ) : ForSmallSteps fun c =>
      testUkfPemGrad (fixture ny nq x₀ Px) ut c q₀ y = .ok () ∧ testUkfPemHessian (fixture ny nq x₀ Px) ut c q₀ y = .ok () := by
  have hT := C102_fixture_right (ny := ny) x₀ Px q₀
  obtain ⟨hne, -, hkind, -⟩ := ut_init_ok hi
  have hPv : RootDom .cholesky ((fixture ny nq x₀ Px).Pv q₀) := Pv_posDef q₀ hP
  have hQ : ∀ (k : ℤ) x, RootDom .cholesky (((fixture ny nq x₀ Px).M q₀).Q k x) := fun _ x => Q_posDef hx x q₀
  have hm : ∃ r, (UKF.cls ut ut ((fixture ny nq x₀ Px).M q₀)).pemMerit (threeRows y) (parametrizedUkf (fixture ny nq x₀ Px) ut q₀ q₀) = .ok r := by
    obtain ⟨s', h', -⟩ := C36_ukf_returns ut ut .cholesky .cholesky kappa kappa hi hi hk hk ((fixture ny nq x₀ Px).M q₀) (fun k x => ⟨hQ k x, hQ k x⟩) hR
      [some (plain fun j => ((0 : Nat) : ℝ) + y j), none, some (plain fun j => ((1 : Nat) : ℝ) + y j), none, some (plain fun j => ((2 : Nat) : ℝ) + y j)]
      (parametrizedUkf (fixture ny nq x₀ Px) ut q₀ q₀) ⟨hPv, hPv⟩
    have hf : ∃ ms s', (UKF.cls ut ut ((fixture ny nq x₀ Px).M q₀)).filter (threeRows y) (parametrizedUkf (fixture ny nq x₀ Px) ut q₀ q₀) = .ok (ms, s') := by
      rw [(C39_filter _ _ _).1]
      obtain ⟨r1, h1, h'⟩ := py_bind_eq_ok h'
      obtain ⟨r2, h2, h'⟩ := py_bind_eq_ok h'
      obtain ⟨r3, h3, h'⟩ := py_bind_eq_ok h'
      obtain ⟨r4, h4, h'⟩ := py_bind_eq_ok h'
      obtain ⟨r5, h5, h'⟩ := py_bind_eq_ok h'
      simp only [threeRows, List.range, List.range.loop, List.map_cons, List.map_nil, schedule, h1, h2, h3, h4, h5, py_bind_ok]
      exact ⟨_, _, rfl⟩
    obtain ⟨ms, s', hf⟩ := hf
    obtain ⟨L, s'', h, -⟩ := C48_ukf_returns_partial ut ut _ (R_symm ny q₀) _ _ _ _ hf
    exact ⟨_, h⟩
  obtain ⟨r, hm⟩ := hm
  exact (C102_pem_grad hkind hn hT hm).and (C102_pem_hessian hkind hn hT hm)

/-- `R` is positive definite for all numbers of outputs and parameters of the fixtures, unless there are three outputs, one parameter,
and its sine is `-1`. -/
theorem C102_fixture_R : (∀ q : Fin nq → ℝ, (R 1 q).PosDef) ∧ (∀ q : Fin 3 → ℝ, (R 3 q).PosDef) ∧ ∀ q : Fin 1 → ℝ, -1 < Real.sin (q 0) → (R 3 q).PosDef :=
  R_posDef

/-- The transition function of the tests at zero: each row adds the sines of its sums of indices up to the diagonal. -/
theorem f_at_zero : f (0 : Fin 2 → ℝ) (0 : Fin 2 → ℝ) = ![Real.sin 0, Real.sin 1 + Real.sin 2] := by
  have hz : ∀ a b, sumSlice (0 : Fin 2 → ℝ) a b = 0 := fun a b => by
    unfold sumSlice
    refine List.sum_eq_zero fun z hz => ?_
    obtain ⟨k, -, rfl⟩ := List.mem_map.1 hz
    split <;> rfl
  funext i
  unfold f
  rw [Fin.sum_univ_two]
  fin_cases i
  · simp [hz]
  · simp only [hz]
    norm_num

example : ∃ ut : UT 2, UT.init 2 .cholesky (1 / 2) = .ok ut ∧ ∀ (x₀ : Fin 2 → ℝ) (q₀ : Fin 3 → ℝ) (y : Fin 3 → ℝ), ForSmallSteps fun c =>
    testUkfPemGrad (fixture 3 3 x₀ 1) ut c q₀ y = .ok () ∧ testUkfPemHessian (fixture 3 3 x₀ 1) ut c q₀ y = .ok () := by
  have h : ∃ ut : UT 2, UT.init 2 .cholesky (1 / 2) = .ok ut := by
    unfold UT.init
    rw [if_neg (by norm_num)]
    exact ⟨_, rfl⟩
  obtain ⟨ut, h⟩ := h
  exact ⟨ut, h, fun x₀ q₀ y => C102_fixture_pem h (by norm_num) (by norm_num) PosDef.one (C102_fixture_R (nq := 0).2.1 q₀) (by norm_num) y⟩

end Ceacoest.TestKalman
