import Verif.Lemmas.KalmanUnits
import Verif.Lemmas.Grad
import Verif.Props.KalmanSmooth
import Verif.Props.KalmanGrad

/-! # C90: filters do not depend on units -/

namespace Ceacoest
open Matrix Spec
variable {nx : Nat} {o p : Type} [Fintype o] [LinearOrder o] (U : Units nx o)

/-- Every model can be written in any new coordinates. -/
theorem C90_convert (hT : U.T.det ≠ 0) (M : KModel nx o p) : ∃ M' : KModel nx o p, U.Converts M M' ∧ U.ConvertsDeriv M M' := by
  let old : (Fin nx → ℝ) → Fin nx → ℝ := fun z => U.T⁻¹ *ᵥ (z - U.b)
  have hu : IsUnit U.T.det := isUnit_iff_ne_zero.2 hT
  have hold : ∀ x, old (U.state x) = x := by
    intro x
    show U.T⁻¹ *ᵥ (U.T *ᵥ x + U.b - U.b) = x
    rw [add_sub_cancel_right, mulVec_mulVec, nonsing_inv_mul _ hu, one_mulVec]
  refine ⟨{ M with
    f := fun k z => U.state (M.f k (old z))
    h := fun k z j => U.D j * M.h k (old z) j + U.c j
    Q := fun k z => U.cov (M.Q k (old z))
    R := of fun i j => U.D i * M.R i j * U.D j
    df_dx := fun k z => (U.Tᵀ)⁻¹ * (of (M.df_dx k (old z)) * U.Tᵀ)
    dh_dx := fun k z => (U.Tᵀ)⁻¹ * of fun i j => M.dh_dx k (old z) i j * U.D j }, ⟨?_, ?_, ?_, ?_⟩, ⟨?_, ?_⟩⟩
  · intro k x; simp only [hold]
  · intro k x j; simp only [hold]
  · intro k x; simp only [hold]
  · intro i j; rfl
  · intro k x i j
    have : U.Tᵀ * (U.Tᵀ⁻¹ * (of (M.df_dx k (old (U.state x))) * U.Tᵀ)) = of (M.df_dx k (old (U.state x))) * U.Tᵀ := by
      rw [← Matrix.mul_assoc, mul_nonsing_inv _ (by rwa [det_transpose]), Matrix.one_mul]
    rw [hold] at this
    have := congrFun (congrFun this i) j
    simp only [hold]
    exact this
  · intro k x i j
    have : U.Tᵀ * (U.Tᵀ⁻¹ * (of fun i j => M.dh_dx k (old (U.state x)) i j * U.D j : Matrix (Fin nx) o ℝ)) =
        of fun i j => M.dh_dx k (old (U.state x)) i j * U.D j := by
      rw [← Matrix.mul_assoc, mul_nonsing_inv _ (by rwa [det_transpose]), Matrix.one_mul]
    rw [hold] at this
    have := congrFun (congrFun this i) j
    simp only [hold]
    exact this

/-- If the derivatives of both models are what they should be, then they are converted as they should be. -/
theorem C90_derivatives {M M' : KModel nx o p} (hM : U.Converts M M')
    (hf : ∀ k x j, HasGrad (fun x => M.f k x j) (fun i => M.df_dx k x i j) x) (hh : ∀ k x j, HasGrad (fun x => M.h k x j) (fun i => M.dh_dx k x i j) x)
    (hf' : ∀ k x j, HasGrad (fun x => M'.f k x j) (fun i => M'.df_dx k x i j) x)
    (hh' : ∀ k x j, HasGrad (fun x => M'.h k x j) (fun i => M'.dh_dx k x i j) x) : U.ConvertsDeriv M M' := by
  have hst : ∀ x l, HasGrad (fun x => U.state x l) (fun i => U.T l i) x := by
    intro x l
    have h := HasGrad.add (hasGrad_sum (q := x) Finset.univ fun i _ => (hasGrad_coord i).const_mul (U.T l i)) (hasGrad_const (U.b l))
    refine HasGrad.congr_grad h fun a => ?_
    simp
  constructor
  · intro k x i j
    have h1 := HasGrad.comp (hf' k (U.state x) j) fun l => hst x l
    have h2 := HasGrad.comp (hst (M.f k x) j) fun l => hf k x l
    simp only [hM.f] at h1
    have h := congrFun (h1.unique h2) i
    refine (Finset.sum_congr rfl fun l _ => mul_comm _ _).trans (h.trans ?_)
    exact Finset.sum_congr rfl fun l _ => mul_comm _ _
  · intro k x i j
    have h1 := HasGrad.comp (hh' k (U.state x) j) fun l => hst x l
    have h2 := ((hh k x j).const_mul (U.D j)).add (hasGrad_const (U.c j))
    simp only [hM.h] at h1
    have h := congrFun (h1.unique h2) i
    refine (Finset.sum_congr rfl fun l _ => mul_comm _ _).trans (h.trans ?_)
    ring

/-- **C90.** The extended filter in other coordinates: it raises the same exception, or returns the same estimates. -/
theorem C90_ekf_filter {M M' : KModel nx o p} (hM : U.Converts M M') (hM' : U.ConvertsDeriv M M') (hD : ∀ j, U.D j ≠ 0) (y : List (MaskedRow o))
    (s t : EKF nx o p) (hs : U.Same s.toFilterAttrs t.toFilterAttrs) :
    SameOutcome (fun r r' => r'.1 = r.1.map U.moments ∧ U.Same r.2.toFilterAttrs r'.2.toFilterAttrs)
      ((EKF.cls M).filter y s) ((EKF.cls M').filter (y.map U.row) t) :=
  (ekf_units hM hM' hD).filter y s t hs

/-- **C90.** And its smoother. -/
theorem C90_ekf_smooth {M M' : KModel nx o p} (hM : U.Converts M M') (hM' : U.ConvertsDeriv M M') (hT : U.T.det ≠ 0) (hD : ∀ j, U.D j ≠ 0)
    (y : List (MaskedRow o)) (s t : EKF nx o p) (hs : U.Same s.toFilterAttrs t.toFilterAttrs) :
    SameOutcome (fun r r' => r'.1 = r.1.map U.moments ∧ U.Same r.2.toFilterAttrs r'.2.toFilterAttrs)
      ((EKF.cls M).smooth y s) ((EKF.cls M').smooth (y.map U.row) t) :=
  (ekf_units hM hM' hD).smooth (units_smoother U hT) y s t hs

section ukf
variable {put cut : UT nx} {kappa kappa' : ℝ} (hput : UT.init nx .cholesky kappa = .ok put) (hcut : UT.init nx .cholesky kappa' = .ok cut)
  {M M' : KModel nx o p} (hM : U.Converts M M') {d : Fin nx → ℝ} (hT : U.T = diagonal d) (hd : ∀ i, 0 < d i) (hD : ∀ j, 0 < U.D j)
include hput hcut hM hT hd hD

/-- **C90.** The unscented filter, with Cholesky factors, when each state and output gets a new unit and a new origin. -/
theorem C90_ukf_filter (y : List (MaskedRow o)) (s t : UKF nx cut.nsigma put.nsigma o p) (hs : U.Same s.toFilterAttrs t.toFilterAttrs) :
    SameOutcome (fun r r' => r'.1 = r.1.map U.moments ∧ U.Same r.2.toFilterAttrs r'.2.toFilterAttrs)
      ((UKF.cls put cut M).filter y s) ((UKF.cls put cut M').filter (y.map U.row) t) :=
  (ukf_units hput hcut hM hT hd hD).filter y s t hs

/-- **C90.** And its smoother. -/
theorem C90_ukf_smooth (y : List (MaskedRow o)) (s t : UKF nx cut.nsigma put.nsigma o p) (hs : U.Same s.toFilterAttrs t.toFilterAttrs) :
    SameOutcome (fun r r' => r'.1 = r.1.map U.moments ∧ U.Same r.2.toFilterAttrs r'.2.toFilterAttrs)
      ((UKF.cls put cut M).smooth y s) ((UKF.cls put cut M').smooth (y.map U.row) t) :=
  (ukf_units hput hcut hM hT hd hD).smooth (units_smoother U (by rw [hT, det_diagonal]; exact Finset.prod_ne_zero_iff.2 fun i _ => (hd i).ne')) y s t hs

/-- **C90.** The merit changes by a number that depends only on the units and on the masks, so its maxima are where they were. -/
theorem C90_ukf_merit (y : List (MaskedRow o)) (s t : UKF nx cut.nsigma put.nsigma o p) (hs : U.Same s.toFilterAttrs t.toFilterAttrs) (hL : t.L = s.L) :
    SameOutcome (fun r r' => r'.1 = r.1 - (y.map U.logVolume).sum)
      ((UKF.cls put cut M).pemMerit y s) ((UKF.cls put cut M').pemMerit (y.map U.row) t) := by
  rw [pemMerit_eq, pemMerit_eq]
  refine (ukf_merit_units hput hcut hM hT hd hD y s t hs).bind fun q q' h => ?_
  have := h.2
  rw [hL] at this
  show q'.L = q.L - _
  linarith

end ukf

/-! ### Examples -/

/-- Other units and another origin, for the demonstration model. -/
noncomputable def demoUnits : Units 1 (Fin 2) := ⟨diagonal fun _ => 3, fun _ => 5, fun j => (j.1 : ℝ) + 2, fun _ => 7⟩

theorem demoUnits_pos (j : Fin 2) : 0 < demoUnits.D j := by
  show (0 : ℝ) < (j.1 : ℝ) + 2
  positivity

/-- The extended smoother returns in both, and the same. -/
example : ∃ (M' : KModel 1 (Fin 2) (Fin 1)) (sm : List (Moments 1)) (s' t' : EKF 1 (Fin 2) (Fin 1)),
    demoUnits.Converts (Demo.model 2) M' ∧ (EKF.cls (Demo.model 2)).smooth [Demo.both, Demo.half, Demo.none] Demo.ekf = .ok (sm, s') ∧
    (EKF.cls M').smooth [demoUnits.row Demo.both, demoUnits.row Demo.half, demoUnits.row Demo.none]
      { Demo.ekf with x := demoUnits.state Demo.ekf.x, Px := demoUnits.cov Demo.ekf.Px } = .ok (sm.map demoUnits.moments, t') ∧ sm.length = 3 := by
  have hT : demoUnits.T.det ≠ 0 := by simp [demoUnits]
  obtain ⟨M', hM, hM'⟩ := C90_convert demoUnits hT (Demo.model 2)
  obtain ⟨sm, s', h, hl⟩ := C40_ekf_returns (Demo.model 2) (fun _ _ => PosDef.one) PosDef.one [Demo.both, Demo.half, Demo.none] (by simp) Demo.ekf
    PosSemidef.one
  have := C90_ekf_smooth demoUnits hM hM' hT (fun j => (demoUnits_pos j).ne') [Demo.both, Demo.half, Demo.none] Demo.ekf
    { Demo.ekf with x := demoUnits.state Demo.ekf.x, Px := demoUnits.cov Demo.ekf.Px } ⟨rfl, rfl, rfl⟩
  rw [h] at this
  cases e : (EKF.cls M').smooth ([Demo.both, Demo.half, Demo.none].map demoUnits.row)
    { Demo.ekf with x := demoUnits.state Demo.ekf.x, Px := demoUnits.cov Demo.ekf.Px } with
  | error err => rw [e] at this; exact this.elim
  | ok r =>
    rw [e] at this
    obtain ⟨sm', t'⟩ := r
    obtain ⟨rfl, -⟩ := this
    exact ⟨M', sm, s', t', hM, h, e, hl⟩

/-- The merit of the unscented filter: for each sample, minus log 2 for the first output and minus log 3 for the second, if it is there. -/
example : ∃ (put : UT 1) (M' : KModel 1 (Fin 2) (Fin 1)) (L : ℝ) (s' t' : UKF 1 put.nsigma put.nsigma (Fin 2) (Fin 1)), UT.init 1 .cholesky (1 : ℝ) = .ok put ∧
    demoUnits.Converts (Demo.model 2) M' ∧ (UKF.cls put put (Demo.model 2)).pemMerit [Demo.both, Demo.none] (Demo.ukf put.nsigma put.nsigma) = .ok (L, s') ∧
    (UKF.cls put put M').pemMerit [demoUnits.row Demo.both, demoUnits.row Demo.none]
      { Demo.ukf put.nsigma put.nsigma with x := demoUnits.state (Demo.ukf put.nsigma put.nsigma).x, Px := demoUnits.cov (Demo.ukf put.nsigma put.nsigma).Px } =
        .ok (L - (Real.log 2 + Real.log 3), t') := by
  obtain ⟨put, hi⟩ := Demo.exists_ut
  have hk : (0 : ℝ) < ((1 : ℕ) : ℝ) + 1 := by norm_num
  obtain ⟨M', hM, -⟩ := C90_convert demoUnits (by simp [demoUnits]) (Demo.model 2)
  obtain ⟨ms, s'', h1⟩ := (C43_returns (demo_affine 2) hi hi hk hk (fun _ _ => ⟨PosDef.one, PosDef.one⟩) PosDef.one
    [Demo.both, Demo.none] (Demo.ukf put.nsigma put.nsigma) ⟨PosDef.one, PosDef.one⟩).1
  obtain ⟨L, s', h2, -⟩ := C48_ukf_returns_partial put put (Demo.model 2) transpose_one _ _ _ _ h1
  have := C90_ukf_merit demoUnits hi hi hM (d := fun _ => 3) rfl (fun _ => by norm_num) demoUnits_pos [Demo.both, Demo.none] (Demo.ukf put.nsigma put.nsigma)
    { Demo.ukf put.nsigma put.nsigma with x := demoUnits.state (Demo.ukf put.nsigma put.nsigma).x, Px := demoUnits.cov (Demo.ukf put.nsigma put.nsigma).Px }
    ⟨rfl, rfl, rfl⟩ rfl
  rw [h2] at this
  cases e : (UKF.cls put put M').pemMerit ([Demo.both, Demo.none].map demoUnits.row)
      { Demo.ukf put.nsigma put.nsigma with x := demoUnits.state (Demo.ukf put.nsigma put.nsigma).x, Px := demoUnits.cov (Demo.ukf put.nsigma put.nsigma).Px } with
  | error err => rw [e] at this; exact this.elim
  | ok r =>
    rw [e] at this
    obtain ⟨L', t'⟩ := r
    have hv : ([Demo.both, Demo.none].map demoUnits.logVolume).sum = Real.log 2 + Real.log 3 := by
      simp [Units.logVolume, Demo.both, Demo.none, demoUnits, Fin.sum_univ_two]
      norm_num
    have this : L' = L - ([Demo.both, Demo.none].map demoUnits.logVolume).sum := this
    rw [hv] at this
    subst this
    exact ⟨put, M', L, s', t', hi, hM, h2, e⟩

/-! ### The unscented filter in general coordinates

Only diagonal changes are harmless: its sigma points depend on the order of the states. -/

namespace Swapped

/-- Exchanges the two states. -/
def units : Units 2 (Fin 0) := ⟨!![0, 1; 1, 0], 0, fun _ => 1, fun _ => 0⟩

/-- Only the first state changes: to its fourth power. -/
def model : KModel 2 (Fin 0) (Fin 0) where
  f _ x := ![x 0 ^ 4, 0]
  h _ _ := fun j => j.elim0
  Q _ _ := 0
  R := 0
  df_dx _ _ := 0
  dh_dx _ _ := 0
  df_dq _ _ := 0
  dh_dq _ _ := 0
  dQ_dq _ _ := 0
  dQ_dx _ _ := 0
  dR_dq := 0
  d2f_dq2 _ _ := 0
  d2f_dx2 _ _ := 0
  d2f_dx_dq _ _ := 0
  d2h_dq2 _ _ := 0
  d2h_dx2 _ _ := 0
  d2h_dx_dq _ _ := 0
  d2Q_dq2 _ _ := 0
  d2Q_dx2 _ _ := 0
  d2Q_dx_dq _ _ := 0
  d2R_dq2 := 0

/-- The same, with the states exchanged. -/
def model' : KModel 2 (Fin 0) (Fin 0) := { model with f := fun _ x => ![0, x 1 ^ 4] }

theorem converts : units.Converts model model' where
  f k x := by
    ext i
    fin_cases i
    · change (0 : ℝ) = units.state ![x 0 ^ 4, 0] 0
      simp [units, Units.state]
    · change (units.state x 1) ^ 4 = units.state ![x 0 ^ 4, 0] 1
      simp [units, Units.state, mulVec, dotProduct, Fin.sum_univ_two]
  h _ _ j := j.elim0
  Q _ _ := by simp [model, model', Units.cov]
  R i := i.elim0

noncomputable def P : Matrix (Fin 2) (Fin 2) ℝ := !![1, 3 / 5; 3 / 5, 1]

theorem cov_P : units.cov P = P := by
  ext i j
  fin_cases i <;> fin_cases j <;> simp [Units.cov, units, P, mul_apply, Fin.sum_univ_two]

theorem chol_P : cholU ((((2 : ℕ) : ℝ) + 0) • P) = .ok !![√2, √2 * (3 / 5); 0, √2 * (4 / 5)] := by
  have h2 : √2 * √2 = 2 := Real.mul_self_sqrt (by norm_num)
  have hs : ((((2 : ℕ) : ℝ) + 0) • P)ᵀ = (((2 : ℕ) : ℝ) + 0) • P := by
    ext i j
    fin_cases i <;> fin_cases j <;> simp [P]
  have : IsChol (lowerSym ((((2 : ℕ) : ℝ) + 0) • P)) !![√2, 0; √2 * (3 / 5), √2 * (4 / 5)] := by
    rw [lowerSym_of_symm hs]
    refine ⟨?_, ?_, ?_⟩
    · intro i j hij
      fin_cases i <;> fin_cases j <;> first | rfl | exact absurd hij (by decide)
    · intro i
      fin_cases i <;> simp
    · ext i j
      fin_cases i <;> fin_cases j <;> simp [P, mul_apply, Fin.sum_univ_two] <;> nlinarith
  unfold cholU
  rw [(npCholesky_ok_iff _ _).2 this]
  refine congrArg Except.ok ?_
  ext i j
  fin_cases i <;> fin_cases j <;> rfl

end Swapped

/-- Exchanging the two states changes what the unscented filter predicts, although it is only another way of writing the model. -/
theorem C90_ukf_counterexample : ∃ (put : UT 2) (s t : UKF 2 put.nsigma put.nsigma (Fin 0) (Fin 0)) (m m' : Moments 2)
    (s' t' : UKF 2 put.nsigma put.nsigma (Fin 0) (Fin 0)), UT.init 2 .cholesky (0 : ℝ) = .ok put ∧ Swapped.units.T.det ≠ 0 ∧
    Swapped.units.Converts Swapped.model Swapped.model' ∧ Swapped.units.Same s.toFilterAttrs t.toFilterAttrs ∧
    UKF.predict put Swapped.model s = .ok (m, s') ∧ UKF.predict put Swapped.model' t = .ok (m', t') ∧ m' ≠ Swapped.units.moments m := by
  obtain ⟨put, hi⟩ : ∃ put, UT.init 2 .cholesky (0 : ℝ) = .ok put := by
    unfold UT.init
    rw [if_neg (by norm_num)]
    exact ⟨_, rfl⟩
  obtain ⟨-, hkap, hkind, hs⟩ := ut_init_ok hi
  let s : UKF 2 put.nsigma put.nsigma (Fin 0) (Fin 0) :=
    { x := 0, Px := Swapped.P, k := 0, L := 0, dL_dq := 0, d2L_dq2 := 0, dx_dq := 0, dPx_dq := 0, d2x_dq2 := 0, d2Px_dq2 := 0 }
  have hsq : put.sqrt ((((2 : ℕ) : ℝ) + put.kappa) • Swapped.P) = .ok !![√2, √2 * (3 / 5); 0, √2 * (4 / 5)] := by
    unfold UT.sqrt
    rw [hkind, hkap]
    exact Swapped.chol_P
  have hr : ∀ f : (Fin 2 → ℝ) → Fin 2 → ℝ, ∃ d, put.transform s.x s.Px f = .ok d := fun f => transform_ok_iff.2 ⟨_, hsq⟩
  obtain ⟨d, hd⟩ := hr (Swapped.model.f s.k)
  obtain ⟨d', hd'⟩ := hr (Swapped.model'.f s.k)
  have hS : ∀ {f : (Fin 2 → ℝ) → Fin 2 → ℝ} {d}, put.transform s.x s.Px f = .ok d → ∀ j, d.mean j =
      ∑ i, 0.5 / 2 * (f (!![√2, √2 * (3 / 5); 0, √2 * (4 / 5)] i) j + f (-(!![√2, √2 * (3 / 5); 0, √2 * (4 / 5)] i)) j) := by
    intro f d hd j
    have hsp := transform_spec hd
    have e : d.S = !![√2, √2 * (3 / 5); 0, √2 * (4 / 5)] := Except.ok.inj (hsp.S.symm.trans hsq)
    have hsg : ∀ k, d.isigma k = UT.spread put.nsigma (fun k => d.S k) k := by
      intro k
      ext l
      rw [hsp.isigma, hsp.idev]
      exact add_zero _
    rw [hsp.mean, Finset.sum_congr rfl fun k _ => by rw [hsg k]]
    have := hs (fun v : Fin 2 → ℝ => f v j) (fun k => d.S k)
    rw [this, e]
    norm_num
  refine ⟨put, s, s, _, _, _, _, hi, ?_, Swapped.converts, ⟨rfl, ?_, Swapped.cov_P.symm⟩, ukf_predict_of s hd, ukf_predict_of s hd', ?_⟩
  · simp [Swapped.units]
  · simp [s, Units.state, Swapped.units]
  · intro h
    have h1 := congrFun (congrArg Prod.fst h) 1
    have e1 : (Swapped.units.state d.mean) 1 = d.mean 0 := by simp [Swapped.units, Units.state, mulVec, dotProduct, Fin.sum_univ_two]
    have h1 : d'.mean 1 = d.mean 0 := h1.trans e1
    rw [hS hd', hS hd] at h1
    have h2 : √2 ^ 2 = 2 := Real.sq_sqrt (by norm_num)
    have h4 : √2 ^ 4 = 4 := by nlinarith
    simp only [Swapped.model, Swapped.model', Fin.sum_univ_two] at h1
    simp at h1
    ring_nf at h1
    nlinarith

end Ceacoest
