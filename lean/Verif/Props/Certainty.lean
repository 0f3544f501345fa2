import Verif.Lemmas.Certainty
import Verif.Lemmas.KalmanPosterior
import Verif.Props.KalmanAffine
import Verif.Props.KalmanPosterior

/-! # C103: the correction is the best linear one, and less noise or more measurements never make it less certain -/

namespace Ceacoest
open Matrix Spec
variable {nx : Nat} {o p : Type} [Fintype o] [LinearOrder o]

/-- **C103** (best). For any model and any mask, the corrected covariance of the extended filter is that of an estimate linear in the unmasked
outputs, and no such estimate has a smaller one. -/
theorem C103_best {M : KModel nx o p} {y : MaskedRow o} {s s' : EKF nx o p} {m : Moments nx} (hs : s.Px.PosSemidef) (hR : M.R.PosSemidef)
    (h : EKF.correct M y s = .ok (m, s')) :
    IsBest y s.Px M.R (of fun j i => M.dh_dx s.k s.x i j) m.2 ∧ ∀ P, IsBest y s.Px M.R (of fun j i => M.dh_dx s.k s.x i j) P → P = m.2 :=
  ⟨ekf_best hs hR h, fun _ hP => psd_antisymm (best_unique hP (ekf_best hs hR h)).1 (best_unique hP (ekf_best hs hR h)).2⟩

theorem covs_eq {ms ms' : List (Moments nx)} (h : List.Forall₂ (fun m m' : Moments nx => (m.2 - m'.2).PosSemidef) ms ms')
    (h' : List.Forall₂ (fun m m' : Moments nx => (m.2 - m'.2).PosSemidef) ms' ms) : ms.map Prod.snd = ms'.map Prod.snd := by
  induction h with
  | nil => rfl
  | cons a _ ih =>
    cases h' with
    | cons b h' => rw [List.map_cons, List.map_cons, psd_antisymm a b, ih h']

/-- The same time, and a covariance that is no smaller. -/
def NoMoreCertain (s t : EKF nx o p) : Prop := s.k = t.k ∧ s.Px.PosSemidef ∧ t.Px.PosSemidef ∧ (s.Px - t.Px).PosSemidef

section
variable {M M' : KModel nx o p} {A : ℤ → Matrix (Fin nx) (Fin nx) ℝ} {C : ℤ → Matrix o (Fin nx) ℝ}

/-- **C103** (correction). -/
theorem C103_correct (hM : NoLessNoise M M' A C) {y y' : MaskedRow o} (hy : Fewer y y') {s t s' t' : EKF nx o p} {m m' : Moments nx}
    (hst : NoMoreCertain s t) (h : EKF.correct M y s = .ok (m, s')) (h' : EKF.correct M' y' t = .ok (m', t')) :
    (m.2 - m'.2).PosSemidef ∧ NoMoreCertain s' t' := by
  obtain ⟨b, c, ha⟩ := hM.affine
  obtain ⟨b', c', ha'⟩ := hM.affine'
  have h1 := ekf_best hst.2.1 hM.Rpsd h
  have h2 := ekf_best hst.2.2.1 hM.Rpsd' h'
  have e1 : (of fun j i => M.dh_dx s.k s.x i j : Matrix o (Fin nx) ℝ) = C s.k := by
    ext j i
    exact ha.dh_dx _ _ _ _
  have e2 : (of fun j i => M'.dh_dx t.k t.x i j : Matrix o (Fin nx) ℝ) = C s.k := by
    ext j i
    rw [hst.1]
    exact ha'.dh_dx _ _ _ _
  rw [e1] at h1
  rw [e2] at h2
  have hm := best_mono hy hst.2.2.2 hM.R h1 h2
  have k1 : s'.k = s.k ∧ s'.Px = m.2 := by
    rcases ekf_correct_cases h with ⟨-, rfl, rfl⟩ | ⟨-, d, -, rfl⟩ <;> exact ⟨rfl, rfl⟩
  have k2 : t'.k = t.k ∧ t'.Px = m'.2 := by
    rcases ekf_correct_cases h' with ⟨-, rfl, rfl⟩ | ⟨-, d, -, rfl⟩ <;> exact ⟨rfl, rfl⟩
  refine ⟨hm, by rw [k1.1, k2.1, hst.1], ?_, ?_, by rwa [k1.2, k2.2]⟩
  · obtain ⟨K, -, e⟩ := h1.2
    rw [k1.2, e]
    exact (psd_conj hst.2.1 _).add (psd_conj hM.Rpsd _)
  · obtain ⟨K, -, e⟩ := h2.2
    rw [k2.2, e]
    exact (psd_conj hst.2.2.1 _).add (psd_conj hM.Rpsd' _)

/-- **C103** (prediction). -/
theorem C103_predict (hM : NoLessNoise M M' A C) {s t s' t' : EKF nx o p} {m m' : Moments nx} (hst : NoMoreCertain s t)
    (h : EKF.predict M s = .ok (m, s')) (h' : EKF.predict M' t = .ok (m', t')) : (m.2 - m'.2).PosSemidef ∧ NoMoreCertain s' t' := by
  obtain ⟨b, c, ha⟩ := hM.affine
  obtain ⟨b', c', ha'⟩ := hM.affine'
  rw [ekf_predict_eq] at h h'
  have e1 : (of (M.df_dx s.k s.x) : Matrix (Fin nx) (Fin nx) ℝ) = (A s.k)ᵀ := by
    ext j i
    exact ha.df_dx _ _ _ _
  have e2 : (of (M'.df_dx t.k t.x) : Matrix (Fin nx) (Fin nx) ℝ) = (A s.k)ᵀ := by
    ext j i
    rw [hst.1]
    exact ha'.df_dx _ _ _ _
  rw [e1] at h
  rw [e2] at h'
  cases h
  cases h'
  have ps : ∀ {P : Matrix (Fin nx) (Fin nx) ℝ}, P.PosSemidef → ((A s.k)ᵀᵀ * (P * (A s.k)ᵀ)).PosSemidef := fun hP => by
    rw [transpose_transpose, ← Matrix.mul_assoc]
    exact psd_conj hP _
  have hm : ((A s.k)ᵀᵀ * (s.Px * (A s.k)ᵀ) + M.Q s.k s.x - ((A s.k)ᵀᵀ * (t.Px * (A s.k)ᵀ) + M'.Q t.k t.x)).PosSemidef := by
    have e : (A s.k)ᵀᵀ * (s.Px * (A s.k)ᵀ) + M.Q s.k s.x - ((A s.k)ᵀᵀ * (t.Px * (A s.k)ᵀ) + M'.Q t.k t.x) =
        (A s.k)ᵀᵀ * ((s.Px - t.Px) * (A s.k)ᵀ) + (M.Q s.k s.x - M'.Q s.k t.x) := by
      rw [Matrix.sub_mul, Matrix.mul_sub, hst.1]
      abel
    rw [e]
    exact (ps hst.2.2.2).add (hM.Q _ _ _)
  exact ⟨hm, congrArg (· + 1) hst.1, (ps hst.2.1).add (hM.Qpsd _ _), (ps hst.2.2.1).add (hM.Qpsd' _ _), hm⟩

/-- **C103** (history). After the same calls, in any order, the filter with more noise, fewer measurements and a less certain start is no more
certain, whatever the data and the constant terms of the models. -/
theorem C103_history (hM : NoLessNoise M M' A C) {cs cs' : List (Option (MaskedRow o))} (hc : FewerCalls cs cs') {s t s' t' : EKF nx o p}
    (hst : NoMoreCertain s t) (h : history (EKF.correct M) (EKF.predict M) cs s = .ok s') (h' : history (EKF.correct M') (EKF.predict M') cs' t = .ok t') :
    NoMoreCertain s' t' := by
  induction hc generalizing s t with
  | nil => cases h; cases h'; exact hst
  | @cons c c' cs cs' hcc hc ih =>
    match c, c', hcc with
    | none, none, _ =>
      obtain ⟨⟨m, s₁⟩, h1, h⟩ := py_bind_eq_ok h
      obtain ⟨⟨m', t₁⟩, h1', h'⟩ := py_bind_eq_ok h'
      exact ih (C103_predict hM hst h1 h1').2 h h'
    | some y, some y', hy =>
      obtain ⟨⟨m, s₁⟩, h1, h⟩ := py_bind_eq_ok h
      obtain ⟨⟨m', t₁⟩, h1', h'⟩ := py_bind_eq_ok h'
      exact ih (C103_correct hM hy hst h1 h1').2 h h'

/-- **C103** (filter). -/
theorem C103_filter (hM : NoLessNoise M M' A C) {ys ys' : List (MaskedRow o)} (hy : List.Forall₂ Fewer ys ys') {s t s' t' : EKF nx o p}
    {ms ms' : List (Moments nx)} (hst : NoMoreCertain s t) (h : (EKF.cls M).filter ys s = .ok (ms, s')) (h' : (EKF.cls M').filter ys' t = .ok (ms', t')) :
    List.Forall₂ (fun m m' => (m.2 - m'.2).PosSemidef) ms ms' := by
  rw [filter_eq] at h h'
  induction hy generalizing s t ms ms' with
  | nil => cases h; cases h'; exact .nil
  | @cons y y' ys ys' hyy hy ih =>
    cases hy with
    | nil =>
      obtain ⟨⟨m, s₁⟩, h1, h⟩ := py_bind_eq_ok h
      obtain ⟨⟨m', t₁⟩, h1', h'⟩ := py_bind_eq_ok h'
      cases h
      cases h'
      exact .cons (C103_correct hM hyy hst h1 h1').1 .nil
    | cons hzz hz =>
      obtain ⟨m, s₁, pr, s₂, ms₁, h1, h2, h3, rfl⟩ := schedule_cons h
      obtain ⟨m', t₁, pr', t₂, ms₁', h1', h2', h3', rfl⟩ := schedule_cons h'
      have hc := C103_correct hM hyy hst h1 h1'
      exact .cons hc.1 (ih (C103_predict hM hc.2 h2 h2').2 h3 h3')

/-- **C103** (unscented). The same for unscented filters, of any transforms with weights that sum positively. -/
theorem C103_ukf (hM : NoLessNoise M M' A C) {kind kind' kind₁ kind₁' : SqrtKind (Fin nx)} {kappa kappa' kappa₁ kappa₁' : ℝ} {put cut put₁ cut₁ : UT nx}
    (hput : UT.init nx kind kappa = .ok put) (hcut : UT.init nx kind' kappa' = .ok cut) (hput₁ : UT.init nx kind₁ kappa₁ = .ok put₁)
    (hcut₁ : UT.init nx kind₁' kappa₁' = .ok cut₁) (hk : 0 < (nx : ℝ) + kappa) (hk' : 0 < (nx : ℝ) + kappa') (hk₁ : 0 < (nx : ℝ) + kappa₁)
    (hk₁' : 0 < (nx : ℝ) + kappa₁') (hr : RootOK kind) (hr' : RootOK kind') (hr₁ : RootOK kind₁) (hr₁' : RootOK kind₁')
    {ys ys' : List (MaskedRow o)} (hy : List.Forall₂ Fewer ys ys') {s s' : UKF nx cut.nsigma put.nsigma o p} {t t' : UKF nx cut₁.nsigma put₁.nsigma o p}
    {ms ms' : List (Moments nx)} (hst : s.k = t.k) (hs : s.Px.PosSemidef) (ht : t.Px.PosSemidef) (hP : (s.Px - t.Px).PosSemidef)
    (h : (UKF.cls put cut M).filter ys s = .ok (ms, s')) (h' : (UKF.cls put₁ cut₁ M').filter ys' t = .ok (ms', t')) :
    List.Forall₂ (fun m m' => (m.2 - m'.2).PosSemidef) ms ms' := by
  obtain ⟨b, c, ha⟩ := hM.affine
  obtain ⟨b', c', ha'⟩ := hM.affine'
  obtain ⟨s₁, e, -⟩ := C43_filter ha hput hcut hk hk' hr hr' hM.Qpsd hM.Rpsd ys s s' ⟨s.toFilterAttrs, none, .never⟩ rfl hs ms h
  obtain ⟨t₁, e', -⟩ := C43_filter ha' hput₁ hcut₁ hk₁ hk₁' hr₁ hr₁' hM.Qpsd' hM.Rpsd' ys' t t' ⟨t.toFilterAttrs, none, .never⟩ rfl ht ms' h'
  exact C103_filter hM hy ⟨hst, hs, ht, hP⟩ e e'

/-- **C103** (data). The covariances depend on nothing but what is masked: not on the data, nor on the state, nor on the constant terms. -/
theorem C103_data (hM : NoLessNoise M M' A C) (hM' : NoLessNoise M' M A C) {ys ys' : List (MaskedRow o)}
    (hy : List.Forall₂ (fun y y' => ∀ j, y.mask j = y'.mask j) ys ys') {s t s' t' : EKF nx o p} {ms ms' : List (Moments nx)} (hk : s.k = t.k)
    (hP : s.Px = t.Px) (hs : s.Px.PosSemidef) (h : (EKF.cls M).filter ys s = .ok (ms, s')) (h' : (EKF.cls M').filter ys' t = .ok (ms', t')) :
    ms.map Prod.snd = ms'.map Prod.snd := by
  have h1 := C103_filter hM (hy.imp fun y y' e j hj => (e j).trans hj) ⟨hk, hs, hP ▸ hs, by rw [hP, sub_self]; exact PosSemidef.zero⟩ h h'
  have h2 := C103_filter hM' (List.Forall₂.flip (hy.imp fun y y' e j hj => (e j).symm.trans hj)) ⟨hk.symm, hP ▸ hs, hs, by rw [hP, sub_self]; exact PosSemidef.zero⟩ h' h
  exact covs_eq h1 h2

end

/-- The extended filter returns. -/
theorem ekf_filter_returns (M : KModel nx o p) (hQ : ∀ k x, (M.Q k x).PosSemidef) (hR : M.R.PosDef) (ys : List (MaskedRow o)) (s : EKF nx o p)
    (hs : s.Px.PosSemidef) : ∃ ms s', (EKF.cls M).filter ys s = .ok (ms, s') := by
  rw [filter_eq]
  have hc : ∀ y (s : EKF nx o p), s.Px.PosSemidef → ∃ m s', (EKF.cls M).correct y s = .ok (m, s') ∧ s'.Px.PosSemidef := fun y s hs => by
    obtain ⟨s', h, hP⟩ := C36_ekf_returns M hQ hR [some y] s hs
    obtain ⟨⟨m, s₁⟩, h1, h2⟩ := py_bind_eq_ok h
    injection h2 with h2
    subst h2
    exact ⟨m, s₁, h1, hP⟩
  induction ys generalizing s with
  | nil => exact ⟨_, _, rfl⟩
  | cons y ys ih =>
    obtain ⟨m, s₁, h1, hs₁⟩ := hc y s hs
    cases ys with
    | nil => exact ⟨[m], s₁, by rw [schedule, h1]; rfl⟩
    | cons z ys =>
      obtain ⟨s₂, h2, hs₂⟩ := C36_ekf_returns M hQ hR [none] s₁ hs₁
      obtain ⟨⟨pr, s₃⟩, h2', h3⟩ := py_bind_eq_ok h2
      injection h3 with h3
      subst h3
      obtain ⟨ms, s', h⟩ := ih s₃ hs₂
      refine ⟨m :: ms, s', ?_⟩
      rw [schedule, h1, py_bind_ok]
      dsimp only
      have h2 : (EKF.cls M).predict s₁ = .ok (pr, s₃) := h2'
      rw [h2, py_bind_ok]
      dsimp only
      rw [h]
      rfl

/-! ### Only for affine models -/

theorem core_gain {a : Type} [Fintype a] [LinearOrder a] {x : Fin nx → ℝ} {Px : Matrix (Fin nx) (Fin nx) ℝ} {e : a → ℝ} {C : Matrix (Fin nx) a ℝ}
    {S : Matrix a a ℝ} {m : Moments nx} {d : CorrData nx a} (h : CoreSpec x Px e C S m d) :
    S.det ≠ 0 ∧ d.K * S = C ∧ m.1 = x + d.K *ᵥ e ∧ m.2 = Px - C * d.Kᵀ := by
  have hK : C * S⁻¹ * S = C := by rw [Matrix.mul_assoc, nonsing_inv_mul _ (isUnit_iff_ne_zero.2 h.det), Matrix.mul_one]
  refine ⟨h.det, by rw [h.K, hK], by rw [h.K, h.mean], by rw [h.cov, hK, h.K]⟩

/-- One state and one unmasked output. -/
theorem ekf_scalar {M : KModel 1 (Fin 1) p} {y : MaskedRow (Fin 1)} {s s' : EKF 1 (Fin 1) p} {m : Moments 1} (hy : y.mask 0 = false)
    (h : EKF.correct M y s = .ok (m, s')) : ∃ S, S = M.dh_dx s.k s.x 0 0 ^ 2 * s.Px 0 0 + M.R 0 0 ∧ S ≠ 0 ∧ s' = { s with x := m.1, Px := m.2, last := s'.last } ∧
      m.1 0 = s.x 0 + s.Px 0 0 * M.dh_dx s.k s.x 0 0 / S * (y.data 0 - M.h s.k s.x 0) ∧
      m.2 0 0 = s.Px 0 0 - (s.Px 0 0 * M.dh_dx s.k s.x 0 0) ^ 2 / S := by
  rcases ekf_correct_cases h with ⟨h0, -⟩ | ⟨-, d, hd, rfl⟩
  · exact absurd (h0 0) (by rw [hy]; decide)
  let a : y.Active := ⟨0, hy⟩
  haveI : Subsingleton y.Active := ⟨fun i j => Subtype.ext (Subsingleton.elim _ _)⟩
  have hc := ekf_core_ok hd
  generalize hH : activeH y (M.dh_dx s.k s.x) = H at hc
  have hH0 : H 0 a = M.dh_dx s.k s.x 0 0 := by rw [← hH]; rfl
  have hS0 : (Hᵀ * (s.Px * H) + activeR y M.R) a a = M.dh_dx s.k s.x 0 0 ^ 2 * s.Px 0 0 + M.R 0 0 := by
    rw [Matrix.add_apply, mul_apply, Fin.sum_univ_one, mul_apply, Fin.sum_univ_one, transpose_apply, hH0]
    change _ + M.R 0 0 = _
    ring
  obtain ⟨hdet, hK, hm, hP⟩ := core_gain hc
  have hdet : M.dh_dx s.k s.x 0 0 ^ 2 * s.Px 0 0 + M.R 0 0 ≠ 0 := fun h0 => hdet (by
    rw [← hS0] at h0
    rw [← h0]
    convert det_eq_elem_of_subsingleton (Hᵀ * (s.Px * H) + activeR y M.R) a)
  generalize d.K = K at hm hP hK
  have hPH : (s.Px * H) 0 a = s.Px 0 0 * M.dh_dx s.k s.x 0 0 := by rw [mul_apply, Fin.sum_univ_one, hH0]
  have hK0 : K 0 a = s.Px 0 0 * M.dh_dx s.k s.x 0 0 / (M.dh_dx s.k s.x 0 0 ^ 2 * s.Px 0 0 + M.R 0 0) := by
    have := congrFun (congrFun hK 0) a
    rw [mul_apply, Fintype.sum_subsingleton _ a, hS0, hPH] at this
    exact eq_div_of_mul_eq hdet this
  refine ⟨_, rfl, hdet, rfl, ?_, ?_⟩
  · rw [hm, Pi.add_apply, mulVec, dotProduct, Fintype.sum_subsingleton _ a, hK0]
    rfl
  · rw [hP, Matrix.sub_apply, mul_apply, Fintype.sum_subsingleton _ a, hPH, transpose_apply, hK0]
    ring

namespace Certainty

/-- Measure the state itself, and later its square; the second measurement tells nothing near zero. -/
noncomputable def square : KModel 1 (Fin 1) (Fin 0) where
  f _ x := x
  h k x _ := if k = 0 then x 0 else x 0 ^ 2
  Q _ _ := 0
  R := 1
  df_dx _ _ := 1
  dh_dx k x _ _ := if k = 0 then 1 else 2 * x 0
  df_dq _ _ := 0
  dh_dq _ _ := 0
  dQ_dq _ _ := 0
  dQ_dx _ _ := 0
  dR_dq _ := 0
  d2f_dq2 _ _ := 0
  d2f_dx2 _ _ := 0
  d2f_dx_dq _ _ := 0
  d2h_dq2 _ _ := 0
  d2h_dx2 k _ _ _ _ := if k = 0 then 0 else 2
  d2h_dx_dq _ _ := 0
  d2Q_dq2 _ _ := 0
  d2Q_dx2 _ _ := 0
  d2Q_dx_dq _ _ := 0
  d2R_dq2 _ _ := 0

noncomputable def start : EKF 1 (Fin 1) (Fin 0) := { x := fun _ => 1, Px := 1, k := 0, L := 0, dL_dq := 0, d2L_dq2 := 0, dx_dq := 0, dPx_dq := 0, d2x_dq2 := 0, d2Px_dq2 := 0 }

def row (y : ℝ) : MaskedRow (Fin 1) := ⟨fun _ => y, fun _ => false⟩

def masked : MaskedRow (Fin 1) := ⟨fun _ => 0, fun _ => true⟩

theorem square_predict {s s' : EKF 1 (Fin 1) (Fin 0)} {m : Moments 1} (h : (EKF.cls square).predict s = .ok (m, s')) :
    s'.k = s.k + 1 ∧ s'.x = s.x ∧ s'.Px 0 0 = s.Px 0 0 := by
  have h : EKF.predict square s = .ok (m, s') := h
  rw [ekf_predict_eq] at h
  cases h
  refine ⟨rfl, rfl, ?_⟩
  dsimp only
  rw [Matrix.add_apply, mul_apply, Fin.sum_univ_one, mul_apply, Fin.sum_univ_one, transpose_apply]
  change 1 * (s.Px 0 0 * 1) + 0 = _
  ring

/-- The later square moves no estimate at zero: the variance stays a half. -/
theorem more {ms : List (Moments 1)} {s' : EKF 1 (Fin 1) (Fin 0)} (h : (EKF.cls square).filter [row (-1), row 0] start = .ok (ms, s')) :
    ∃ m m', ms = [m, m'] ∧ m'.2 0 0 = 1 / 2 := by
  rw [filter_eq] at h
  obtain ⟨m, s₁, pr, s₂, ms₁, h1, h2, h3, rfl⟩ := schedule_cons h
  obtain ⟨⟨m', s₃⟩, h4, h3⟩ := py_bind_eq_ok h3
  cases h3
  obtain ⟨S, hS, -, e1, hx, hP⟩ := ekf_scalar (M := square) (y := row (-1)) rfl h1
  simp only [square, start, row, Matrix.one_apply_eq, if_true] at hS hx hP
  norm_num at hS
  subst hS
  norm_num at hx hP
  obtain ⟨k2, x2, P2⟩ := square_predict h2
  obtain ⟨S, hS, -, -, -, hP'⟩ := ekf_scalar (M := square) (y := row 0) rfl h4
  refine ⟨m, m', rfl, ?_⟩
  rw [x2, P2, k2, e1] at hP'
  simp only [square, hx, hP, start] at hP'
  norm_num at hP'
  rw [hP']

/-- Without the first measurement it is a fifth. -/
theorem fewer {ms : List (Moments 1)} {s' : EKF 1 (Fin 1) (Fin 0)} (h : (EKF.cls square).filter [masked, row 0] start = .ok (ms, s')) :
    ∃ m m', ms = [m, m'] ∧ m'.2 0 0 = 1 / 5 := by
  rw [filter_eq] at h
  obtain ⟨m, s₁, pr, s₂, ms₁, h1, h2, h3, rfl⟩ := schedule_cons h
  obtain ⟨⟨m', s₃⟩, h4, h3⟩ := py_bind_eq_ok h3
  cases h3
  have e1 : EKF.correct square masked start = .ok (m, s₁) := h1
  rw [ekf_correct_masked square (fun _ => rfl)] at e1
  cases e1
  obtain ⟨k2, x2, P2⟩ := square_predict h2
  obtain ⟨S, hS, -, -, -, hP'⟩ := ekf_scalar (M := square) (y := row 0) rfl h4
  refine ⟨_, m', rfl, ?_⟩
  rw [x2, P2, k2] at hP' hS
  simp only [square, start, Matrix.one_apply_eq] at hP' hS
  norm_num at hP' hS
  rw [hP', hS]
  norm_num

end Certainty

/-- **C103** (nonlinear). For nonlinear models one more measurement can leave the extended filter less certain. -/
theorem C103_nonlinear : ∃ (M : KModel 1 (Fin 1) (Fin 0)) (ys ys' : List (MaskedRow (Fin 1))) (s : EKF 1 (Fin 1) (Fin 0)) (ms ms' : List (Moments 1))
    (s' t' : EKF 1 (Fin 1) (Fin 0)) (m m' : Moments 1), List.Forall₂ Fewer ys ys' ∧ s.Px.PosDef ∧ (∀ k x, (M.Q k x).PosSemidef) ∧ M.R.PosDef ∧
      (EKF.cls M).filter ys s = .ok (ms, s') ∧ (EKF.cls M).filter ys' s = .ok (ms', t') ∧ ms[1]? = some m ∧ ms'[1]? = some m' ∧ m.2 0 0 < m'.2 0 0 := by
  have hr : ∀ ys, ∃ ms s', (EKF.cls Certainty.square).filter ys Certainty.start = .ok (ms, s') := fun ys =>
    ekf_filter_returns Certainty.square (fun _ _ => PosSemidef.zero) PosDef.one ys Certainty.start PosSemidef.one
  obtain ⟨ms, s', h⟩ := hr [Certainty.masked, Certainty.row 0]
  obtain ⟨ms', t', h'⟩ := hr [Certainty.row (-1), Certainty.row 0]
  obtain ⟨a, b, rfl, hb⟩ := Certainty.fewer h
  obtain ⟨a', b', rfl, hb'⟩ := Certainty.more h'
  refine ⟨Certainty.square, _, _, Certainty.start, _, _, s', t', b, b', ?_, PosDef.one, fun _ _ => PosSemidef.zero, PosDef.one, h, h', rfl, rfl, ?_⟩
  · exact .cons (fun _ h => by cases h) (.cons (fun _ h => h) .nil)
  · rw [hb, hb']
    norm_num

/-! ### Examples -/

/-- The demonstration model with more noise. -/
noncomputable def Demo.noisy : KModel 1 (Fin 2) (Fin 1) := { Demo.model 2 with Q := fun _ _ => 3, R := 2 }

theorem demo_noise : NoLessNoise Demo.noisy (Demo.model 2) (fun _ => of fun _ _ => 2) (fun _ => of fun _ _ => 1) := by
  have h2 : ∀ n : Type, ∀ [Fintype n] [DecidableEq n], (2 : Matrix n n ℝ).PosSemidef := fun n _ _ => by
    have := (PosSemidef.one (n := n) (R := ℝ)).add PosSemidef.one
    rwa [one_add_one_eq_two] at this
  refine ⟨⟨0, 0, ?_⟩, ⟨0, 0, demo_affine 2⟩, fun _ _ _ => ?_, fun _ _ => ?_, fun _ _ => PosSemidef.one, ?_, h2 _, PosSemidef.one⟩
  · have := demo_affine 2
    exact ⟨this.f, this.df_dx, this.h, this.dh_dx⟩
  · change (3 - 1 : Matrix (Fin 1) (Fin 1) ℝ).PosSemidef
    rw [show (3 - 1 : Matrix (Fin 1) (Fin 1) ℝ) = 2 by norm_num]
    exact h2 _
  · change (3 : Matrix (Fin 1) (Fin 1) ℝ).PosSemidef
    rw [← two_add_one_eq_three]
    exact (h2 _).add PosSemidef.one
  · change (2 - 1 : Matrix (Fin 2) (Fin 2) ℝ).PosSemidef
    rw [show (2 - 1 : Matrix (Fin 2) (Fin 2) ℝ) = 1 by norm_num]
    exact PosSemidef.one

/-- Half of a row, then nothing, with noise; and everything, then half, without. -/
example : ∃ s' t', history (EKF.correct Demo.noisy) (EKF.predict Demo.noisy) [some Demo.half, none, some Demo.none, none] Demo.ekf = .ok s' ∧
    history (EKF.correct (Demo.model 2)) (EKF.predict (Demo.model 2)) [some Demo.both, none, some Demo.half, none] Demo.ekf = .ok t' ∧ NoMoreCertain s' t' := by
  have hR : Demo.noisy.R.PosDef := by
    have := (PosDef.one (n := Fin 2) (R := ℝ)).add PosDef.one
    rwa [one_add_one_eq_two] at this
  obtain ⟨s', h, -⟩ := C36_ekf_returns Demo.noisy demo_noise.Qpsd hR [some Demo.half, none, some Demo.none, none] Demo.ekf PosSemidef.one
  obtain ⟨t', h', -⟩ := C36_ekf_returns (Demo.model 2) demo_noise.Qpsd' PosDef.one [some Demo.both, none, some Demo.half, none] Demo.ekf PosSemidef.one
  refine ⟨s', t', h, h', C103_history demo_noise ?_ ⟨rfl, PosSemidef.one, PosSemidef.one, by rw [sub_self]; exact PosSemidef.zero⟩ h h'⟩
  refine .cons (fun j hj => ?_) (.cons trivial (.cons (fun j hj => Demo.none_masked j) (.cons trivial .nil)))
  fin_cases j <;> cases hj

end Ceacoest
