import Verif.Lemmas.Sequential
import Verif.Props.KalmanSteps
import Verif.Props.KalmanMerit
import Verif.Props.KalmanPosterior

/-! # C105: measurements with uncorrelated noise may be corrected one part at a time, in any order -/

namespace Ceacoest
open Matrix Spec
variable {nx : Nat} {o p : Type} [Fintype o] [LinearOrder o]

/-- The moments that a filter has. -/
def EKF.moments (s : EKF nx o p) : Moments nx := (s.x, s.Px)

theorem ekf_correct_attrs {M : KModel nx o p} {y : MaskedRow o} {s s' : EKF nx o p} {m : Moments nx} (h : EKF.correct M y s = .ok (m, s')) :
    s'.toFilterAttrs = { s.toFilterAttrs with x := m.1, Px := m.2 } ∧ s'.Pxf = s.Pxf := by
  rcases ekf_correct_cases h with ⟨-, rfl, rfl⟩ | ⟨-, d, -, rfl⟩ <;> exact ⟨rfl, rfl⟩

theorem normal_symm {y : MaskedRow o} {P : Matrix (Fin nx) (Fin nx) ℝ} {R : Matrix o o ℝ} {C : Matrix o (Fin nx) ℝ} {K : Matrix (Fin nx) o ℝ}
    (hP : Pᵀ = P) (hR : Rᵀ = R) (h : Normal y P R C K) : (P - K * C * P)ᵀ = P - K * C * P := by
  have e : P * Cᵀ * Kᵀ = K * (C * P * Cᵀ + R) * Kᵀ := by
    ext i l
    rw [mul_apply, mul_apply]
    refine Finset.sum_congr rfl fun j _ => ?_
    by_cases hj : y.mask j = false
    · rw [h.2 i j hj]
    · rw [transpose_apply, h.1 l j (by simpa using hj), mul_zero, mul_zero]
  have e1 : (K * C * P)ᵀ = P * Cᵀ * Kᵀ := by rw [transpose_mul, transpose_mul, hP, Matrix.mul_assoc]
  have e2 : (K * C * P)ᵀᵀ = (K * C * P)ᵀ := by
    rw [e1, e, transpose_mul, transpose_mul, transpose_transpose, transpose_add, hR, transpose_mul, transpose_mul, transpose_transpose, hP]
    simp only [Matrix.mul_assoc]
  rw [transpose_sub, hP, ← e2, transpose_transpose]

section
variable {M : KModel nx o p}

/-- Two parts. -/
theorem correct_two {y y1 y2 : MaskedRow o} {s s1 s2 : EKF nx o p} {m1 m2 : Moments nx} {C : Matrix o (Fin nx) ℝ} {c : o → ℝ}
    (hM : AffineOutputs M s.k C c) (hP : s.Pxᵀ = s.Px) (hR : M.Rᵀ = M.R) (hy : Parts M.R y [y1, y2])
    (h1 : EKF.correct M y1 s = .ok (m1, s1)) (h2 : EKF.correct M y2 s1 = .ok (m2, s2)) :
    ∃ s', EKF.correct M y s = .ok (m2, s') ∧ s'.toFilterAttrs = s2.toFilterAttrs ∧ s'.Pxf = s2.Pxf := by
  obtain ⟨a1, b1⟩ := ekf_correct_attrs h1
  obtain ⟨a2, b2⟩ := ekf_correct_attrs h2
  have hk1 : s1.k = s.k := (congrArg FilterAttrs.k a1 :)
  have hx1 : s1.x = m1.1 := congrArg FilterAttrs.x a1
  have hP1 : s1.Px = m1.2 := congrArg FilterAttrs.Px a1
  have hC : ∀ x, (of fun j i => M.dh_dx s.k x i j : Matrix o (Fin nx) ℝ) = C := fun x => by
    ext j i
    exact hM.dh_dx x i j
  obtain ⟨r1, K1, n1, e1, f1⟩ := correct_normal hP hR h1
  rw [hC] at r1 n1 f1
  have hP1' : s1.Pxᵀ = s1.Px := by
    rw [hP1, f1]
    exact normal_symm hP hR n1
  obtain ⟨r2, K2, n2, e2, f2⟩ := correct_normal hP1' hR h2
  rw [hk1, hC] at r2 n2 f2
  have hmask : ∀ j, y.mask j = false ↔ y1.mask j = false ∨ y2.mask j = false := fun j => by
    rw [hy.mask]
    simp
  have hnoise : ∀ i j, y1.mask i = false → y2.mask j = false → M.R i j = 0 := by
    have := hy.noise
    simp only [List.pairwise_cons, List.mem_singleton, forall_eq] at this
    exact this.1
  have hd1 : K1 *ᵥ (y1.data - M.h s.k s.x) = K1 *ᵥ (y.data - M.h s.k s.x) := by
    funext i
    rw [mulVec, mulVec, dotProduct, dotProduct]
    refine Finset.sum_congr rfl fun j _ => ?_
    by_cases hj : y1.mask j = false
    · rw [Pi.sub_apply, Pi.sub_apply, hy.data y1 (by simp) j hj]
    · rw [n1.1 i j (by simpa using hj), zero_mul, zero_mul]
  have hd2 : K2 *ᵥ (y2.data - M.h s.k s1.x) = K2 *ᵥ (y.data - M.h s.k s1.x) := by
    funext i
    rw [mulVec, mulVec, dotProduct, dotProduct]
    refine Finset.sum_congr rfl fun j _ => ?_
    by_cases hj : y2.mask j = false
    · rw [Pi.sub_apply, Pi.sub_apply, hy.data y2 (by simp) j hj]
    · rw [n2.1 i j (by simpa using hj), zero_mul, zero_mul]
  have hp := hP1.trans f1
  have n := normal_combine hmask hnoise hR n1 hp n2
  have r := regular_combine hmask hnoise hR n1 r1 hp r2
  rw [← hC s.x] at r n
  obtain ⟨s', h⟩ := correct_of_normal hP hR r n
  rw [hC] at h
  have em : s.x + ((1 - K2 * C) * K1 + K2) *ᵥ (y.data - M.h s.k s.x) = m2.1 := by
    rw [e2, hk1, hd2, hx1, e1, hd1, hM.h, hM.h]
    simp only [add_mulVec, Matrix.sub_mul, sub_mulVec, Matrix.one_mul, mulVec_add, mulVec_sub, ← mulVec_mulVec]
    abel
  have eP : s.Px - ((1 - K2 * C) * K1 + K2) * C * s.Px = m2.2 := by
    rw [f2, hp]
    simp only [Matrix.add_mul, Matrix.mul_add, Matrix.sub_mul, Matrix.mul_sub, Matrix.one_mul, Matrix.mul_assoc]
    abel
  rw [em, eP] at h
  obtain ⟨a, b⟩ := ekf_correct_attrs h
  refine ⟨s', h, ?_, by rw [b, b2, b1]⟩
  rw [a, a2, a1]

/-- The entries of all rows, with the data of `y`. -/
def MaskedRow.only (y : MaskedRow o) (ys : List (MaskedRow o)) : MaskedRow o := ⟨y.data, fun j => ys.all fun r => r.mask j⟩

theorem only_mask (y : MaskedRow o) (ys : List (MaskedRow o)) (j : o) : (y.only ys).mask j = false ↔ ∃ r ∈ ys, r.mask j = false := by
  rw [MaskedRow.only, List.all_eq_false]
  simp

theorem parts_tail {R : Matrix o o ℝ} {y r : MaskedRow o} {ys : List (MaskedRow o)} (h : Parts R y (r :: ys)) : Parts R (y.only ys) ys where
  data a ha j hj := h.data a (List.mem_cons_of_mem _ ha) j hj
  mask j := only_mask y ys j
  noise := (List.pairwise_cons.1 h.noise).2

theorem parts_head {R : Matrix o o ℝ} {y r : MaskedRow o} {ys : List (MaskedRow o)} (h : Parts R y (r :: ys)) : Parts R y [r, y.only ys] where
  data a ha j hj := by
    rw [List.mem_cons, List.mem_singleton] at ha
    rcases ha with rfl | rfl
    · exact h.data _ List.mem_cons_self j hj
    · rfl
  mask j := by
    rw [h.mask]
    simp only [List.mem_cons, exists_eq_or_imp, List.not_mem_nil, false_and, exists_false, or_false, only_mask, exists_eq_left]
  noise := by
    rw [List.pairwise_cons, List.pairwise_cons]
    refine ⟨fun a ha i j hi hj => ?_, fun _ h => absurd h List.not_mem_nil, .nil⟩
    rw [List.mem_singleton] at ha
    subst ha
    obtain ⟨q, hq, hj⟩ := (only_mask y ys j).1 hj
    exact (List.pairwise_cons.1 h.noise).1 q hq i j hi hj

/-- **C105** (parts). If the outputs are affine and the noises of the parts uncorrelated, correcting with each part in turn is correcting with all
at once: when the first returns so does the second, with the same moments and attributes. -/
theorem C105_parts {y : MaskedRow o} {ys : List (MaskedRow o)} {s s2 : EKF nx o p} {m : Moments nx} {C : Matrix o (Fin nx) ℝ} {c : o → ℝ}
    (hM : AffineOutputs M s.k C c) (hP : s.Pxᵀ = s.Px) (hR : M.Rᵀ = M.R) (hy : Parts M.R y ys)
    (h : corrections (EKF.correct M) EKF.moments ys s = .ok (m, s2)) :
    ∃ s', EKF.correct M y s = .ok (m, s') ∧ s'.toFilterAttrs = s2.toFilterAttrs ∧ s'.Pxf = s2.Pxf := by
  induction ys generalizing y s with
  | nil =>
    cases h
    refine ⟨_, ekf_correct_masked M (fun j => ?_) _, rfl, rfl⟩
    by_contra hj
    obtain ⟨r, hr, -⟩ := (hy.mask j).1 (by simpa using hj)
    cases hr
  | cons r ys ih =>
    obtain ⟨⟨m1, s1⟩, h1, h2⟩ := py_bind_eq_ok h
    have a1 := (ekf_correct_attrs h1).1
    have hk1 : s1.k = s.k := (congrArg FilterAttrs.k a1 :)
    have hP1 : s1.Pxᵀ = s1.Px := by
      obtain ⟨-, K1, n1, -, f1⟩ := correct_normal hP hR h1
      rw [congrArg FilterAttrs.Px a1]
      dsimp only
      rw [f1]
      exact normal_symm hP hR n1
    obtain ⟨s3, h3, b1, b2⟩ := ih (s := s1) (by rw [hk1]; exact hM) hP1 (parts_tail hy) h2
    obtain ⟨s', h', c1, c2⟩ := correct_two hM hP hR (parts_head hy) h1 h3
    exact ⟨s', h', c1.trans b1, c2.trans b2⟩

/-- With noise in every direction both return. -/
theorem corrections_returns (hR : M.R.PosDef) (ys : List (MaskedRow o)) (s : EKF nx o p) (hs : s.Px.PosSemidef) :
    ∃ m s', corrections (EKF.correct M) EKF.moments ys s = .ok (m, s') := by
  induction ys generalizing s with
  | nil => exact ⟨_, _, rfl⟩
  | cons r ys ih =>
    by_cases hy : ∀ j, r.mask j = true
    · obtain ⟨m, s', h⟩ := ih { s with last := .masked } hs
      refine ⟨m, s', ?_⟩
      rw [corrections, ekf_correct_masked M hy s]
      exact h
    · have hPo : ((activeH r (M.dh_dx s.k s.x))ᵀ * (s.Px * activeH r (M.dh_dx s.k s.x)) + activeR r M.R).PosDef := by
        have h0 := psd_conj hs (activeH r (M.dh_dx s.k s.x))ᵀ
        rw [transpose_transpose, Matrix.mul_assoc] at h0
        exact PosDef.posSemidef_add h0 (activeR_pd r hR)
      obtain ⟨m, d, hd⟩ := ekf_core_of (x := s.x) (y := fun j : r.Active => r.data j.1) (h := fun j => M.h s.k s.x j.1) hPo.det_pos.ne'
      obtain ⟨m', s', h⟩ := ih { s with x := m.1, Px := m.2, last := .data r d } (ekf_correct_psd hs (activeR_psd r hR.posSemidef) (ekf_core_ok hd))
      refine ⟨m', s', ?_⟩
      rw [corrections, ekf_correct_active M hy s, hd]
      exact h

theorem parts_perm {R : Matrix o o ℝ} (hR : Rᵀ = R) {y : MaskedRow o} {ys zs : List (MaskedRow o)} (hp : ys.Perm zs) (h : Parts R y ys) : Parts R y zs where
  data r hr := h.data r (hp.mem_iff.2 hr)
  mask j := by
    rw [h.mask]
    simp only [hp.mem_iff]
  noise := (hp.pairwise_iff fun {a b} hab i j hi hj => by
    rw [← hR]
    exact hab j i hj hi).1 h.noise

/-- **C105** (order). With noise in every direction, the parts may be taken in any order, and all at once. -/
theorem C105_order {y : MaskedRow o} {ys zs : List (MaskedRow o)} (s : EKF nx o p) {C : Matrix o (Fin nx) ℝ} {c : o → ℝ}
    (hM : AffineOutputs M s.k C c) (hP : s.Px.PosSemidef) (hR : M.R.PosDef) (hy : Parts M.R y ys) (hp : ys.Perm zs) :
    ∃ m s0 s1 s2, EKF.correct M y s = .ok (m, s0) ∧ corrections (EKF.correct M) EKF.moments ys s = .ok (m, s1) ∧
      corrections (EKF.correct M) EKF.moments zs s = .ok (m, s2) ∧ s1.toFilterAttrs = s0.toFilterAttrs ∧ s2.toFilterAttrs = s0.toFilterAttrs := by
  have hs := psd_symm hP
  have hr := psd_symm hR.posSemidef
  obtain ⟨m1, s1, h1⟩ := corrections_returns hR ys s hP
  obtain ⟨m2, s2, h2⟩ := corrections_returns hR zs s hP
  obtain ⟨t1, e1, a1, -⟩ := C105_parts hM hs hr hy h1
  obtain ⟨t2, e2, a2, -⟩ := C105_parts hM hs hr (parts_perm hr hp hy) h2
  rw [e1] at e2
  cases e2
  exact ⟨m1, t1, s1, s2, e1, h1, h2, a1.symm, a2.symm⟩

end

/-! ### The unscented filter and the likelihood -/

/-- The moments that a filter has. -/
def UKF.moments {ns ns' : Nat} (s : UKF nx ns ns' o p) : Moments nx := (s.x, s.Px)

/-- Correct, and add to the likelihood. -/
noncomputable def UKF.correctAdd {ns' : Nat} (cut : UT nx) (M : KModel nx o p) (y : MaskedRow o) (s : UKF nx cut.nsigma ns' o p) :
    Py (Moments nx × UKF nx cut.nsigma ns' o p) := do
  let (m, s) ← UKF.correct cut M y s
  let s ← UKF.updateLikelihood s
  return (m, s)

section
variable {M : KModel nx o p} {A : ℤ → Matrix (Fin nx) (Fin nx) ℝ} {b : ℤ → Fin nx → ℝ} {C : ℤ → Matrix o (Fin nx) ℝ} {c : ℤ → o → ℝ}
  {cut : UT nx} {kind' : SqrtKind (Fin nx)} {kappa' : ℝ}

/-- **C105** (unscented). On affine models the unscented filter, too, may correct one part at a time. -/
theorem C105_ukf {ns' : Nat} (hM : AffineModel M A b C c) (hcut : UT.init nx kind' kappa' = .ok cut) (hk : 0 < (nx : ℝ) + kappa') (hr : RootOK kind')
    (hR : M.R.PosSemidef) {y : MaskedRow o} {ys : List (MaskedRow o)} {s s2 s' : UKF nx cut.nsigma ns' o p} {m m' : Moments nx} (hP : s.Px.PosSemidef)
    (hy : Parts M.R y ys) (h : corrections (UKF.correct cut M) UKF.moments ys s = .ok (m, s2)) (h' : UKF.correct cut M y s = .ok (m', s')) :
    m = m' ∧ s2.toFilterAttrs = s'.toFilterAttrs := by
  have sim : ∀ (ys : List (MaskedRow o)) (s : UKF nx cut.nsigma ns' o p) (t : EKF nx o p), Same s t → corrections (UKF.correct cut M) UKF.moments ys s = .ok (m, s2) →
      ∃ t2, corrections (EKF.correct M) EKF.moments ys t = .ok (m, t2) ∧ Same s2 t2 := by
    intro ys
    induction ys with
    | nil =>
      intro s t hst h
      cases h
      refine ⟨t, ?_, hst⟩
      have e := hst.1
      rw [corrections, EKF.moments, UKF.moments, congrArg FilterAttrs.x e, congrArg FilterAttrs.Px e]
    | cons r ys ih =>
      intro s t hst h
      obtain ⟨⟨m1, s1⟩, h1, h2⟩ := py_bind_eq_ok h
      obtain ⟨t1, e1, hs1⟩ := same_correct hM hcut hk hr hR r s t m1 s1 hst h1
      obtain ⟨t2, e2, hs2⟩ := ih s1 t1 hs1 h2
      refine ⟨t2, ?_, hs2⟩
      rw [corrections, e1]
      exact e2
  obtain ⟨t2, h2, hs2⟩ := sim ys s ⟨s.toFilterAttrs, none, .never⟩ ⟨rfl, hP⟩ h
  obtain ⟨t', h3, hs3⟩ := same_correct hM hcut hk hr hR y s ⟨s.toFilterAttrs, none, .never⟩ m' s' ⟨rfl, hP⟩ h'
  obtain ⟨t3, h4, e, -⟩ := C105_parts (C := C s.k) (c := c s.k) ⟨hM.h s.k, hM.dh_dx s.k⟩ (psd_symm hP) (psd_symm hR) hy h2
  rw [h3] at h4
  cases h4
  exact ⟨rfl, by rw [hs2.1, ← e, hs3.1]⟩

theorem meas_parts (hR : M.R.PosDef) {y : MaskedRow o} {ys : List (MaskedRow o)} (hy : Parts M.R y ys) (k : ℤ) (x : Fin nx → ℝ) :
    measDensity M k y x = (ys.map fun r => measDensity M k r x).prod ∧ Fintype.card y.Active = (ys.map fun r => Fintype.card r.Active).sum := by
  induction ys generalizing y with
  | nil =>
    have hempty : IsEmpty y.Active := ⟨fun j => by
      obtain ⟨r, hr, -⟩ := (hy.mask j.1).1 j.2
      cases hr⟩
    exact ⟨by simp [measDensity, gaussian, dotProduct], by simp⟩
  | cons r ys ih =>
    have h2 := parts_head hy
    have hn := h2.noise
    simp only [List.pairwise_cons, List.mem_singleton, forall_eq] at hn
    obtain ⟨a, b⟩ := meas_two hR (y := y) (y1 := r) (y2 := y.only ys) (fun j => by rw [h2.mask]; simp) hn.1
      (fun j hj => h2.data r (by simp) j hj) (fun j hj => rfl) k x
    obtain ⟨a', b'⟩ := ih (parts_tail hy)
    rw [List.map_cons, List.map_cons, List.prod_cons, List.sum_cons, a, b, a', b']
    exact ⟨rfl, rfl⟩

/-- What the corrections make of the density of the state, and what they add to the likelihood. -/
theorem correctAdd_density {ns' : Nat} (hM : GaussModel M A b C c) (hcut : UT.init nx kind' kappa' = .ok cut) (hk : 0 < (nx : ℝ) + kappa') (hr : RootOK kind')
    {ys : List (MaskedRow o)} {s s2 : UKF nx cut.nsigma ns' o p} {m : Moments nx} (hP : s.Px.PosDef)
    (h : corrections (UKF.correctAdd cut M) UKF.moments ys s = .ok (m, s2)) : s2.k = s.k ∧ s2.x = m.1 ∧ s2.Px = m.2 ∧ m.2.PosDef ∧
      ∃ D, 0 < D ∧ s2.L = s.L + (Real.log D + ((ys.map fun r => Fintype.card r.Active).sum : ℝ) / 2 * Real.log (2 * Real.pi)) ∧
        ∀ x, gaussian s.Px (x - s.x) * (ys.map fun r => measDensity M s.k r x).prod = D * gaussian m.2 (x - m.1) := by
  induction ys generalizing s with
  | nil =>
    cases h
    exact ⟨rfl, rfl, rfl, hP, 1, one_pos, by simp, fun x => by simp [UKF.moments]⟩
  | cons r ys ih =>
    obtain ⟨⟨m1, s1⟩, h1, h2⟩ := py_bind_eq_ok h
    obtain ⟨⟨m1', s1'⟩, h1, h3⟩ := py_bind_eq_ok h1
    obtain ⟨s1u, h4, h3⟩ := py_bind_eq_ok h3
    cases h3
    obtain ⟨l, s1t, h5, hp, hL, hc⟩ := contribution (psd_symm hM.Rpd.posSemidef) h1
    rw [h4] at h5
    cases h5
    obtain ⟨t1, e1, hs1⟩ := same_correct hM.toAffineModel hcut hk hr hM.Rpd.posSemidef r s ⟨s.toFilterAttrs, none, .never⟩ m1 s1' ⟨rfl, hP.posSemidef⟩ h1
    obtain ⟨a1, a2, a3, a4, a5⟩ := correct_density hM (s := ⟨s.toFilterAttrs, none, .never⟩) hP e1
    have hl := contribution_affine hM hcut hk hr (m := (s.x, s.Px)) (k := s.k) hP hc
    have b1 : s1.x = m1.1 := ((congrArg (fun q => q.2.1) hp).trans (congrArg FilterAttrs.x hs1.1) :).trans a1
    have b2 : s1.Px = m1.2 := ((congrArg (fun q => q.2.2) hp).trans (congrArg FilterAttrs.Px hs1.1) :).trans a2
    have b3 : s1.k = s.k := ((congrArg (fun q => q.1) hp).trans (congrArg FilterAttrs.k hs1.1) :).trans a3
    obtain ⟨c1, c2, c3, c4, D, hD, c5, c6⟩ := ih (s := s1) (by rw [b2]; exact a4) h2
    have hI := innovDensity_pos hM s.k r (m := (s.x, s.Px)) hP
    refine ⟨c1.trans b3, c2, c3, c4, innovDensity M s.k r (s.x, s.Px) * D, mul_pos hI hD, ?_, fun x => ?_⟩
    · rw [c5, hL, hl, Real.log_mul hI.ne' hD.ne', List.map_cons, List.sum_cons]
      push_cast
      ring
    · have a5 := a5 x
      have c6 := c6 x
      rw [b1, b2, b3] at c6
      rw [List.map_cons, List.prod_cons, ← mul_assoc, a5, mul_assoc, mul_assoc, c6]

/-- **C105** (likelihood). On affine models with normal noise, the unscented filter adds the same to the likelihood, one part at a time or all at once. -/
theorem C105_likelihood {ns' : Nat} (hM : GaussModel M A b C c) (hcut : UT.init nx kind' kappa' = .ok cut) (hk : 0 < (nx : ℝ) + kappa') (hr : RootOK kind')
    {y : MaskedRow o} {ys : List (MaskedRow o)} {s s2 s' : UKF nx cut.nsigma ns' o p} {m m' : Moments nx} (hP : s.Px.PosDef) (hy : Parts M.R y ys)
    (h : corrections (UKF.correctAdd cut M) UKF.moments ys s = .ok (m, s2)) (h' : UKF.correctAdd cut M y s = .ok (m', s')) :
    m = m' ∧ s2.L = s'.L := by
  have h1 : ∃ mm, corrections (UKF.correctAdd cut M) UKF.moments [y] s = .ok (mm, s') := by
    rw [corrections, h']
    exact ⟨_, rfl⟩
  obtain ⟨mm, h1⟩ := h1
  obtain ⟨a1, a2, a3, a4, D, hD, a5, a6⟩ := correctAdd_density hM hcut hk hr hP h
  obtain ⟨b1, b2, b3, b4, E, hE, b5, b6⟩ := correctAdd_density hM hcut hk hr hP h1
  have hx : ∀ x, D * gaussian m.2 (x - m.1) = E * gaussian mm.2 (x - mm.1) := fun x => by
    rw [← a6, ← b6, ← (meas_parts hM.Rpd hy s.k x).1]
    simp
  have hDE : D = E := by
    have := congrArg (fun F => ∫ x, F x) (funext hx)
    dsimp only at this
    rw [MeasureTheory.integral_const_mul, MeasureTheory.integral_const_mul, gaussian_integral a4, gaussian_integral b4] at this
    simpa using this
  subst hDE
  have hg : ∀ x, gaussian m.2 (x - m.1) = gaussian mm.2 (x - mm.1) := fun x => mul_left_cancel₀ hD.ne' (hx x)
  have e1 : m.1 = mm.1 := by
    funext i
    rw [← gaussian_mean a4 m.1 i, ← gaussian_mean b4 mm.1 i]
    simp only [hg]
  have e2 : m.2 = mm.2 := by
    ext i j
    rw [← gaussian_cov a4 m.1 i j, ← gaussian_cov b4 mm.1 i j]
    simp only [hg]
    rw [e1]
  have e3 : m' = mm := by
    obtain ⟨⟨m1', s1'⟩, h2, h3⟩ := py_bind_eq_ok h'
    obtain ⟨s1u, h4, h3⟩ := py_bind_eq_ok h3
    cases h3
    obtain ⟨l, s1t, h5, hp, -⟩ := contribution (psd_symm hM.Rpd.posSemidef) h2
    rw [h4] at h5
    cases h5
    have q1 : s1'.x = m'.1 ∧ s1'.Px = m'.2 := by
      rcases ukf_correct_cases h2 with ⟨-, rfl, rfl⟩ | ⟨-, d, -, rfl⟩ <;> exact ⟨rfl, rfl⟩
    refine Prod.ext ?_ ?_
    · rw [← b2, ← q1.1]
      exact (congrArg (fun q => q.2.1) hp).symm
    · rw [← b3, ← q1.2]
      exact (congrArg (fun q => q.2.2) hp).symm
  refine ⟨by rw [e3]; exact Prod.ext e1 e2, ?_⟩
  rw [a5, b5, ← (meas_parts hM.Rpd hy s.k s.x).2]
  simp

/-- And it returns for every part, if the factorisation accepts positive definite matrices. -/
theorem correctAdd_returns {ns' : Nat} (hM : GaussModel M A b C c) (hcut : UT.init nx kind' kappa' = .ok cut) (hk : 0 < (nx : ℝ) + kappa') (hr : RootOK kind')
    (hd : ∀ P : Matrix (Fin nx) (Fin nx) ℝ, P.PosDef → RootDom kind' P) (y : MaskedRow o) (s : UKF nx cut.nsigma ns' o p) (hP : s.Px.PosDef) :
    ∃ m s', UKF.correctAdd cut M y s = .ok (m, s') ∧ s'.Px.PosDef := by
  have key : ∃ m s', UKF.correct cut M y s = .ok (m, s') := by
    obtain ⟨⟨ms, s', h⟩, -⟩ := C43_returns hM.toAffineModel hcut hcut hk hk (fun k x => ⟨hd _ (hM.Qpd k x), hd _ (hM.Qpd k x)⟩) hM.Rpd [y]
      (⟨s.toFilterAttrs, none, .never⟩ : UKF nx cut.nsigma cut.nsigma o p) ⟨hd _ hP, hd _ hP⟩
    rw [filter_eq] at h
    obtain ⟨⟨m, s1⟩, h1, -⟩ := py_bind_eq_ok h
    have h1 : UKF.correct cut M y (⟨s.toFilterAttrs, none, .never⟩ : UKF nx cut.nsigma cut.nsigma o p) = .ok (m, s1) := h1
    rcases ukf_correct_cases h1 with ⟨hy, rfl, rfl⟩ | ⟨hy, d, hd, rfl⟩
    · exact ⟨_, _, ukf_correct_masked M hy s⟩
    · refine ⟨m, { s with x := m.1, Px := m.2, last := .data y d }, (ukf_correct_active M hy s).trans ?_⟩
      rw [hd]
      rfl
  obtain ⟨m, s1, h1⟩ := key
  obtain ⟨l, s2, h2, hp, -⟩ := contribution (psd_symm hM.Rpd.posSemidef) h1
  obtain ⟨t1, e1, hs1⟩ := same_correct hM.toAffineModel hcut hk hr hM.Rpd.posSemidef y s ⟨s.toFilterAttrs, none, .never⟩ m s1 ⟨rfl, hP.posSemidef⟩ h1
  obtain ⟨-, a2, -, a4, -⟩ := correct_density hM (s := ⟨s.toFilterAttrs, none, .never⟩) hP e1
  refine ⟨m, s2, ?_, ?_⟩
  · rw [UKF.correctAdd, h1]
    simp only [py_bind_ok]
    rw [h2]
    rfl
  · have : s2.Px = m.2 := ((congrArg (fun q => q.2.2) hp).trans (congrArg FilterAttrs.Px hs1.1) :).trans a2
    rw [this]
    exact a4

/-- **C105** (likelihood, returns). -/
theorem C105_likelihood_returns {ns' : Nat} (hM : GaussModel M A b C c) (hcut : UT.init nx kind' kappa' = .ok cut) (hk : 0 < (nx : ℝ) + kappa') (hr : RootOK kind')
    (hd : ∀ P : Matrix (Fin nx) (Fin nx) ℝ, P.PosDef → RootDom kind' P) {y : MaskedRow o} {ys : List (MaskedRow o)} (s : UKF nx cut.nsigma ns' o p) (hP : s.Px.PosDef)
    (hy : Parts M.R y ys) : ∃ m s2 s', corrections (UKF.correctAdd cut M) UKF.moments ys s = .ok (m, s2) ∧ UKF.correctAdd cut M y s = .ok (m, s') ∧ s2.L = s'.L := by
  have key : ∀ (ys : List (MaskedRow o)) (s : UKF nx cut.nsigma ns' o p), s.Px.PosDef → ∃ m s2, corrections (UKF.correctAdd cut M) UKF.moments ys s = .ok (m, s2) := by
    intro ys
    induction ys with
    | nil => exact fun s _ => ⟨_, _, rfl⟩
    | cons r ys ih =>
      intro s hP
      obtain ⟨m1, s1, h1, hP1⟩ := correctAdd_returns hM hcut hk hr hd r s hP
      obtain ⟨m, s2, h2⟩ := ih s1 hP1
      refine ⟨m, s2, ?_⟩
      rw [corrections, h1]
      exact h2
  obtain ⟨m, s2, h2⟩ := key ys s hP
  obtain ⟨m', s', h', -⟩ := correctAdd_returns hM hcut hk hr hd y s hP
  obtain ⟨rfl, hL⟩ := C105_likelihood hM hcut hk hr hP hy h2 h'
  exact ⟨m, s2, s', h2, h', hL⟩

end

/-! ### Necessity -/

namespace Sequential

/-- Two measurements of the state, or of the state and its square, with correlated noise. -/
noncomputable def model (sq : Bool) (r : ℝ) : KModel 1 (Fin 2) (Fin 0) where
  f _ x := x
  h _ x j := if sq ∧ j = 1 then x 0 ^ 2 else x 0
  Q _ _ := 0
  R := !![1, r; r, 1]
  df_dx _ _ := 1
  dh_dx _ x _ j := if sq ∧ j = 1 then 2 * x 0 else 1
  df_dq _ _ := 0
  dh_dq _ _ := 0
  dQ_dq _ _ := 0
  dQ_dx _ _ := 0
  dR_dq _ := 0
  d2f_dq2 _ _ := 0
  d2f_dx2 _ _ := 0
  d2f_dx_dq _ _ := 0
  d2h_dq2 _ _ := 0
  d2h_dx2 _ _ _ _ j := if sq ∧ j = 1 then 2 else 0
  d2h_dx_dq _ _ := 0
  d2Q_dq2 _ _ := 0
  d2Q_dx2 _ _ := 0
  d2Q_dx_dq _ _ := 0
  d2R_dq2 _ _ := 0

noncomputable def start : EKF 1 (Fin 2) (Fin 0) := { x := 0, Px := 1, k := 0, L := 0, dL_dq := 0, d2L_dq2 := 0, dx_dq := 0, dPx_dq := 0, d2x_dq2 := 0, d2Px_dq2 := 0 }

def both : MaskedRow (Fin 2) := ⟨fun _ => 2, fun _ => false⟩
def first : MaskedRow (Fin 2) := ⟨fun _ => 2, fun j => j == 1⟩
def second : MaskedRow (Fin 2) := ⟨fun _ => 2, fun j => j == 0⟩

theorem noise_pd {r : ℝ} (hr : r ^ 2 < 1) (sq : Bool) : (model sq r).R.PosDef := by
  have e : (model sq r).R = (!![1, 0; r, Real.sqrt (1 - r ^ 2)] : Matrix (Fin 2) (Fin 2) ℝ) * (!![1, 0; r, Real.sqrt (1 - r ^ 2)] : Matrix (Fin 2) (Fin 2) ℝ)ᵀ := by
    ext i j
    fin_cases i <;> fin_cases j <;> simp [model, mul_apply, Fin.sum_univ_two]
    rw [Real.mul_self_sqrt (by linarith)]
    ring
  rw [e]
  have hu : IsUnit (!![1, 0; r, Real.sqrt (1 - r ^ 2)] : Matrix (Fin 2) (Fin 2) ℝ) := by
    rw [isUnit_iff_isUnit_det, det_fin_two_of]
    simp only [one_mul, zero_mul, sub_zero]
    exact isUnit_iff_ne_zero.2 (Real.sqrt_pos.2 (by linarith)).ne'
  have := PosDef.mul_conjTranspose_self (!![1, 0; r, Real.sqrt (1 - r ^ 2)] : Matrix (Fin 2) (Fin 2) ℝ) (by
    exact vecMul_injective_of_isUnit hu)
  rwa [conjTranspose_eq_transpose_of_trivial] at this

theorem symm (sq : Bool) (r : ℝ) : (model sq r).Rᵀ = (model sq r).R := by
  ext i j
  fin_cases i <;> fin_cases j <;> rfl

theorem joint_square {m : Moments 1} {s' : EKF 1 (Fin 2) (Fin 0)} (h : EKF.correct (model true 0) both start = .ok (m, s')) : m.2 0 0 = 1 / 2 := by
  obtain ⟨-, K, ⟨-, n⟩, -, e⟩ := correct_normal transpose_one (symm _ _) h
  have n0 := n 0 0 rfl
  have n1 := n 0 1 rfl
  have e := congrFun (congrFun e 0) 0
  simp [mul_apply, Fin.sum_univ_two, model, start] at n0 n1 e
  rw [e]
  linarith

theorem first_square {sq : Bool} {r : ℝ} {m : Moments 1} {s' : EKF 1 (Fin 2) (Fin 0)} (h : EKF.correct (model sq r) first start = .ok (m, s')) : m.1 0 = 1 ∧ m.2 0 0 = 1 / 2 := by
  obtain ⟨-, K, ⟨u, n⟩, e1, e⟩ := correct_normal transpose_one (symm _ _) h
  have n0 := n 0 0 rfl
  have u1 := u 0 1 rfl
  have e := congrFun (congrFun e 0) 0
  have e1 := congrFun e1 0
  simp [mul_apply, mulVec, dotProduct, Fin.sum_univ_two, model, start, u1, first] at n0 e e1
  exact ⟨by rw [e1]; linarith, by rw [e]; linarith⟩

theorem second_square {m : Moments 1} {s s' : EKF 1 (Fin 2) (Fin 0)} (hx : s.x 0 = 1) (hP : s.Px 0 0 = 1 / 2)
    (h : EKF.correct (model true 0) second s = .ok (m, s')) : m.2 0 0 = 1 / 6 := by
  have hs : s.Pxᵀ = s.Px := by
    ext i j
    rw [Subsingleton.elim i j]
    rfl
  obtain ⟨-, K, ⟨u, n⟩, e1, e⟩ := correct_normal hs (symm _ _) h
  have n0 := n 0 1 rfl
  have u1 := u 0 0 rfl
  have e := congrFun (congrFun e 0) 0
  simp [mul_apply, Fin.sum_univ_two, model, u1, second, hP, hx] at n0 e
  rw [e]
  linarith

theorem second_correlated {r : ℝ} {m : Moments 1} {s s' : EKF 1 (Fin 2) (Fin 0)} (hP : s.Px 0 0 = 1 / 2)
    (h : EKF.correct (model false r) second s = .ok (m, s')) : m.2 0 0 = 1 / 3 := by
  have hs : s.Pxᵀ = s.Px := by
    ext i j
    rw [Subsingleton.elim i j]
    rfl
  obtain ⟨-, K, ⟨u, n⟩, e1, e⟩ := correct_normal hs (symm _ _) h
  have n0 := n 0 1 rfl
  have u1 := u 0 0 rfl
  have e := congrFun (congrFun e 0) 0
  simp [mul_apply, Fin.sum_univ_two, model, u1, second, hP] at n0 e
  rw [e]
  linarith

theorem joint_correlated {m : Moments 1} {s' : EKF 1 (Fin 2) (Fin 0)} (h : EKF.correct (model false (1 / 2)) both start = .ok (m, s')) : m.2 0 0 = 3 / 7 := by
  obtain ⟨-, K, ⟨-, n⟩, -, e⟩ := correct_normal transpose_one (symm _ _) h
  have n0 := n 0 0 rfl
  have n1 := n 0 1 rfl
  have e := congrFun (congrFun e 0) 0
  simp [mul_apply, Fin.sum_univ_two, model, start] at n0 n1 e
  rw [e]
  linarith

theorem parts (r : ℝ) (sq : Bool) (hr : r = 0) : Parts (model sq r).R both [first, second] where
  data a ha j _ := by
    rw [List.mem_cons, List.mem_singleton] at ha
    rcases ha with rfl | rfl <;> rfl
  mask j := by
    fin_cases j
    · exact ⟨fun _ => ⟨first, by simp, rfl⟩, fun _ => rfl⟩
    · exact ⟨fun _ => ⟨second, by simp, rfl⟩, fun _ => rfl⟩
  noise := by
    subst hr
    rw [List.pairwise_cons, List.pairwise_cons]
    refine ⟨fun a ha i j hi hj => ?_, fun _ h => absurd h List.not_mem_nil, .nil⟩
    rw [List.mem_singleton] at ha
    subst ha
    fin_cases i <;> fin_cases j <;> first | (exact absurd hi (by decide)) | (exact absurd hj (by decide)) | rfl

end Sequential

/-- **C105** (nonlinear). For nonlinear outputs the parts matter. -/
theorem C105_nonlinear : ∃ (M : KModel 1 (Fin 2) (Fin 0)) (y y1 y2 : MaskedRow (Fin 2)) (s s0 s2 : EKF 1 (Fin 2) (Fin 0)) (m m' : Moments 1),
    M.R.PosDef ∧ s.Px.PosDef ∧ Parts M.R y [y1, y2] ∧ EKF.correct M y s = .ok (m, s0) ∧
      corrections (EKF.correct M) EKF.moments [y1, y2] s = .ok (m', s2) ∧ m.2 ≠ m'.2 := by
  have hR := Sequential.noise_pd (r := 0) (by norm_num) true
  obtain ⟨m', s2, h⟩ := corrections_returns hR [Sequential.first, Sequential.second] Sequential.start PosSemidef.one
  obtain ⟨m, s0, h0⟩ := corrections_returns hR [Sequential.both] Sequential.start PosSemidef.one
  obtain ⟨⟨m0, s0'⟩, h0, e⟩ := py_bind_eq_ok h0
  obtain ⟨⟨m1, s1⟩, h1, h2⟩ := py_bind_eq_ok h
  obtain ⟨⟨m2, s3⟩, h2, h3⟩ := py_bind_eq_ok h2
  have a2 := (ekf_correct_attrs h2).1
  have hm : m' = m2 := by
    cases h3
    exact Prod.ext (congrArg FilterAttrs.x a2) (congrArg FilterAttrs.Px a2)
  obtain ⟨x1, P1⟩ := Sequential.first_square h1
  have a1 := (ekf_correct_attrs h1).1
  have r2 := Sequential.second_square ((congrFun (congrArg FilterAttrs.x a1) 0).trans x1) ((congrFun (congrFun (congrArg FilterAttrs.Px a1) 0) 0).trans P1) h2
  refine ⟨_, Sequential.both, _, _, Sequential.start, s0', s2, m0, m', hR, PosDef.one, Sequential.parts 0 true rfl, h0, h, fun he => ?_⟩
  have := congrFun (congrFun he 0) 0
  rw [hm, r2, Sequential.joint_square h0] at this
  norm_num at this

/-- **C105** (correlated). With correlated noise they do, too. -/
theorem C105_correlated : ∃ (M : KModel 1 (Fin 2) (Fin 0)) (C : Matrix (Fin 2) (Fin 1) ℝ) (y y1 y2 : MaskedRow (Fin 2)) (s s0 s2 : EKF 1 (Fin 2) (Fin 0))
    (m m' : Moments 1), M.R.PosDef ∧ s.Px.PosDef ∧ (∀ k, AffineOutputs M k C 0) ∧ Parts 0 y [y1, y2] ∧ EKF.correct M y s = .ok (m, s0) ∧
      corrections (EKF.correct M) EKF.moments [y1, y2] s = .ok (m', s2) ∧ m.2 ≠ m'.2 := by
  have hR := Sequential.noise_pd (r := 1 / 2) (by norm_num) false
  obtain ⟨m', s2, h⟩ := corrections_returns hR [Sequential.first, Sequential.second] Sequential.start PosSemidef.one
  obtain ⟨m, s0, h0⟩ := corrections_returns hR [Sequential.both] Sequential.start PosSemidef.one
  obtain ⟨⟨m0, s0'⟩, h0, e⟩ := py_bind_eq_ok h0
  obtain ⟨⟨m1, s1⟩, h1, h2⟩ := py_bind_eq_ok h
  obtain ⟨⟨m2, s3⟩, h2, h3⟩ := py_bind_eq_ok h2
  have a2 := (ekf_correct_attrs h2).1
  have hm : m' = m2 := by
    cases h3
    exact Prod.ext (congrArg FilterAttrs.x a2) (congrArg FilterAttrs.Px a2)
  obtain ⟨x1, P1⟩ := Sequential.first_square h1
  have a1 := (ekf_correct_attrs h1).1
  have r2 := Sequential.second_correlated ((congrFun (congrFun (congrArg FilterAttrs.Px a1) 0) 0).trans P1) h2
  have hpar := Sequential.parts 0 false rfl
  refine ⟨_, of fun _ _ => 1, Sequential.both, _, _, Sequential.start, s0', s2, m0, m', hR, PosDef.one, fun k => ⟨fun x => ?_, fun x i j => ?_⟩,
    ⟨hpar.data, hpar.mask, ?_⟩, h0, h, fun he => ?_⟩
  · funext j
    simp [Sequential.model, mulVec, dotProduct]
  · simp [Sequential.model]
  · exact hpar.noise.imp fun _ _ _ _ _ => rfl
  · have := congrFun (congrFun he 0) 0
    rw [hm, r2, Sequential.joint_correlated h0] at this
    norm_num at this

/-! ### Examples -/

example : ∃ m s0 s1 s2, EKF.correct (Sequential.model false 0) Sequential.both Sequential.start = .ok (m, s0) ∧
    corrections (EKF.correct (Sequential.model false 0)) EKF.moments [Sequential.first, Sequential.second] Sequential.start = .ok (m, s1) ∧
    corrections (EKF.correct (Sequential.model false 0)) EKF.moments [Sequential.second, Sequential.first] Sequential.start = .ok (m, s2) ∧
    s1.toFilterAttrs = s0.toFilterAttrs ∧ s2.toFilterAttrs = s0.toFilterAttrs :=
  C105_order Sequential.start (C := of fun _ _ => 1) (c := 0)
    ⟨fun x => by funext j; simp [Sequential.model, mulVec, dotProduct], fun x i j => by simp [Sequential.model]⟩ PosSemidef.one
    (Sequential.noise_pd (by norm_num) false) (Sequential.parts 0 false rfl) (.swap _ _ _)

/-- The demonstration model, both outputs at once or one after the other. -/
example : ∃ put m s2 s', UT.init 1 .cholesky (1 : ℝ) = .ok put ∧
    corrections (UKF.correctAdd put (Demo.model 2)) UKF.moments [Sequential.second, Sequential.first] (Demo.ukf put.nsigma put.nsigma) = .ok (m, s2) ∧
    UKF.correctAdd put (Demo.model 2) Sequential.both (Demo.ukf put.nsigma put.nsigma) = .ok (m, s') ∧ s2.L = s'.L := by
  obtain ⟨put, hput⟩ := Demo.exists_ut
  have hk : (0 : ℝ) < ((1 : Nat) : ℝ) + 1 := by norm_num
  have hy : Parts (Demo.model 2).R Sequential.both [Sequential.first, Sequential.second] := by
    have e : (Demo.model 2).R = (Sequential.model false 0).R := by
      ext i j
      fin_cases i <;> fin_cases j <;> simp [Demo.model, Sequential.model]
    rw [e]
    exact Sequential.parts 0 false rfl
  obtain ⟨m, s2, s', h1, h2, h3⟩ := C105_likelihood_returns (demo_gauss 2) hput hk trivial (fun _ h => h) (Demo.ukf put.nsigma put.nsigma) PosDef.one
    (parts_perm (by simp [Demo.model]) (.swap _ _ _) hy)
  exact ⟨put, m, s2, s', hput, h1, h2, h3⟩

end Ceacoest
