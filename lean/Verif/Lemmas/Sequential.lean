import Verif.Spec.Sequential
import Verif.Lemmas.Certainty
import Verif.Lemmas.KalmanPosterior
import Mathlib.LinearAlgebra.Matrix.ToLinearEquiv
import Mathlib.LinearAlgebra.Matrix.SchurComplement

/-! # Lemmas for C105 -/

namespace Ceacoest
open Matrix Spec
variable {nx : Nat} {o p : Type} [Fintype o] [LinearOrder o]

/-- The gain solves the normal equations of the unmasked measurements. -/
def Normal (y : MaskedRow o) (P : Matrix (Fin nx) (Fin nx) ℝ) (R : Matrix o o ℝ) (C : Matrix o (Fin nx) ℝ) (K : Matrix (Fin nx) o ℝ) : Prop :=
  UsesOnly y K ∧ ∀ i j, y.mask j = false → (K * (C * P * Cᵀ + R)) i j = (P * Cᵀ) i j

/-- The covariance of the innovations of the unmasked measurements is not singular. -/
def Regular (y : MaskedRow o) (P : Matrix (Fin nx) (Fin nx) ℝ) (R : Matrix o o ℝ) (C : Matrix o (Fin nx) ℝ) : Prop :=
  ∀ v : o → ℝ, (∀ j, y.mask j = true → v j = 0) → (∀ j, y.mask j = false → ((C * P * Cᵀ + R) *ᵥ v) j = 0) → v = 0

theorem active_S (y : MaskedRow o) (P : Matrix (Fin nx) (Fin nx) ℝ) (R : Matrix o o ℝ) (H : Fin nx → o → ℝ) :
    (activeH y H)ᵀ * (P * activeH y H) + activeR y R = (((of fun j i => H i j) : Matrix o (Fin nx) ℝ) * P * (of fun j i => H i j : Matrix o (Fin nx) ℝ)ᵀ + R).submatrix Subtype.val Subtype.val := by
  ext i j
  rw [← Matrix.mul_assoc]
  rfl

theorem regular_iff (y : MaskedRow o) (P : Matrix (Fin nx) (Fin nx) ℝ) (R : Matrix o o ℝ) (H : Fin nx → o → ℝ) :
    Regular y P R (of fun j i => H i j) ↔ ((activeH y H)ᵀ * (P * activeH y H) + activeR y R).det ≠ 0 := by
  rw [active_S]
  unfold Regular
  generalize (((of fun j i => H i j) : Matrix o (Fin nx) ℝ) * P * (of fun j i => H i j : Matrix o (Fin nx) ℝ)ᵀ + R) = S
  have hsum : ∀ (v : o → ℝ), (∀ j, y.mask j = true → v j = 0) → ∀ j, (S *ᵥ v) j = ∑ k : y.Active, S j k.1 * v k.1 := fun v hv j => by
    rw [mulVec, dotProduct]
    exact sum_active y _ fun k hk => by rw [hv k hk, mul_zero]
  rw [ne_eq, ← exists_mulVec_eq_zero_iff]
  constructor
  · rintro h ⟨w, hw, hw0⟩
    refine hw ?_
    have hv : ∀ j, y.mask j = true → (fun j => if h : y.mask j = false then w ⟨j, h⟩ else 0) j = 0 := fun j hj => by simp [hj]
    have h0 := h (fun j => if h : y.mask j = false then w ⟨j, h⟩ else 0) hv fun j hj => by
      rw [hsum _ hv j]
      have := congrFun hw0 ⟨j, hj⟩
      rw [mulVec, dotProduct] at this
      rw [Pi.zero_apply] at this
      rw [← this]
      refine Finset.sum_congr rfl fun k _ => ?_
      simp [k.2]
    funext j
    have := congrFun h0 j.1
    simpa [j.2] using this
  · intro h v hv hv0
    have h1 : (fun j : y.Active => v j.1) = 0 := by
      by_contra hne
      refine h ⟨_, hne, funext fun j => ?_⟩
      have := hv0 j.1 j.2
      rw [hsum v hv] at this
      exact this
    funext j
    by_cases hj : y.mask j = false
    · exact congrFun h1 ⟨j, hj⟩
    · exact hv j (by simpa using hj)

theorem extend_mulVec (y : MaskedRow o) (K : Matrix (Fin nx) y.Active ℝ) (v : o → ℝ) : extendGain y K *ᵥ v = K *ᵥ fun j : y.Active => v j.1 := by
  funext i
  rw [mulVec, dotProduct, sum_active y _ fun j hj => by rw [extend_only y K i j hj, zero_mul]]
  refine Finset.sum_congr rfl fun j _ => ?_
  simp [extendGain, j.2]

/-- What a correction does, in terms of all outputs. -/
theorem correct_normal {M : KModel nx o p} {y : MaskedRow o} {s s' : EKF nx o p} {m : Moments nx} (hP : s.Pxᵀ = s.Px) (hR : M.Rᵀ = M.R)
    (h : EKF.correct M y s = .ok (m, s')) : Regular y s.Px M.R (of fun j i => M.dh_dx s.k s.x i j) ∧
      ∃ K, Normal y s.Px M.R (of fun j i => M.dh_dx s.k s.x i j) K ∧ m.1 = s.x + K *ᵥ (y.data - M.h s.k s.x) ∧
        m.2 = s.Px - K * (of fun j i => M.dh_dx s.k s.x i j) * s.Px := by
  rcases ekf_correct_cases h with ⟨hy, rfl, rfl⟩ | ⟨hy, d, hd, rfl⟩
  · refine ⟨fun v hv _ => funext fun j => hv j (hy j), 0, ⟨fun _ _ _ => rfl, fun i j hj => ?_⟩, by simp, by simp⟩
    rw [hy j] at hj
    cases hj
  · have hc := ekf_core_ok hd
    refine ⟨(regular_iff _ _ _ _).2 hc.det, extendGain y d.K, ⟨extend_only y _, fun i j hj => ?_⟩, ?_, ?_⟩
    · have hu := isUnit_iff_ne_zero.2 hc.det
      have h1 : d.K * ((activeH y (M.dh_dx s.k s.x))ᵀ * (s.Px * activeH y (M.dh_dx s.k s.x)) + activeR y M.R) = s.Px * activeH y (M.dh_dx s.k s.x) := by
        rw [hc.K, Matrix.mul_assoc, nonsing_inv_mul _ hu, Matrix.mul_one]
      rw [active_S] at h1
      have h2 := congrFun (congrFun h1 i) ⟨j, hj⟩
      rw [mul_apply, sum_active y _ fun k hk => by rw [extend_only y _ i k hk, zero_mul]]
      refine Eq.trans ?_ h2
      rw [mul_apply]
      refine Finset.sum_congr rfl fun k _ => ?_
      simp [extendGain, k.2]
    · rw [hc.mean, ← hc.K, extend_mulVec]
      rfl
    · have hu := isUnit_iff_ne_zero.2 hc.det
      have h1 : d.K * ((activeH y (M.dh_dx s.k s.x))ᵀ * (s.Px * activeH y (M.dh_dx s.k s.x)) + activeR y M.R) = s.Px * activeH y (M.dh_dx s.k s.x) := by
        rw [hc.K, Matrix.mul_assoc, nonsing_inv_mul _ hu, Matrix.mul_one]
      have hS : ((activeH y (M.dh_dx s.k s.x))ᵀ * (s.Px * activeH y (M.dh_dx s.k s.x)) + activeR y M.R)ᵀ = (activeH y (M.dh_dx s.k s.x))ᵀ * (s.Px * activeH y (M.dh_dx s.k s.x)) + activeR y M.R := by
        rw [transpose_add, activeR_symm y hR, transpose_mul, transpose_mul, transpose_transpose, hP, Matrix.mul_assoc]
      have h2 : ((activeH y (M.dh_dx s.k s.x))ᵀ * (s.Px * activeH y (M.dh_dx s.k s.x)) + activeR y M.R) * d.Kᵀ = (activeH y (M.dh_dx s.k s.x))ᵀ * s.Px := by
        rw [← hS, ← transpose_mul, h1, transpose_mul, hP]
      rw [hc.cov, ← hc.K, Matrix.mul_assoc d.K, h2, ← Matrix.mul_assoc]
      congr 2
      ext i l
      rw [mul_apply, mul_apply, sum_active y _ fun k hk => by rw [extend_only y _ i k hk, zero_mul]]
      refine Finset.sum_congr rfl fun k _ => ?_
      simp [extendGain, k.2, activeH]

theorem normal_unique {y : MaskedRow o} {P : Matrix (Fin nx) (Fin nx) ℝ} {R : Matrix o o ℝ} {C : Matrix o (Fin nx) ℝ} {K K' : Matrix (Fin nx) o ℝ}
    (hS : (C * P * Cᵀ + R)ᵀ = C * P * Cᵀ + R) (hr : Regular y P R C) (h : Normal y P R C K) (h' : Normal y P R C K') : K = K' := by
  rw [← sub_eq_zero]
  refine funext fun i => ?_
  refine hr (K i - K' i) (fun j hj => by rw [Pi.sub_apply, h.1 i j hj, h'.1 i j hj, sub_self]) fun j hj => ?_
  have e : ((C * P * Cᵀ + R) *ᵥ (K i - K' i)) j = ((K - K') * (C * P * Cᵀ + R)) i j := by
    rw [mulVec, dotProduct, mul_apply]
    refine Finset.sum_congr rfl fun k _ => ?_
    rw [Matrix.sub_apply, Pi.sub_apply, mul_comm]
    congr 1
    exact congrFun (congrFun hS.symm j) k
  rw [e, Matrix.sub_mul, Matrix.sub_apply, h.2 i j hj, h'.2 i j hj, sub_self]

/-- And conversely. -/
theorem correct_of_normal {M : KModel nx o p} {y : MaskedRow o} {s : EKF nx o p} (hP : s.Pxᵀ = s.Px) (hR : M.Rᵀ = M.R)
    (hr : Regular y s.Px M.R (of fun j i => M.dh_dx s.k s.x i j)) {K : Matrix (Fin nx) o ℝ} (hK : Normal y s.Px M.R (of fun j i => M.dh_dx s.k s.x i j) K) :
    ∃ s', EKF.correct M y s = .ok ((s.x + K *ᵥ (y.data - M.h s.k s.x), s.Px - K * (of fun j i => M.dh_dx s.k s.x i j) * s.Px), s') := by
  have key : ∃ m s', EKF.correct M y s = .ok (m, s') := by
    by_cases hy : ∀ j, y.mask j = true
    · exact ⟨_, _, ekf_correct_masked M hy s⟩
    · obtain ⟨m, d, h⟩ := ekf_core_of (x := s.x) (y := fun j : y.Active => y.data j.1) (h := fun j => M.h s.k s.x j.1) ((regular_iff _ _ _ _).1 hr)
      rw [ekf_correct_active M hy, h]
      exact ⟨_, _, rfl⟩
  obtain ⟨⟨m1, m2⟩, s', h⟩ := key
  obtain ⟨-, K', hK', e1, e2⟩ := correct_normal hP hR h
  have hS : ((of fun j i => M.dh_dx s.k s.x i j : Matrix o (Fin nx) ℝ) * s.Px * (of fun j i => M.dh_dx s.k s.x i j : Matrix o (Fin nx) ℝ)ᵀ + M.R)ᵀ =
      (of fun j i => M.dh_dx s.k s.x i j : Matrix o (Fin nx) ℝ) * s.Px * (of fun j i => M.dh_dx s.k s.x i j : Matrix o (Fin nx) ℝ)ᵀ + M.R := by
    rw [transpose_add, hR, transpose_mul, transpose_mul, transpose_transpose, hP, Matrix.mul_assoc]
  have := normal_unique hS hr hK' hK
  subst this
  dsimp only at e1 e2
  exact ⟨s', by rw [h, e1, e2]⟩

section combine
variable {y y1 y2 : MaskedRow o} {P P1 : Matrix (Fin nx) (Fin nx) ℝ} {R : Matrix o o ℝ} {C : Matrix o (Fin nx) ℝ} {K1 K2 : Matrix (Fin nx) o ℝ}

theorem gain_noise {a b : MaskedRow o} {K : Matrix (Fin nx) o ℝ} (hK : UsesOnly a K) (hR : ∀ i j, a.mask i = false → b.mask j = false → R i j = 0)
    (i : Fin nx) (j : o) (hj : b.mask j = false) : (K * R) i j = 0 := by
  rw [mul_apply]
  refine Finset.sum_eq_zero fun k _ => ?_
  by_cases hk : a.mask k = false
  · rw [hR k j hk hj, mul_zero]
  · rw [hK i k (by simpa using hk), zero_mul]

/-- The gain of both parts together. -/
theorem normal_combine (hy : ∀ j, y.mask j = false ↔ y1.mask j = false ∨ y2.mask j = false)
    (hR : ∀ i j, y1.mask i = false → y2.mask j = false → R i j = 0) (hsym : Rᵀ = R) (h1 : Normal y1 P R C K1) (hP1 : P1 = P - K1 * C * P)
    (h2 : Normal y2 P1 R C K2) : Normal y P R C ((1 - K2 * C) * K1 + K2) := by
  have hR' : ∀ i j, y2.mask i = false → y1.mask j = false → R i j = 0 := fun i j hi hj => by
    rw [← hsym]
    exact hR j i hj hi
  have u2 : ∀ i j, y2.mask j = true → K2 i j = 0 := h2.1
  refine ⟨fun i j hj => ?_, fun i j hj => ?_⟩
  · have hn : ¬(y1.mask j = false ∨ y2.mask j = false) := fun h => by rw [(hy j).2 h] at hj; cases hj
    rw [not_or] at hn
    rw [Matrix.add_apply, mul_apply, h2.1 i j (by simpa using hn.2), add_zero]
    exact Finset.sum_eq_zero fun k _ => by rw [h1.1 k j (by simpa using hn.1), mul_zero]
  · rw [Matrix.add_mul, Matrix.add_apply, Matrix.mul_assoc]
    by_cases c1 : y1.mask j = false
    · have e1 : ((1 - K2 * C : Matrix (Fin nx) (Fin nx) ℝ) * (K1 * (C * P * Cᵀ + R))) i j = ((1 - K2 * C : Matrix (Fin nx) (Fin nx) ℝ) * (P * Cᵀ)) i j := by
        rw [mul_apply, mul_apply]
        exact Finset.sum_congr rfl fun k _ => by rw [h1.2 k j c1]
      rw [e1, Matrix.mul_add, Matrix.add_apply, gain_noise h2.1 hR' i j c1, add_zero, ← Matrix.add_apply, Matrix.sub_mul, Matrix.one_mul]
      refine congrFun (congrFun (?_ : (_ : Matrix (Fin nx) o ℝ) = _) i) j
      simp only [Matrix.mul_assoc]
      abel
    · have c2 : y2.mask j = false := ((hy j).1 hj).resolve_left c1
      have e1 : ((1 - K2 * C : Matrix (Fin nx) (Fin nx) ℝ) * (K1 * (C * P * Cᵀ + R))) i j = ((1 - K2 * C : Matrix (Fin nx) (Fin nx) ℝ) * (K1 * (C * P * Cᵀ))) i j := by
        rw [mul_apply, mul_apply]
        refine Finset.sum_congr rfl fun k _ => ?_
        rw [Matrix.mul_add, Matrix.add_apply, gain_noise h1.1 hR k j c2, add_zero]
      have e2 : K2 * (C * P * Cᵀ + R) = K2 * (C * P1 * Cᵀ + R) + K2 * C * (K1 * (C * P * Cᵀ)) := by
        rw [hP1]
        simp only [Matrix.mul_add, Matrix.mul_sub, Matrix.sub_mul, Matrix.mul_assoc]
        abel
      rw [e1, e2, Matrix.add_apply, h2.2 i j c2, ← Matrix.add_apply, ← Matrix.add_apply, hP1]
      refine congrFun (congrFun (?_ : (_ : Matrix (Fin nx) o ℝ) = _) i) j
      simp only [Matrix.sub_mul, Matrix.one_mul, Matrix.mul_assoc]
      abel

/-- The innovations of both together are not singular. -/
theorem regular_combine (hy : ∀ j, y.mask j = false ↔ y1.mask j = false ∨ y2.mask j = false)
    (hR : ∀ i j, y1.mask i = false → y2.mask j = false → R i j = 0) (hsym : Rᵀ = R) (h1 : Normal y1 P R C K1) (r1 : Regular y1 P R C)
    (hP1 : P1 = P - K1 * C * P) (r2 : Regular y2 P1 R C) : Regular y P R C := by
  intro v hv h0
  have hR' : ∀ i j, y2.mask i = false → y1.mask j = false → R i j = 0 := fun i j hi hj => by
    rw [← hsym]
    exact hR j i hj hi
  set v1 : o → ℝ := fun j => if y1.mask j = false then v j else 0 with hv1
  set v2 : o → ℝ := fun j => if y1.mask j = false then 0 else v j with hv2
  have hs : v = v1 + v2 := by
    funext j
    by_cases c1 : y1.mask j = false <;> simp [v1, v2, c1]
  have s1 : ∀ j, y1.mask j = true → v1 j = 0 := fun j hj => by simp [v1, hj]
  have s2 : ∀ j, y2.mask j = true → v2 j = 0 := fun j hj => by
    by_cases c1 : y1.mask j = false
    · simp [v2, c1]
    · have : y.mask j = true := by
        by_contra h
        rcases (hy j).1 (by simpa using h) with h | h
        · exact c1 h
        · rw [hj] at h
          cases h
      simp [v2, c1, hv j this]
  have n12 : ∀ j, y1.mask j = false → (R *ᵥ v2) j = 0 := fun j hj => by
    rw [mulVec, dotProduct]
    refine Finset.sum_eq_zero fun k _ => ?_
    by_cases hk : y2.mask k = false
    · rw [hR j k hj hk, zero_mul]
    · rw [s2 k (by simpa using hk), mul_zero]
  have n21 : ∀ j, y2.mask j = false → (R *ᵥ v1) j = 0 := fun j hj => by
    rw [mulVec, dotProduct]
    refine Finset.sum_eq_zero fun k _ => ?_
    by_cases hk : y1.mask k = false
    · rw [hR' j k hj hk, zero_mul]
    · rw [s1 k (by simpa using hk), mul_zero]
  -- what the first part makes of its share
  have g1 : ∀ w : o → ℝ, (∀ j, y1.mask j = true → w j = 0) → K1 *ᵥ ((C * P * Cᵀ + R) *ᵥ w) = (P * Cᵀ) *ᵥ w := fun w hw => by
    rw [mulVec_mulVec]
    funext i
    rw [mulVec, mulVec, dotProduct, dotProduct]
    refine Finset.sum_congr rfl fun j _ => ?_
    by_cases hj : y1.mask j = false
    · rw [h1.2 i j hj]
    · rw [hw j (by simpa using hj), mul_zero, mul_zero]
  have g2 : K1 *ᵥ ((C * P * Cᵀ + R) *ᵥ v1) + K1 *ᵥ ((C * P * Cᵀ) *ᵥ v2) = 0 := by
    rw [← mulVec_add]
    funext i
    rw [mulVec, dotProduct]
    refine Finset.sum_eq_zero fun j _ => ?_
    by_cases hj : y1.mask j = false
    · have e := h0 j ((hy j).2 (.inl hj))
      rw [hs, mulVec_add, Pi.add_apply, add_mulVec _ _ v2, Pi.add_apply, n12 j hj, add_zero] at e
      rw [Pi.add_apply, e, mul_zero]
    · rw [h1.1 i j (by simpa using hj), zero_mul]
  rw [g1 v1 s1] at g2
  have e2 : v2 = 0 := r2 v2 s2 fun j hj => by
    have e := h0 j ((hy j).2 (.inr hj))
    rw [hs, mulVec_add, Pi.add_apply, add_mulVec _ _ v1, Pi.add_apply, n21 j hj, add_zero] at e
    rw [← e, hP1]
    have : (C * P * Cᵀ) *ᵥ v1 = C *ᵥ ((P * Cᵀ) *ᵥ v1) := by rw [mulVec_mulVec, Matrix.mul_assoc]
    rw [this, eq_neg_of_add_eq_zero_left g2, mulVec_neg, Pi.neg_apply, add_mulVec, add_mulVec, Pi.add_apply, Pi.add_apply, Matrix.mul_sub, Matrix.sub_mul, sub_mulVec,
      Pi.sub_apply, mulVec_mulVec, mulVec_mulVec]
    simp only [Matrix.mul_assoc]
    ring
  have e1 : v1 = 0 := r1 v1 s1 fun j hj => by
    have e := h0 j ((hy j).2 (.inl hj))
    rw [hs, e2, add_zero] at e
    exact e
  rw [hs, e1, e2, add_zero]

end combine

/-! ### Densities of parts -/

theorem gaussian_reindex {n n' : Type} [Fintype n] [DecidableEq n] [Fintype n'] [DecidableEq n'] (e : n' ≃ n) (S : Matrix n n ℝ) (v : n → ℝ) :
    gaussian S v = gaussian (S.submatrix e e) (v ∘ e) := by
  have hq : (v ∘ e) ⬝ᵥ (S.submatrix e e)⁻¹ *ᵥ (v ∘ e) = v ⬝ᵥ S⁻¹ *ᵥ v := by
    rw [inv_submatrix_equiv, submatrix_mulVec_equiv, dotProduct, dotProduct, ← e.sum_comp]
    have : (v ∘ e) ∘ e.symm = v := by
      funext j
      simp
    rw [this]
    rfl
  rw [gaussian, gaussian, hq, det_submatrix_equiv_self, Fintype.card_congr e]

theorem gaussian_blocks {a b : Type} [Fintype a] [DecidableEq a] [Fintype b] [DecidableEq b] {A : Matrix a a ℝ} {D : Matrix b b ℝ} (hA : A.PosDef) (hD : D.PosDef)
    (v : a ⊕ b → ℝ) : gaussian (fromBlocks A 0 0 D) v = gaussian A (v ∘ Sum.inl) * gaussian D (v ∘ Sum.inr) := by
  have hu : IsUnit A ↔ IsUnit D := iff_of_true hA.isUnit hD.isUnit
  have hq : v ⬝ᵥ (fromBlocks A 0 0 D)⁻¹ *ᵥ v = (v ∘ Sum.inl) ⬝ᵥ A⁻¹ *ᵥ (v ∘ Sum.inl) + (v ∘ Sum.inr) ⬝ᵥ D⁻¹ *ᵥ (v ∘ Sum.inr) := by
    rw [inv_fromBlocks_zero₂₁_of_isUnit_iff _ _ _ hu, fromBlocks_mulVec, dotProduct, Fintype.sum_sum_type]
    simp [dotProduct]
  have hpi : 0 ≤ (2 * Real.pi) ^ Fintype.card a * A.det := mul_nonneg (pow_nonneg (by positivity) _) hA.det_pos.le
  rw [gaussian, gaussian, gaussian, hq, det_fromBlocks_zero₂₁, Fintype.card_sum, pow_add]
  have e1 : (2 * Real.pi) ^ Fintype.card a * (2 * Real.pi) ^ Fintype.card b * (A.det * D.det) =
      ((2 * Real.pi) ^ Fintype.card a * A.det) * ((2 * Real.pi) ^ Fintype.card b * D.det) := by ring
  rw [e1, Real.sqrt_mul hpi, mul_inv, neg_add, add_div, Real.exp_add]
  ring

/-- The entries of two rows without a common one are those of the row with both. -/
noncomputable def activeSum {y y1 y2 : MaskedRow o} (hy : ∀ j, y.mask j = false ↔ y1.mask j = false ∨ y2.mask j = false)
    (hd : ∀ j, y1.mask j = false → y2.mask j = false → False) : y1.Active ⊕ y2.Active ≃ y.Active :=
  Equiv.ofBijective (Sum.elim (fun j => ⟨j.1, (hy j.1).2 (.inl j.2)⟩) fun j => ⟨j.1, (hy j.1).2 (.inr j.2)⟩) (by
    constructor
    · rintro (⟨i, hi⟩ | ⟨i, hi⟩) (⟨j, hj⟩ | ⟨j, hj⟩) h
      · cases h; rfl
      · cases h; exact (hd _ hi hj).elim
      · cases h; exact (hd _ hj hi).elim
      · cases h; rfl
    · rintro ⟨j, hj⟩
      rcases (hy j).1 hj with h | h
      · exact ⟨.inl ⟨j, h⟩, rfl⟩
      · exact ⟨.inr ⟨j, h⟩, rfl⟩)

theorem meas_two {M : KModel nx o p} (hR : M.R.PosDef) {y y1 y2 : MaskedRow o} (hy : ∀ j, y.mask j = false ↔ y1.mask j = false ∨ y2.mask j = false)
    (hn : ∀ i j, y1.mask i = false → y2.mask j = false → M.R i j = 0) (h1 : ∀ j, y1.mask j = false → y1.data j = y.data j)
    (h2 : ∀ j, y2.mask j = false → y2.data j = y.data j) (k : ℤ) (x : Fin nx → ℝ) :
    measDensity M k y x = measDensity M k y1 x * measDensity M k y2 x ∧ Fintype.card y.Active = Fintype.card y1.Active + Fintype.card y2.Active := by
  have hsym := psd_symm hR.posSemidef
  have hd : ∀ j, y1.mask j = false → y2.mask j = false → False := fun j a b => by
    have := hR.diag_pos (i := j)
    rw [hn j j a b] at this
    exact lt_irrefl _ this
  refine ⟨?_, by rw [← Fintype.card_congr (activeSum hy hd), Fintype.card_sum]⟩
  have e : (activeR y M.R).submatrix (activeSum hy hd) (activeSum hy hd) = fromBlocks (activeR y1 M.R) 0 0 (activeR y2 M.R) := by
    ext (i | i) (j | j)
    · rfl
    · exact hn _ _ i.2 j.2
    · rw [← hsym] at hn
      exact hn _ _ j.2 i.2
    · rfl
  unfold measDensity
  rw [gaussian_reindex (activeSum hy hd), e, gaussian_blocks (activeR_pd y1 hR) (activeR_pd y2 hR)]
  congr 2
  · funext j
    exact congrArg (· - M.h k x j.1) (h1 j.1 j.2).symm
  · funext j
    exact congrArg (· - M.h k x j.1) (h2 j.1 j.2).symm

end Ceacoest
