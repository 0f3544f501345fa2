import Verif.Lemmas.UT
import Verif.Lemmas.CholDiff
import Mathlib.LinearAlgebra.Matrix.Notation
import Mathlib.Tactic.FinCases
import Mathlib.Tactic.NormNum

/-! # C41, C42: unscented transforms -/

namespace Ceacoest
open Matrix Spec
variable {ni : Nat} {kind : SqrtKind (Fin ni)} {kappa : ℝ} {ut : UT ni} {o : Type} [Fintype o]

/-- **C41.** For `ni + kappa ≠ 0` there are `2 ni` weights, one more if `kappa ≠ 0`, and they add up to 1; otherwise the constructor raises. -/
theorem C41_weights (ni : Nat) (kind : SqrtKind (Fin ni)) (kappa : ℝ) :
    ((ni : ℝ) + kappa ≠ 0 → ∃ ut, UT.init ni kind kappa = .ok ut ∧ ut.nsigma = 2 * ni + (if kappa ≠ 0 then 1 else 0) ∧
      ut.kappa = kappa ∧ ut.kind = kind ∧ ∑ k, ut.weights k = 1) ∧
    ((ni : ℝ) + kappa = 0 → UT.init ni kind kappa = .error .assertionError) := by
  constructor
  · intro h
    have e : ∃ ut, UT.init ni kind kappa = .ok ut ∧ ut.nsigma = 2 * ni + (if kappa ≠ 0 then 1 else 0) := by
      unfold UT.init
      rw [if_neg h]
      exact ⟨_, rfl, rfl⟩
    obtain ⟨ut, hu, hn⟩ := e
    obtain ⟨-, hk, hd, -⟩ := ut_init_ok hu
    exact ⟨ut, hu, hn, hk, hd, weights_sum hu⟩
  · intro h
    unfold UT.init
    rw [if_pos h]

theorem sigma_mean (h : UT.init ni kind kappa = .ok ut) (S : Matrix (Fin ni) (Fin ni) ℝ) (i : Fin ni → ℝ) :
    wmean ut.weights (fun k => UT.spread ut.nsigma (fun k => S k) k + i) = i := by
  funext j
  simp only [wmean, Pi.add_apply, mul_add]
  rw [Finset.sum_add_distrib, idev_mean h S j, ← Finset.sum_mul, weights_sum h]
  ring

/-- The weighted sigma points have the mean and the covariance that they are made for. -/
theorem C41_sigma_points (h : UT.init ni kind kappa = .ok ut) (i : Fin ni → ℝ) (P S : Matrix (Fin ni) (Fin ni) ℝ)
    (hS : ut.sqrt (((ni : ℝ) + kappa) • P) = .ok S) (hSS : Sᵀ * S = ((ni : ℝ) + kappa) • P) :
    ∃ idev isigma, ut.sigmaPoints i P = .ok (S, idev, isigma) ∧ (∀ k, idev k = isigma k - i) ∧
      wmean ut.weights isigma = i ∧ wcov ut.weights isigma isigma = P := by
  obtain ⟨hne, hk, -, -⟩ := ut_init_ok h
  refine ⟨_, _, by unfold UT.sigmaPoints; rw [hk, hS]; rfl, fun k => by simp, sigma_mean h S i, ?_⟩
  ext a b
  have hm := sigma_mean h S i
  simp only [wcov]
  rw [hm]
  simp only [Pi.add_apply, add_sub_cancel_right]
  rw [Finset.sum_congr rfl fun k _ => mul_assoc _ _ _, idev_cov h S a b, hSS]
  simp only [Matrix.smul_apply, smul_eq_mul]
  field_simp

/-- The square roots: with Cholesky for positive definite matrices, where it raises for any other symmetric matrix, … -/
theorem C41_cholesky (hkind : ut.kind = .cholesky) (Q : Matrix (Fin ni) (Fin ni) ℝ) (hsym : Qᵀ = Q) :
    (Q.PosDef → ∃ S, ut.sqrt Q = .ok S ∧ Sᵀ * S = Q) ∧ (¬Q.PosDef → ut.sqrt Q = .error .linAlgError) := by
  unfold UT.sqrt
  rw [hkind]
  refine ⟨fun h => ?_, fun h => cholU_error (by rwa [lowerSym_of_symm hsym])⟩
  obtain ⟨S, e, hS⟩ := cholU_ok h
  exact ⟨S, e, isChol_mul hS⟩

/-- … and with the singular value decomposition for positive semidefinite ones. -/
theorem C41_svd {svd : Matrix (Fin ni) (Fin ni) ℝ → Py (Matrix (Fin ni) (Fin ni) ℝ × (Fin ni → ℝ) × Matrix (Fin ni) (Fin ni) ℝ)}
    (hsvd : SvdOK svd) (hkind : ut.kind = .svd svd) (Q : Matrix (Fin ni) (Fin ni) ℝ) (h : Q.PosSemidef) :
    ∃ S, ut.sqrt Q = .ok S ∧ Sᵀ * S = Q := by
  obtain ⟨U, s, VT, e, hU, hV, hs, hQ⟩ := hsvd Q
  have hsq := svd_psd h hU hV hs hQ
  refine ⟨of fun j i => U i j * Real.sqrt (s j), by unfold UT.sqrt; rw [hkind]; simp only [e]; rfl, ?_⟩
  refine Eq.trans ?_ hsq
  ext a b
  rw [mul_apply, mul_apply]
  refine Finset.sum_congr rfl fun k _ => ?_
  rw [mul_diagonal, transpose_apply, transpose_apply, of_apply, of_apply]
  have := Real.mul_self_sqrt (hs k)
  calc U a k * Real.sqrt (s k) * (U b k * Real.sqrt (s k)) = U a k * (Real.sqrt (s k) * Real.sqrt (s k)) * U b k := by ring
    _ = _ := by rw [this]

/-- **C42.** The transform of an affine function has the exact mean, covariance and cross covariance. -/
theorem C42_affine (h : UT.init ni kind kappa = .ok ut) (i : Fin ni → ℝ) (P S : Matrix (Fin ni) (Fin ni) ℝ)
    (hS : ut.sqrt (((ni : ℝ) + kappa) • P) = .ok S) (hSS : Sᵀ * S = ((ni : ℝ) + kappa) • P) (A : Matrix o (Fin ni) ℝ) (b : o → ℝ) :
    ∃ d, ut.transform i P (fun x => A *ᵥ x + b) = .ok d ∧ d.mean = A *ᵥ i + b ∧ d.Po = A * P * Aᵀ ∧ ut.crosscov d = P * Aᵀ := by
  obtain ⟨hne, hk, -, -⟩ := ut_init_ok h
  let idev : Fin ut.nsigma → Fin ni → ℝ := UT.spread ut.nsigma fun k => S k
  have hm : (fun j => ∑ k, ut.weights k * (A *ᵥ (idev k + i) + b) j) = A *ᵥ i + b := by
    funext j
    have e : ∀ k, ut.weights k * (A *ᵥ (idev k + i) + b) j =
        (∑ l, A j l * (ut.weights k * idev k l)) + ut.weights k * (A *ᵥ i + b) j := by
      intro k
      rw [mulVec_add, Pi.add_apply, Pi.add_apply, Pi.add_apply]
      simp only [mulVec, dotProduct, mul_add, Finset.mul_sum]
      rw [add_assoc]
      congr 1
      exact Finset.sum_congr rfl fun l _ => by ring
    rw [Finset.sum_congr rfl fun k _ => e k, Finset.sum_add_distrib, Finset.sum_comm, ← Finset.sum_mul, weights_sum h, one_mul]
    rw [Finset.sum_eq_zero, zero_add]
    intro l _
    rw [← Finset.mul_sum, idev_mean h S l, mul_zero]
  have hod : ∀ k, (A *ᵥ (idev k + i) + b) - (A *ᵥ i + b) = A *ᵥ idev k := by
    intro k; rw [mulVec_add]; abel
  refine ⟨⟨S, fun k => idev k + i, idev, fun k => A *ᵥ idev k, A *ᵥ i + b, of fun i j => ∑ k, (A *ᵥ idev k) i * (A *ᵥ idev k) j * ut.weights k⟩,
    ?_, rfl, ?_, ?_⟩
  · unfold UT.transform UT.sigmaPoints
    rw [hk, hS]
    simp only [py_bind_ok, py_pure]
    simp only [idev] at hm hod
    rw [hm]
    simp only [hod]
    rfl
  · ext a c
    simp only [of_apply]
    have e : ∀ k, (A *ᵥ idev k) a * (A *ᵥ idev k) c * ut.weights k =
        ∑ l, ∑ m, A a l * A c m * (ut.weights k * (idev k l * idev k m)) := by
      intro k
      simp only [mulVec, dotProduct]
      rw [Finset.sum_mul_sum, Finset.sum_mul]
      refine Finset.sum_congr rfl fun l _ => ?_
      rw [Finset.sum_mul]
      exact Finset.sum_congr rfl fun m _ => by ring
    rw [Finset.sum_congr rfl fun k _ => e k, Finset.sum_comm]
    have e2 : ∀ l, ∑ k, ∑ m, A a l * A c m * (ut.weights k * (idev k l * idev k m)) = ∑ m, A a l * P l m * A c m := by
      intro l
      rw [Finset.sum_comm]
      refine Finset.sum_congr rfl fun m _ => ?_
      rw [← Finset.mul_sum, idev_cov h S l m, hSS]
      simp only [Matrix.smul_apply, smul_eq_mul]
      field_simp
    rw [Finset.sum_congr rfl fun l _ => e2 l, Finset.sum_comm, mul_apply]
    refine Finset.sum_congr rfl fun m _ => ?_
    rw [mul_apply, Finset.sum_mul]
    rfl
  · ext a c
    simp only [UT.crosscov, of_apply]
    have e : ∀ k, idev k a * (A *ᵥ idev k) c * ut.weights k = ∑ m, A c m * (ut.weights k * (idev k a * idev k m)) := by
      intro k
      simp only [mulVec, dotProduct]
      rw [Finset.mul_sum, Finset.sum_mul]
      exact Finset.sum_congr rfl fun m _ => by ring
    rw [Finset.sum_congr rfl fun k _ => e k, Finset.sum_comm, mul_apply]
    refine Finset.sum_congr rfl fun m _ => ?_
    rw [← Finset.mul_sum, idev_cov h S a m, hSS]
    simp only [Matrix.smul_apply, smul_eq_mul, transpose_apply]
    field_simp

/-! ### Concrete cases -/

/-- A 2 × 2 matrix and its factor. -/
theorem chol_example : cholU !![4, 2; 2, 5] = .ok !![2, 1; 0, 2] := by
  refine cholU_of_isChol ⟨fun i j hij => ?_, fun i => ?_, ?_⟩
  · fin_cases i <;> fin_cases j <;> simp_all
  · fin_cases i <;> simp
  · ext i j
    fin_cases i <;> fin_cases j <;> norm_num [lowerSym, mul_apply, Fin.sum_univ_two]

/-- There are such transforms, and C41 and C42 are about them. -/
theorem sqrt_example (ut : UT 2) (h : UT.init 2 .cholesky 1 = .ok ut) :
    ut.sqrt ((((2 : ℕ) : ℝ) + 1) • ((1 / 3 : ℝ) • !![4, 2; 2, 5])) = .ok !![2, 1; 0, 2] := by
  obtain ⟨-, -, hkind, -⟩ := ut_init_ok h
  rw [smul_smul, show (((2 : ℕ) : ℝ) + 1) * (1 / 3) = 1 by norm_num, one_smul]
  unfold UT.sqrt
  rw [hkind, ← chol_example]

theorem mul_example : (!![2, 1; 0, 2] : Matrix (Fin 2) (Fin 2) ℝ)ᵀ * !![2, 1; 0, 2] = (((2 : ℕ) : ℝ) + 1) • ((1 / 3 : ℝ) • !![4, 2; 2, 5]) := by
  rw [smul_smul, show (((2 : ℕ) : ℝ) + 1) * (1 / 3) = 1 by norm_num, one_smul]
  ext i j
  fin_cases i <;> fin_cases j <;> norm_num [mul_apply, Fin.sum_univ_two]

example : ∃ ut, UT.init 2 .cholesky 1 = .ok ut ∧ ut.nsigma = 5 := by
  obtain ⟨ut, h, hn, -⟩ := (C41_weights 2 .cholesky 1).1 (by norm_num)
  exact ⟨ut, h, by rw [hn, if_pos one_ne_zero]⟩

example (ut : UT 2) (h : UT.init 2 .cholesky 1 = .ok ut) := C41_sigma_points h ![1, -1] _ _ (sqrt_example ut h) mul_example

example (ut : UT 2) (h : UT.init 2 .cholesky 1 = .ok ut) := C42_affine h ![1, -1] _ _ (sqrt_example ut h) mul_example !![1, 2; 3, 4; 5, 6] ![0, 1, 2]

/-- A singular value decomposition of 1 × 1 matrices. -/
example : SvdOK (n := Fin 1) fun Q => .ok (if 0 ≤ Q 0 0 then 1 else -1, fun _ => |Q 0 0|, 1) := by
  intro Q
  refine ⟨_, _, _, rfl, ?_, by simp, fun i => abs_nonneg _, ?_⟩
  · split <;> simp
  · ext i j
    obtain rfl : i = 0 := Subsingleton.elim _ _
    obtain rfl : j = 0 := Subsingleton.elim _ _
    split
    · rename_i h; simp [abs_of_nonneg h]
    · rename_i h; simp [abs_of_neg (not_le.1 h)]

end Ceacoest
