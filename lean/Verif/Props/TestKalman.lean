import Verif.Model.TestKalman
import Verif.Spec.TestKalman
import Verif.Spec.KalmanInputs
import Verif.Props.UT
import Verif.Props.Report
import Mathlib.Analysis.Matrix.PosDef
import Mathlib.Algebra.Order.Chebyshev

/-! # C97: the tests of the filters -/

namespace Ceacoest.TestKalman
open Matrix ArrayCmp Spec Polynomial

variable {nx ny nq n : Nat}

/-! ### Comparisons -/

theorem arr1_wf (a : Fin n → ℝ) : (arr1 a).WF := by simp [arr1, NDArray.WF]

theorem arr2_wf {m : Nat} (A : Matrix (Fin m) (Fin n) ℝ) : (arr2 A).WF := by simp [arr2, NDArray.WF]

theorem lt_self {a : NDArray ℝ} (ha : a.WF) {tol : ℝ} (ht : 0 < tol) : (ArrayDiff.mk (.ok a) (.ok a)).lt (.num tol) = .ok true := by
  obtain ⟨r, h, hr⟩ := C61_within_tol a a ha ha tol tol
  have : (ArrayDiff.mk (.ok a) (.ok a)).lt (.num tol) = (ArrayDiff.mk (.ok a) (.ok a)).withinTol tol tol := rfl
  rw [this, h, hr.2]
  refine ⟨a.shape, ⟨by simp, fun k _ => ⟨.inl rfl, by split <;> simp_all⟩⟩, fun idx _ => ?_⟩
  rw [sub_self, abs_zero]
  positivity

theorem close1 {a b : Fin n → ℝ} (h : a = b) : assertClose (arr1 a) (arr1 b) (1 / 10 ^ 8) = .ok () := by
  subst h
  unfold assertClose
  rw [lt_self (arr1_wf a) (by norm_num)]
  rfl

theorem close2 {m : Nat} {A B : Matrix (Fin m) (Fin n) ℝ} (h : A = B) : assertClose (arr2 A) (arr2 B) (1 / 10 ^ 8) = .ok () := by
  subst h
  unfold assertClose
  rw [lt_self (arr2_wf A) (by norm_num)]
  rfl

/-! ### Eigenvalues -/

theorem eig_pos {M : Matrix (Fin n) (Fin n) ℝ} (hM : Mᵀ = M) {val : Fin n → ℝ} (h : M.charpoly = ∏ i, (X - C (val i))) (tol : ℝ) :
    (∀ i, tol < val i) ↔ (M - tol • (1 : Matrix (Fin n) (Fin n) ℝ)).PosDef := by
  have hN : (M - tol • (1 : Matrix (Fin n) (Fin n) ℝ)).IsHermitian := by
    unfold Matrix.IsHermitian
    rw [conjTranspose_eq_transpose_of_trivial, transpose_sub, hM, transpose_smul, transpose_one]
  rw [hN.posDef_iff_eigenvalues_pos]
  have key : ∀ μ : ℝ, ∏ i, (μ - hN.eigenvalues i) = ∏ i, (μ + tol - val i) := by
    intro μ
    have h1 := congrArg (Polynomial.eval μ) hN.charpoly_eq
    have h2 := congrArg (Polynomial.eval (μ + tol)) h
    rw [Matrix.eval_charpoly, Polynomial.eval_prod] at h1 h2
    simp only [Polynomial.eval_sub, Polynomial.eval_X, Polynomial.eval_C, RCLike.ofReal_real_eq_id, id] at h1 h2
    rw [← h1, ← h2]
    congr 1
    rw [map_add]
    ext i j
    simp [Matrix.scalar_apply, Matrix.diagonal_apply, Matrix.one_apply]
    split <;> ring
  constructor
  · intro hv i
    have h1 : ∏ j, (hN.eigenvalues i - hN.eigenvalues j) = 0 := Finset.prod_eq_zero (Finset.mem_univ i) (sub_self _)
    rw [key, Finset.prod_eq_zero_iff] at h1
    obtain ⟨j, -, hj⟩ := h1
    linarith [hv j]
  · intro hv i
    have h1 : ∏ j, (val i - tol + tol - val j) = 0 := Finset.prod_eq_zero (Finset.mem_univ i) (by ring)
    rw [← key, Finset.prod_eq_zero_iff] at h1
    obtain ⟨j, -, hj⟩ := h1
    linarith [hv j]

/-- What `is_symmetric_positive_definite` says of a symmetric matrix: whether all its eigenvalues exceed the tolerance. -/
theorem isSPD_ok {eig : Eig} (he : EigOK eig) {M : Matrix (Fin n) (Fin n) ℝ} (hM : Mᵀ = M) {tol : ℝ} (ht : 0 < tol) :
    ∃ b : Bool, isSPD eig M tol = .ok b ∧ (b = true ↔ (M - tol • (1 : Matrix (Fin n) (Fin n) ℝ)).PosDef) := by
  obtain ⟨val, h1, h2⟩ := he n M hM
  rw [← eig_pos hM h2]
  unfold isSPD
  rw [h1, py_bind_ok]
  by_cases h : ∀ i, tol < val i
  · refine ⟨true, ?_, by simpa using h⟩
    rw [if_pos (by simpa [List.all_eq_true, List.mem_ofFn] using h), hM, lt_self (arr2_wf M) ht]
  · refine ⟨false, ?_, by simpa using h⟩
    rw [if_neg (by simpa [List.all_eq_true, List.mem_ofFn] using h)]
    rfl

/-- The claims that a test makes of a symmetric matrix. -/
theorem spd_assert {eig : Eig} (he : EigOK eig) {M : Matrix (Fin n) (Fin n) ℝ} (hM : Mᵀ = M) :
    ((M - (1 / 10 ^ 8 : ℝ) • (1 : Matrix (Fin n) (Fin n) ℝ)).PosDef → (do pyAssert (← isSPD eig M)) = (.ok () : Py Unit)) ∧
    (¬(M - (1 / 10 ^ 8 : ℝ) • (1 : Matrix (Fin n) (Fin n) ℝ)).PosDef →
      (do pyAssert (← isSPD eig M)) = (.error .assertionError : Py Unit)) := by
  obtain ⟨b, h1, h2⟩ := isSPD_ok he hM (tol := 1 / 10 ^ 8) (by norm_num)
  refine ⟨fun h => ?_, fun h => ?_⟩ <;> rw [h1, py_bind_ok]
  · rw [h2.2 h]; rfl
  · rw [Bool.eq_false_iff.2 fun e => h (h2.1 e)]; rfl

/-! ### Quadratic forms -/

theorem posDef_of_form {M : Matrix (Fin n) (Fin n) ℝ} (hM : Mᵀ = M) (h : ∀ a : Fin n → ℝ, a ≠ 0 → 0 < ∑ i, ∑ j, a i * M i j * a j) : M.PosDef := by
  refine .of_dotProduct_mulVec_pos (by rw [Matrix.IsHermitian, conjTranspose_eq_transpose_of_trivial, hM]) fun a ha => ?_
  have := h a ha
  simp only [star_trivial, dotProduct, mulVec, Finset.mul_sum]
  refine this.trans_eq (Finset.sum_congr rfl fun i _ => Finset.sum_congr rfl fun j _ => by ring)

theorem form_of_posDef {M : Matrix (Fin n) (Fin n) ℝ} (hM : M.PosDef) (a : Fin n → ℝ) (ha : a ≠ 0) : 0 < ∑ i, ∑ j, a i * M i j * a j := by
  have := hM.dotProduct_mulVec_pos ha
  simp only [star_trivial, dotProduct, mulVec, Finset.mul_sum] at this
  refine this.trans_eq (Finset.sum_congr rfl fun i _ => Finset.sum_congr rfl fun j _ => by ring)

theorem norm_pos' (a : Fin n → ℝ) (ha : a ≠ 0) : 0 < ∑ i, a i * a i := by
  obtain ⟨i, hi⟩ := Function.ne_iff.1 ha
  exact Finset.sum_pos' (fun j _ => mul_self_nonneg _) ⟨i, Finset.mem_univ i, mul_self_pos.2 hi⟩

theorem form_diag (c : Fin n → ℝ) (a : Fin n → ℝ) : ∑ i, ∑ j, a i * (if i = j then c i else 0) * a j = ∑ i, c i * (a i * a i) := by
  refine Finset.sum_congr rfl fun i _ => ?_
  rw [Finset.sum_eq_single i]
  · rw [if_pos rfl]; ring
  · intro j _ h; rw [if_neg (Ne.symm h)]; ring
  · simp

/-- A matrix with entries between `-1` and `1` is at least `-n`. -/
theorem form_bound {C : Matrix (Fin n) (Fin n) ℝ} (h : ∀ i j, |C i j| ≤ 1) (a : Fin n → ℝ) :
    -((n : ℝ) * ∑ i, a i * a i) ≤ ∑ i, ∑ j, a i * C i j * a j := by
  have h1 : ∀ i j, -(|a i| * |a j|) ≤ a i * C i j * a j := fun i j => by
    have : |a i * C i j * a j| ≤ |a i| * |a j| := by
      rw [abs_mul, abs_mul]
      have := mul_le_mul_of_nonneg_left (h i j) (mul_nonneg (abs_nonneg (a i)) (abs_nonneg (a j)))
      nlinarith
    exact (abs_le.1 this).1
  have h2 : ∑ i, ∑ j, -(|a i| * |a j|) ≤ ∑ i, ∑ j, a i * C i j * a j := Finset.sum_le_sum fun i _ => Finset.sum_le_sum fun j _ => h1 i j
  have h3 : ∑ i, ∑ j, -(|a i| * |a j|) = -(∑ i, |a i|) ^ 2 := by
    rw [sq, Finset.sum_mul_sum]
    simp only [Finset.sum_neg_distrib]
  have h4 : (∑ i, |a i|) ^ 2 ≤ (n : ℝ) * ∑ i, a i * a i := by
    have := sq_sum_le_card_mul_sum_sq (s := (Finset.univ : Finset (Fin n))) (f := fun i => |a i|)
    simpa [sq_abs, ← sq] using this
  linarith

theorem form_sub (M : Matrix (Fin n) (Fin n) ℝ) (t : ℝ) (a : Fin n → ℝ) :
    ∑ i, ∑ j, a i * (M - t • (1 : Matrix (Fin n) (Fin n) ℝ)) i j * a j = ∑ i, ∑ j, a i * M i j * a j - t * ∑ i, a i * a i := by
  have e : ∀ i j, a i * (M - t • (1 : Matrix (Fin n) (Fin n) ℝ)) i j * a j = a i * M i j * a j - a i * (if i = j then t else 0) * a j := fun i j => by
    simp only [Matrix.sub_apply, Matrix.smul_apply, Matrix.one_apply, smul_eq_mul, mul_ite, mul_one, mul_zero]
    split <;> ring
  simp only [e, Finset.sum_sub_distrib]
  rw [form_diag (fun _ => t), Finset.mul_sum]

theorem sub_symm {M : Matrix (Fin n) (Fin n) ℝ} (hM : Mᵀ = M) (t : ℝ) :
    (M - t • (1 : Matrix (Fin n) (Fin n) ℝ))ᵀ = M - t • (1 : Matrix (Fin n) (Fin n) ℝ) := by
  rw [transpose_sub, hM, transpose_smul, transpose_one]

/-! ### The covariances of the test model -/

theorem Q_symm (x : Fin nx → ℝ) (q : Fin nq → ℝ) : (Q x q)ᵀ = Q x q := by
  ext i j
  simp only [transpose_apply, Q, of_apply]
  rcases lt_trichotomy i j with h | h | h
  · simp [h, h.ne, h.ne', not_lt_of_gt h]
  · simp [h]
  · simp [h, h.ne, h.ne', not_lt_of_gt h]

theorem R_symm (ny : Nat) (q : Fin nq → ℝ) : (R ny q)ᵀ = R ny q := by
  ext i j
  simp only [transpose_apply, R, of_apply]
  rcases lt_trichotomy i j with h | h | h
  · simp [h.le, h.ne, h.ne', not_le_of_gt h]
  · simp [h]
  · simp [h.le, h.ne, h.ne', not_le_of_gt h]

theorem Pv_symm (q : Fin nq → ℝ) {Px : Matrix (Fin nx) (Fin nx) ℝ} (h : Pxᵀ = Px) : (Pv q Px)ᵀ = Pv q Px := by
  ext i j
  have e : Px j i = Px i j := congrFun (congrFun h i) j
  simp only [transpose_apply, Pv, of_apply, e]
  rcases lt_trichotomy i j with h | h | h
  · simp [h, h.ne, h.ne', not_lt_of_gt h]
  · simp [h]
  · simp [h, h.ne, h.ne', not_lt_of_gt h]

theorem slice_empty (q : Fin nq → ℝ) {i j : Nat} (h : i ≤ j) : sumSlice q (some (j : Int)) (some (i : Int)) = 0 := by
  have : sliceIdx nq (some (j : Int)) (some (i : Int)) 1 = [] := by
    unfold sliceIdx clampIdx
    have h1 : ¬((j : Int) < 0) := by omega
    have h2 : ¬((i : Int) < 0) := by omega
    simp only [h1, h2, if_false, Int.toNat_natCast]
    rw [show (min i nq - min j nq + (1 - 1)) / 1 = 0 by omega]
    rfl
  rw [sumSlice, this]
  rfl

/-- Beside the diagonal `Pv` adds nothing. -/
theorem Pv_eq (q : Fin nq → ℝ) (Px : Matrix (Fin nx) (Fin nx) ℝ) :
    Pv q Px = Px + diagonal fun i => 1 + Real.sin (sumSlice q none (some (-(i.1 : Int)))) := by
  ext i j
  simp only [Pv, of_apply, Matrix.add_apply, diagonal_apply]
  rcases lt_trichotomy i j with h | h | h
  · rw [if_neg h.ne, if_neg h.ne, if_pos h, if_neg h.ne, slice_empty q h.le, Real.sin_zero, add_zero]
  · subst h; rw [if_pos rfl, if_pos rfl, if_pos rfl]; ring
  · rw [if_neg h.ne', if_neg h.ne', if_neg (not_lt_of_gt h), if_neg h.ne', slice_empty q h.le, Real.sin_zero, add_zero]

theorem R_one (q : Fin nq → ℝ) : R 1 q = of fun _ _ => 2 := by
  ext i j
  have : i = 0 := Subsingleton.elim _ _
  have : j = 0 := Subsingleton.elim _ _
  subst i j
  have : sumSlice q (some (-((0 : Fin 1).1 : Int))) (some ((0 : Fin 1).1 : Int)) = 0 := slice_empty q (i := 0) (j := 0) le_rfl
  simp only [R, of_apply, if_true, le_refl, this, Real.sin_zero, add_zero]

theorem R_31 (q : Fin 1 → ℝ) : R 3 q = !![2, 0, 0; 0, 2 + Real.sin (q 0), Real.sin (q 0); 0, Real.sin (q 0), 2 + Real.sin (q 0)] := by
  ext i j
  fin_cases i <;> fin_cases j <;> simp [R, sumSlice, sliceIdx, clampIdx]

theorem R_33 (q : Fin 3 → ℝ) : R 3 q = !![2, 0, 0; 0, 2, 0; 0, 0, 2 + Real.sin (q 1)] := by
  ext i j
  fin_cases i <;> fin_cases j <;> simp [R, sumSlice, sliceIdx, clampIdx]

/-! ### The tests of the fixtures -/

/-- **C97.** The matrix of the fixture `cov` is symmetric and positive semidefinite, and `test_cov_pd` passes exactly if its eigenvalues
exceed the tolerance. -/
theorem C97_cov {eig : Eig} (he : EigOK eig) (M : Matrix (Fin nx) (Fin (nx + 1)) ℝ) :
    (cov M)ᵀ = cov M ∧ (cov M).PosSemidef ∧
      ((cov M - (1 / 10 ^ 8 : ℝ) • (1 : Matrix (Fin nx) (Fin nx) ℝ)).PosDef → testCovPd eig (cov M) = .ok ()) ∧
      (¬(cov M - (1 / 10 ^ 8 : ℝ) • (1 : Matrix (Fin nx) (Fin nx) ℝ)).PosDef → testCovPd eig (cov M) = .error .assertionError) := by
  have e : cov M = (of fun i k => M i k / nx) * (of fun i k => M i k / nx : Matrix (Fin nx) (Fin (nx + 1)) ℝ)ᵀ := by
    ext i j
    simp only [cov, mul_apply, transpose_apply, of_apply]
  have hs : (cov M)ᵀ = cov M := by rw [e, transpose_mul, transpose_transpose]
  refine ⟨hs, ?_, (spd_assert he hs).1, (spd_assert he hs).2⟩
  rw [e]
  simpa using posSemidef_self_mul_conjTranspose (of fun i k => M i k / nx : Matrix (Fin nx) (Fin (nx + 1)) ℝ)

theorem Q_form (x : Fin nx → ℝ) (q : Fin nq → ℝ) (a : Fin nx → ℝ) :
    (2 - (nx : ℝ) / 2) * ∑ i, a i * a i ≤ ∑ i, ∑ j, a i * Q x q i j * a j := by
  let C : Matrix (Fin nx) (Fin nx) ℝ := of fun i j => if i < j then Real.cos (qAngle x q i j) else if j < i then Real.cos (qAngle x q j i)
    else Real.cos (sumSlice x none (some ((i.1 : Int) + 1)) + sumSlice q none (some (-(i.1 : Int))))
  have hC : ∀ i j, |C i j| ≤ 1 := fun i j => by
    simp only [C, of_apply]
    split_ifs <;> exact Real.abs_cos_le_one _
  have e : ∀ i j, a i * Q x q i j * a j = a i * (if i = j then 2 else 0) * a j + a i * C i j * a j / 2 := fun i j => by
    simp only [Q, C, of_apply]
    split_ifs <;> ring
  simp only [e, Finset.sum_add_distrib, ← Finset.sum_div]
  rw [form_diag (fun _ => 2), ← Finset.mul_sum]
  have := form_bound hC a
  linarith

/-- With at most three states `Q` is positive definite wherever it is evaluated, with room for the tolerance … -/
theorem C97_Q {eig : Eig} (he : EigOK eig) (hn : nx ≤ 3) (x : Fin nx → ℝ) (q : Fin nq → ℝ) : isSPD eig (Q x q) = .ok true := by
  obtain ⟨b, h1, h2⟩ := isSPD_ok he (Q_symm x q) (tol := 1 / 10 ^ 8) (by norm_num)
  rw [h1, h2.2]
  refine posDef_of_form (sub_symm (Q_symm x q) _) fun a ha => ?_
  rw [form_sub]
  have h3 := Q_form x q a
  have h4 := norm_pos' a ha
  have h5 : (nx : ℝ) ≤ 3 := by exact_mod_cast hn
  nlinarith

/-- … with four it is positive semidefinite, … -/
theorem C97_Q_four (x : Fin 4 → ℝ) (q : Fin nq → ℝ) : (Q x q).PosSemidef := by
  refine .of_dotProduct_mulVec_nonneg (by rw [Matrix.IsHermitian, conjTranspose_eq_transpose_of_trivial, Q_symm]) fun a => ?_
  have := Q_form x q a
  norm_num at this
  simp only [star_trivial, dotProduct, mulVec, Finset.mul_sum]
  refine this.trans_eq (Finset.sum_congr rfl fun i _ => Finset.sum_congr rfl fun j _ => by ring)

/-- … but not always definite: the assertion fails at `x = (π, 0, 0, 0)`, `q = 0`. -/
theorem C97_Q_singular {eig : Eig} (he : EigOK eig) : isSPD eig (Q ![Real.pi, 0, 0, 0] (fun _ : Fin 1 => 0)) = .ok false := by
  obtain ⟨b, h1, h2⟩ := isSPD_ok he (Q_symm ![Real.pi, 0, 0, 0] (fun _ : Fin 1 => 0)) (tol := 1 / 10 ^ 8) (by norm_num)
  rw [h1]
  refine congrArg Except.ok (Bool.eq_false_iff.2 fun e => ?_)
  have h3 := form_of_posDef (h2.1 e) (fun _ => 1) (fun h => one_ne_zero (congrFun h 0))
  rw [form_sub] at h3
  have e' : Q ![Real.pi, 0, 0, 0] (fun _ : Fin 1 => (0 : ℝ)) = of fun i j => (if i = j then 2 else 0) - 1 / 2 := by
    ext i j
    fin_cases i <;> fin_cases j <;> simp [Q, qAngle, sumSlice, sliceIdx, clampIdx, List.range'] <;> norm_num
  rw [e'] at h3
  simp [Fin.sum_univ_four] at h3
  norm_num at h3

/-- `R` with one output, or with three outputs and three parameters, is positive definite for all parameters; … -/
theorem C97_R {eig : Eig} (he : EigOK eig) :
    (∀ q : Fin nq → ℝ, isSPD eig (R 1 q) = .ok true) ∧ ∀ q : Fin 3 → ℝ, isSPD eig (R 3 q) = .ok true := by
  constructor
  · intro q
    obtain ⟨b, h1, h2⟩ := isSPD_ok he (R_symm 1 q) (tol := 1 / 10 ^ 8) (by norm_num)
    rw [h1, h2.2]
    refine posDef_of_form (sub_symm (R_symm 1 q) _) fun a ha => ?_
    have h4 := norm_pos' a ha
    rw [form_sub, R_one]
    simp only [Fin.sum_univ_one, of_apply] at h4 ⊢
    nlinarith
  · intro q
    obtain ⟨b, h1, h2⟩ := isSPD_ok he (R_symm 3 q) (tol := 1 / 10 ^ 8) (by norm_num)
    rw [h1, h2.2]
    refine posDef_of_form (sub_symm (R_symm 3 q) _) fun a ha => ?_
    have h4 := norm_pos' a ha
    rw [form_sub, R_33]
    simp [Fin.sum_univ_three] at h4 ⊢
    nlinarith [Real.neg_one_le_sin (q 1), mul_self_nonneg (a 2), mul_self_nonneg (a 1), mul_self_nonneg (a 0),
      mul_nonneg (sub_nonneg.2 (Real.neg_one_le_sin (q 1))) (mul_self_nonneg (a 2))]

theorem three_pos {α β γ A D P : ℝ} (hα : 0 < α) (hβ : 0 < β) (hγ : 0 < γ) (hA : 0 ≤ A) (hD : 0 ≤ D) (hP : 0 ≤ P)
    (h : 0 < A + D / 2 + P / 2) : 0 < α * A + β * D + γ * P := by
  have h1 := mul_nonneg hα.le hA
  have h2 := mul_nonneg hβ.le hD
  have h3 := mul_nonneg hγ.le hP
  rcases hA.lt_or_eq with h' | h'
  · linarith [mul_pos hα h']
  rcases hD.lt_or_eq with h'' | h''
  · linarith [mul_pos hβ h'']
  · linarith [mul_pos hγ (show 0 < P by linarith)]

/-- … with three outputs and one parameter it is so exactly if `2 + 2 sin q₀` exceeds the tolerance. -/
theorem C97_R_one {eig : Eig} (he : EigOK eig) (q : Fin 1 → ℝ) :
    ∃ b : Bool, isSPD eig (R 3 q) = .ok b ∧ (b = true ↔ 1 / 10 ^ 8 < 2 + 2 * Real.sin (q 0)) := by
  obtain ⟨b, h1, h2⟩ := isSPD_ok he (R_symm 3 q) (tol := 1 / 10 ^ 8) (by norm_num)
  refine ⟨b, h1, h2.trans ⟨fun h => ?_, fun h => ?_⟩⟩
  · have h3 := form_of_posDef h ![0, 1, 1] (fun h => by simpa using congrFun h 1)
    rw [form_sub, R_31] at h3
    simp [Fin.sum_univ_three] at h3
    linarith
  · refine posDef_of_form (sub_symm (R_symm 3 q) _) fun a ha => ?_
    have h4 := norm_pos' a ha
    rw [form_sub, R_31]
    simp [Fin.sum_univ_three] at h4 ⊢
    rw [← sub_pos]
    refine (three_pos (A := a 0 * a 0) (D := (a 1 - a 2) ^ 2) (P := (a 1 + a 2) ^ 2) (α := 2 - 1 / 10 ^ 8) (β := 1 - 1 / 10 ^ 8 / 2)
      (γ := (2 + 2 * Real.sin (q 0) - 1 / 10 ^ 8) / 2) (by norm_num) (by norm_num) (by linarith) (mul_self_nonneg _) (sq_nonneg _)
      (sq_nonneg _) ?_).trans_eq ?_
    · exact h4.trans_eq (by ring)
    · ring

/-- `Pv` is positive definite whenever `Px` is, with the same tolerance. -/
theorem C97_Pv {eig : Eig} (he : EigOK eig) (q : Fin nq → ℝ) {Px : Matrix (Fin nx) (Fin nx) ℝ} (hs : Pxᵀ = Px)
    (h : isSPD eig Px = .ok true) : isSPD eig (Pv q Px) = .ok true := by
  obtain ⟨b, h1, h2⟩ := isSPD_ok he hs (tol := 1 / 10 ^ 8) (by norm_num)
  obtain ⟨b', h1', h2'⟩ := isSPD_ok he (Pv_symm q hs) (tol := 1 / 10 ^ 8) (by norm_num)
  rw [h1] at h
  cases h
  rw [h1', h2'.2]
  refine posDef_of_form (sub_symm (Pv_symm q hs) _) fun a ha => ?_
  have h3 := form_of_posDef (h2.1 rfl) a ha
  rw [form_sub] at h3 ⊢
  have e : ∀ i j, a i * Pv q Px i j * a j = a i * Px i j * a j +
      a i * (if i = j then (1 + Real.sin (sumSlice q none (some (-(i.1 : Int))))) else 0) * a j := fun i j => by
    rw [Pv_eq, Matrix.add_apply, diagonal_apply]
    ring
  simp only [e, Finset.sum_add_distrib]
  rw [form_diag (fun i => 1 + Real.sin (sumSlice q none (some (-(i.1 : Int)))))]
  have : 0 ≤ ∑ i : Fin nx, (1 + Real.sin (sumSlice q none (some (-(i.1 : Int))))) * (a i * a i) :=
    Finset.sum_nonneg fun i _ => mul_nonneg (by linarith [Real.neg_one_le_sin (sumSlice q none (some (-(i.1 : Int))))]) (mul_self_nonneg _)
  linarith

/-- So `test_model_vars` passes whatever is drawn, once `test_cov_pd` does, except with four states, or with three outputs and
one parameter; … -/
theorem C97_model_vars {eig : Eig} (he : EigOK eig) (hn : nx ≤ 3) (x : Fin nx → ℝ) {Px : Matrix (Fin nx) (Fin nx) ℝ} (hs : Pxᵀ = Px)
    (h : testCovPd eig Px = .ok ()) :
    (∀ q : Fin nq → ℝ, testModelVars eig 1 x q Px = .ok ()) ∧ ∀ q : Fin 3 → ℝ, testModelVars eig 3 x q Px = .ok () := by
  obtain ⟨b, h1, -⟩ := isSPD_ok he hs (tol := 1 / 10 ^ 8) (by norm_num)
  have hP : isSPD eig Px = .ok true := by
    unfold testCovPd at h
    rw [h1, py_bind_ok] at h
    cases b
    · cases h
    · exact h1
  constructor
  · intro q
    unfold testModelVars
    rw [C97_Q he hn x q, (C97_R he).1 q, C97_Pv he q hs hP]
    rfl
  · intro q
    unfold testModelVars
    rw [C97_Q he hn x q, (C97_R (nq := 0) he).2 q, C97_Pv he q hs hP]
    rfl

/-- … and there it can fail. -/
theorem C97_model_vars_fail {eig : Eig} (he : EigOK eig) (ny : Nat) (Px : Matrix (Fin 4) (Fin 4) ℝ) (x : Fin 3 → ℝ)
    (Px' : Matrix (Fin 3) (Fin 3) ℝ) :
    testModelVars eig ny ![Real.pi, 0, 0, 0] (fun _ : Fin 1 => 0) Px = .error .assertionError ∧
      testModelVars eig 3 x (fun _ : Fin 1 => -(Real.pi / 2)) Px' = .error .assertionError := by
  constructor
  · unfold testModelVars
    rw [C97_Q_singular he]
    rfl
  · obtain ⟨b, h1, h2⟩ := C97_R_one he fun _ => -(Real.pi / 2)
    have hb : b = false := by
      refine Bool.eq_false_iff.2 fun e => ?_
      have := h2.1 e
      rw [Real.sin_neg, Real.sin_pi_div_two] at this
      norm_num at this
    unfold testModelVars
    rw [C97_Q he le_rfl, h1, hb]
    rfl

/-! ### The exact tests of the transforms -/

/-- **C97.** In exact arithmetic the tests of square roots, sigma points and transforms of affine functions pass for all states, all
matrices `A`, all `kappa` with `nx + kappa > 0`, and all covariances that the square root takes (positive definite with Cholesky factors, positive semidefinite with
singular values). -/
theorem C97_exact {kind : SqrtKind (Fin nx)} {kappa : ℝ} (hk : 0 < (nx : ℝ) + kappa) {P : Matrix (Fin nx) (Fin nx) ℝ} (hP : RootDom kind P)
    (x : Fin nx → ℝ) (A : Matrix (Fin nx) (Fin nx) ℝ) :
    ∃ ut, UT.init nx kind kappa = .ok ut ∧ testUtSqrt ut P = .ok () ∧ testAffineUt ut x P A = .ok () ∧ testSigmaPoints ut x P = .ok () := by
  obtain ⟨ut, hu, -, hkap, hkind, -⟩ := (C41_weights nx kind kappa).1 hk.ne'
  have root : ∀ c : ℝ, 0 < c → ∃ S, ut.sqrt (c • P) = .ok S ∧ Sᵀ * S = c • P := by
    intro c hc
    cases kind with
    | cholesky =>
      have hP' : P.PosDef := hP
      have h2 : (c • P).PosDef := hP'.smul hc
      have hsym : (c • P)ᵀ = c • P := by simpa [Matrix.IsHermitian] using h2.1
      exact (C41_cholesky hkind _ hsym).1 h2
    | svd g =>
      have hP' : SvdOK g ∧ P.PosSemidef := hP
      exact C41_svd hP'.1 hkind _ (hP'.2.smul hc.le)
  refine ⟨ut, hu, ?_, ?_, ?_⟩
  · obtain ⟨S, h1, h2⟩ := root 1 one_pos
    rw [one_smul] at h1 h2
    unfold testUtSqrt
    rw [h1, py_bind_ok]
    refine close2 ?_
    rw [← h2]
    ext i j
    simp only [of_apply, mul_apply, transpose_apply]
  · obtain ⟨S, h1, h2⟩ := root _ hk
    obtain ⟨d, h3, h4, h5, h6⟩ := C42_affine hu x P S h1 h2 A fun i => (i.1 : ℝ)
    have ef : (fun x : Fin nx → ℝ => (fun i => ∑ j, A i j * x j) + fun i : Fin nx => (i.1 : ℝ)) = fun x => A *ᵥ x + fun i => (i.1 : ℝ) := rfl
    unfold testAffineUt
    simp only [ef]
    have h7 : d.Po = of fun k l => ∑ i, ∑ j, P i j * A k i * A l j := by
      rw [h5]
      ext k l
      simp only [of_apply, mul_apply, transpose_apply, Finset.sum_mul]
      rw [Finset.sum_comm]
      exact Finset.sum_congr rfl fun i _ => Finset.sum_congr rfl fun j _ => by ring
    have h4' : d.mean = (fun i => ∑ j, A i j * x j) + fun i : Fin nx => (i.1 : ℝ) := h4
    rw [h3, py_bind_ok, close1 h4', py_bind_ok, close2 h7, py_bind_ok, close2 h6]
  · obtain ⟨S, h1, h2⟩ := root _ hk
    obtain ⟨idev, isigma, h3, h4, h5, h6⟩ := C41_sigma_points hu x P S h1 h2
    unfold testSigmaPoints
    have h7 : (of fun i j => ∑ k, idev k i * idev k j * ut.weights k : Matrix (Fin nx) (Fin nx) ℝ) = P := by
      rw [← h6]
      ext i j
      simp only [of_apply, wcov, h5, h4, Pi.sub_apply]
      exact Finset.sum_congr rfl fun k _ => by ring
    have h8 : (fun i => ∑ k, ut.weights k * isigma k i) = x := h5
    rw [h3, py_bind_ok]
    simp only
    rw [close1 h8, py_bind_ok, close2 h7]

/-! ### Concrete cases -/

/-- An `np.linalg.eig` as assumed exists. -/
theorem eigOK_exists : ∃ eig : Eig, EigOK eig := by
  classical
  refine ⟨fun n M => if h : M.IsHermitian then .ok h.eigenvalues else .error .linAlgError, fun n M hM => ?_⟩
  have h : M.IsHermitian := by rw [Matrix.IsHermitian, conjTranspose_eq_transpose_of_trivial, hM]
  exact ⟨h.eigenvalues, dif_pos h, by simpa using h.charpoly_eq⟩

/-- A draw of the fixture `cov` with two states. -/
example {eig : Eig} (he : EigOK eig) : testCovPd eig (cov !![2, 0, 0; 0, 0, 2]) = .ok () := by
  have e : cov !![2, 0, 0; 0, 0, 2] = (1 : Matrix (Fin 2) (Fin 2) ℝ) := by
    ext i j
    fin_cases i <;> fin_cases j <;> simp [cov, Fin.sum_univ_three]
  refine (C97_cov he _).2.2.1 (posDef_of_form (sub_symm (C97_cov he _).1 _) fun a ha => ?_)
  have := norm_pos' a ha
  rw [form_sub, e]
  simp [Fin.sum_univ_two] at this ⊢
  nlinarith

example : RootDom .cholesky (1 : Matrix (Fin 2) (Fin 2) ℝ) ∧ (0 : ℝ) < ((2 : Nat) : ℝ) + 0.5 := ⟨Matrix.PosDef.one, by norm_num⟩

/-- A wrong square root is noticed: with the singular values themselves in the place of their roots `test_ut_sqrt` fails. -/
example : testUtSqrt (nx := 1) ⟨0, 2, fun _ => 0.5, .svd fun _ => .ok (1, fun _ => 16, 1)⟩ (of fun _ _ => 4) = .error .assertionError := by
  have hS : (of fun j i => (1 : Matrix (Fin 1) (Fin 1) ℝ) i j * Real.sqrt 16 : Matrix (Fin 1) (Fin 1) ℝ) = of fun _ _ => 4 := by
    ext i j
    have : i = j := Subsingleton.elim _ _
    rw [of_apply, of_apply, this, one_apply_eq, one_mul, show (16 : ℝ) = 4 ^ 2 by norm_num, Real.sqrt_sq (by norm_num)]
  have h1 : (⟨0, 2, fun _ => 0.5, .svd fun _ => .ok (1, fun _ => 16, 1)⟩ : UT 1).sqrt (of fun _ _ => 4) = .ok (of fun _ _ => 4) := congrArg Except.ok hS
  unfold testUtSqrt assertClose
  rw [h1, py_bind_ok]
  simp only
  obtain ⟨r, h2, h3⟩ := C61_within_tol (arr2 (of fun i j : Fin 1 => ∑ k : Fin 1, (4 : ℝ) * 4)) (arr2 (of fun _ _ : Fin 1 => (4 : ℝ))) (arr2_wf _) (arr2_wf _)
    (1 / 10 ^ 8) (1 / 10 ^ 8)
  have hr : r = false := by
    refine Bool.eq_false_iff.2 fun e => ?_
    obtain ⟨sh, hsh, h4⟩ := h3.1 e
    have : sh = [1, 1] := by
      have h5 := (bcShape2_iff _ _ _).2 hsh
      have h6 : bcShape2 [1, 1] [1, 1] = some [1, 1] := by decide
      exact Option.some.inj (h5.symm.trans h6)
    subst this
    have h7 := h4 [0, 0] (by simp [InBounds])
    rw [← bcEntry_self (a := arr2 (of fun i j : Fin 1 => ∑ k : Fin 1, (4 : ℝ) * 4)) (show InBounds [1, 1] [0, 0] by simp [InBounds]),
      ← bcEntry_self (a := arr2 (of fun _ _ : Fin 1 => (4 : ℝ))) (show InBounds [1, 1] [0, 0] by simp [InBounds])] at h7
    norm_num [arr2, cOrder] at h7
  have h8 : (ArrayDiff.mk (.ok (arr2 (of fun i j : Fin 1 => ∑ k : Fin 1, (4 : ℝ) * 4))) (.ok (arr2 (of fun _ _ : Fin 1 => (4 : ℝ))))).lt
      (.num (1 / 10 ^ 8)) = .ok false := hr ▸ h2
  exact congrArg (fun z : Py Bool => z >>= fun b => pyAssert b) h8

/-- **C97** (angles). The angles beside the diagonal of `Q`, with three states and two parameters: `sum(x[:1]) + sum(q[0:1])` and `sum(x[:3]) + sum(q[-1:2])`. -/
theorem C97_angle (x : Fin 3 → ℝ) (q : Fin 2 → ℝ) : qAngle x q 0 1 = x 0 + q 0 ∧ qAngle x q 1 2 = x 0 + x 1 + x 2 + q 1 := by
  have e1 : sliceIdx 3 none (some 1) 1 = [0] := by decide
  have e2 : sliceIdx 2 (some 0) (some 1) 1 = [0] := by decide
  have e3 : sliceIdx 3 none (some 3) 1 = [0, 1, 2] := by decide
  have e4 : sliceIdx 2 (some (-1)) (some 2) 1 = [1] := by decide
  constructor
  · simp [qAngle, sumSlice, e1, e2]
  · norm_num [qAngle, sumSlice, e3, e4]
    rw [← add_assoc]
    rfl

end Ceacoest.TestKalman
