import Verif.Lemmas.Superconvergence
import Verif.Spec.Pade
import Mathlib.Algebra.Polynomial.Taylor
import Mathlib.LinearAlgebra.Matrix.NonsingularInverse

/-! # Collocation of homogeneous linear systems (C87) -/

namespace Ceacoest
open Polynomial Spec RK Matrix
variable {nx : Nat}

theorem poly_zero_of_derivs {p : ℝ[X]} (t0 : ℝ) (h : ∀ k, (derivative^[k] p).eval t0 = 0) : p = 0 := by
  refine taylor_injective t0 ?_
  rw [map_zero]
  refine Polynomial.ext fun k => ?_
  rw [taylor_coeff, coeff_zero]
  have h1 := congrArg (eval t0) (congrFun (factorial_smul_hasseDeriv (R := ℝ) k) p)
  have h2 : (k.factorial : ℝ) * (hasseDeriv k p).eval t0 = (derivative^[k] p).eval t0 := by
    rw [← h1]
    simp
  rw [h k] at h2
  exact (mul_eq_zero.1 h2).resolve_left (by positivity)

/-- `∑ A ^ (N + 1 - i) ω⁽ⁱ⁺ᵏ⁾`. -/
noncomputable def stageMat (A : Matrix (Fin nx) (Fin nx) ℝ) (ω : ℝ[X]) (N k : Nat) (s : ℝ) : Matrix (Fin nx) (Fin nx) ℝ :=
  ∑ i ∈ Finset.range (N + 2), (derivative^[i + k] ω).eval s • A ^ (N + 1 - i)

theorem stageMat_succ (A : Matrix (Fin nx) (Fin nx) ℝ) {ω : ℝ[X]} {N : Nat} (hω : ω.natDegree ≤ N + 1) (k : Nat) (s : ℝ) :
    stageMat A ω N (k + 1) s = A * stageMat A ω N k s - (derivative^[k] ω).eval s • A ^ (N + 2) := by
  unfold stageMat
  rw [Finset.sum_range_succ, Finset.sum_range_succ' _ (N + 1), show derivative^[N + 1 + (k + 1)] ω = 0 from iterate_derivative_eq_zero (by omega), mul_add,
    Finset.mul_sum]
  simp only [eval_zero, zero_smul, add_zero, Nat.zero_add, Nat.sub_zero]
  rw [mul_smul_comm, ← pow_succ', add_sub_cancel_right]
  refine Finset.sum_congr rfl fun i hi => ?_
  have := Finset.mem_range.1 hi
  rw [mul_smul_comm, ← pow_succ', show i + (k + 1) = i + 1 + k by omega, show N + 1 - (i + 1) + 1 = N + 1 - i by omega]

theorem stageMat_comm (A : Matrix (Fin nx) (Fin nx) ℝ) (ω : ℝ[X]) (N k : Nat) (s : ℝ) : stageMat A ω N k s * A = A * stageMat A ω N k s := by
  unfold stageMat
  rw [Finset.sum_mul, Finset.mul_sum]
  refine Finset.sum_congr rfl fun i _ => ?_
  rw [smul_mul_assoc, mul_smul_comm, ← pow_succ, ← pow_succ']

/-- The derivatives of the collocation polynomials of a homogeneous system. -/
theorem stage_derivs {A : Matrix (Fin nx) (Fin nx) ℝ} {ω : ℝ[X]} {y : Fin nx → ℝ[X]} {u : Fin nx → ℝ}
    (hu : ∀ k s, evalAt (derivOf (k + 1) y) s = A *ᵥ evalAt (derivOf k y) s + (derivative^[k] ω).eval s • u) (t0 : ℝ) (k : Nat) :
    evalAt (derivOf k y) t0 = A ^ k *ᵥ evalAt y t0 + ∑ i ∈ Finset.range k, (derivative^[i] ω).eval t0 • (A ^ (k - 1 - i) *ᵥ u) := by
  induction k with
  | zero =>
    simp only [pow_zero, one_mulVec, Finset.range_zero, Finset.sum_empty, add_zero]
    rfl
  | succ k ih =>
    rw [hu, ih, mulVec_add, mulVec_mulVec, ← pow_succ', Finset.sum_range_succ, mulVec_sum, Nat.add_sub_cancel, Nat.sub_self, pow_zero, one_mulVec, add_assoc]
    congr 2
    refine Finset.sum_congr rfl fun i hi => ?_
    have := Finset.mem_range.1 hi
    rw [mulVec_smul, mulVec_mulVec, ← pow_succ', show k - 1 - i + 1 = k - i by omega]

/-- What their degree says about the residual. -/
theorem stage_rel {A : Matrix (Fin nx) (Fin nx) ℝ} {ω : ℝ[X]} {N : Nat} {y : Fin nx → ℝ[X]} {u : Fin nx → ℝ} (hy : ∀ j, (y j).natDegree ≤ N + 1)
    (hu : ∀ k s, evalAt (derivOf (k + 1) y) s = A *ᵥ evalAt (derivOf k y) s + (derivative^[k] ω).eval s • u) (t0 : ℝ) :
    stageMat A ω N 0 t0 *ᵥ u = -(A ^ (N + 2) *ᵥ evalAt y t0) := by
  have h1 := stage_derivs hu t0 (N + 2)
  have h2 : evalAt (derivOf (N + 2) y) t0 = 0 := funext fun j => by
    simp only [evalAt, derivOf]
    rw [iterate_derivative_eq_zero (lt_of_le_of_lt (hy j) (by omega))]
    simp
  rw [h2] at h1
  have h3 : stageMat A ω N 0 t0 *ᵥ u = ∑ i ∈ Finset.range (N + 2), (derivative^[i] ω).eval t0 • (A ^ (N + 2 - 1 - i) *ᵥ u) := by
    rw [stageMat, sum_mulVec]
    refine Finset.sum_congr rfl fun i _ => ?_
    rw [smul_mulVec]
    rfl
  rw [h3, eq_neg_iff_add_eq_zero, add_comm]
  exact h1.symm

/-- The collocation polynomials of a homogeneous system at two times. -/
theorem stage_transfer {A : Matrix (Fin nx) (Fin nx) ℝ} {ω : ℝ[X]} {N : Nat} (hω : ω.natDegree ≤ N + 1) {y : Fin nx → ℝ[X]} {u : Fin nx → ℝ}
    (hy : ∀ j, (y j).natDegree ≤ N + 1)
    (hu : ∀ k s, evalAt (derivOf (k + 1) y) s = A *ᵥ evalAt (derivOf k y) s + (derivative^[k] ω).eval s • u) (t0 s : ℝ) :
    stageMat A ω N 0 t0 *ᵥ evalAt y s = stageMat A ω N 0 s *ᵥ evalAt y t0 := by
  have hrel := stage_rel hy hu t0
  set R0 := stageMat A ω N 0 t0 with hR0
  set y0 := evalAt y t0 with hy0
  have hall : ∀ k, R0 *ᵥ evalAt (derivOf k y) t0 = stageMat A ω N k t0 *ᵥ y0 := by
    intro k
    induction k with
    | zero => rfl
    | succ k ih =>
      rw [hu, mulVec_add, mulVec_mulVec, hR0, stageMat_comm, ← mulVec_mulVec, ← hR0, ih, mulVec_smul, hrel, stageMat_succ A hω, sub_mulVec,
        mulVec_mulVec, smul_mulVec, smul_neg, sub_eq_add_neg]
  -- polynomials with these derivatives
  refine funext fun j => ?_
  set g : ℝ[X] := ∑ k, C (R0 j k) * y k - ∑ k, (∑ i ∈ Finset.range (N + 2), C ((A ^ (N + 1 - i)) j k) * derivative^[i] ω) * C (y0 k) with hg
  have hg0 : g = 0 := poly_zero_of_derivs t0 fun m => by
    have := congrFun (hall m) j
    rw [hg, iterate_map_sub, iterate_derivative_sum, iterate_derivative_sum]
    simp only [mulVec, dotProduct, evalAt, derivOf, stageMat, Matrix.sum_apply, Matrix.smul_apply, smul_eq_mul] at this
    simp only [mul_comm _ (C (y0 _)), iterate_derivative_C_mul, iterate_derivative_sum, ← Function.iterate_add_apply, eval_sub, eval_finset_sum, eval_mul, eval_C]
    rw [this, sub_eq_zero]
    refine Finset.sum_congr rfl fun k _ => ?_
    rw [mul_comm]
    congr 1
    refine Finset.sum_congr rfl fun i _ => ?_
    rw [mul_comm, Nat.add_comm i m]
  have := congrArg (eval s) hg0
  rw [hg, eval_sub, eval_zero, sub_eq_zero] at this
  simp only [eval_finset_sum, eval_mul, eval_C] at this
  simp only [mulVec, dotProduct, evalAt, stageMat, Matrix.sum_apply, Matrix.smul_apply, smul_eq_mul, Nat.add_zero]
  rw [this]
  refine Finset.sum_congr rfl fun k _ => ?_
  congr 1
  refine Finset.sum_congr rfl fun i _ => mul_comm _ _

theorem prod_pow_deriv (a b : ℝ) {N r : Nat} (hr : r ≤ N) :
    (derivative^[N + r] ((X - C a) ^ N * (X - C b) ^ N)).eval a = ((N + r).choose r * N.factorial * N.descFactorial r : ℝ) * (a - b) ^ (N - r) := by
  rw [iterate_derivative_mul, eval_finset_sum, Finset.sum_eq_single r]
  · rw [Nat.add_sub_cancel, iterate_derivative_X_sub_pow_self, iterate_derivative_X_sub_pow]
    simp
    ring
  · intro k hk hkr
    have hk := Finset.mem_range.1 hk
    rw [iterate_derivative_X_sub_pow]
    rcases Nat.lt_or_ge (N + r - k) N with h | h
    · simp [zero_pow (show N - (N + r - k) ≠ 0 by omega)]
    · rw [Nat.descFactorial_of_lt (by omega)]
      simp
  · intro h
    exact absurd (Finset.mem_range.2 (by omega)) h

theorem pade_identity {N j : Nat} (hj : j ≤ N) : ((N + 1).factorial : ℝ) / ((2 * N).factorial : ℝ) *
    (((N + (N - j)).choose (N - j) : ℝ) * (N.factorial : ℝ) * (N.descFactorial (N - j) : ℝ)) = ((N + 1).factorial : ℝ) * padeCoef N j := by
  have h1 := Nat.add_choose_mul_factorial_mul_factorial N (N - j)
  have h1' : ((N + (N - j)).choose (N - j) : ℝ) * (N.factorial : ℝ) * ((N - j).factorial : ℝ) = ((N + (N - j)).factorial : ℝ) := by exact_mod_cast h1
  have h2 := Nat.factorial_mul_descFactorial (n := N) (k := N - j) (by omega)
  rw [show N - (N - j) = j by omega] at h2
  have h2' : (j.factorial : ℝ) * (N.descFactorial (N - j) : ℝ) = (N.factorial : ℝ) := by exact_mod_cast h2
  rw [padeCoef, show 2 * N - j = N + (N - j) by omega, ← h1']
  have hd : (N.descFactorial (N - j) : ℝ) = (N.factorial : ℝ) / (j.factorial : ℝ) := by
    rw [eq_div_iff (by positivity), mul_comm]; exact h2'
  rw [hd]
  field_simp

/-- The derivatives of the node polynomial at the two ends. -/
theorem nodePoly_ends {c K : List ℝ} {J : List (List ℝ)} {N : Nat} (h : PointsOK c J N)
    (hK : ∀ q : ℝ[X], q.natDegree ≤ 2 * N - 1 → ∑ l ∈ Finset.range (N + 1), K.getD l 0 * q.eval (c.getD l 0) = integral q 0 1) (t0 : ℝ) {len : ℝ}
    (hlen : len ≠ 0) {j : Nat} (hj : j ≤ N) :
    (derivative^[N + 1 - j] (nodePoly c N t0 len)).eval t0 = ((N + 1).factorial : ℝ) * (padeCoef N j * (-len) ^ j) ∧
      (derivative^[N + 1 - j] (nodePoly c N t0 len)).eval (t0 + len) = ((N + 1).factorial : ℝ) * (padeCoef N j * len ^ j) := by
  have hN := h.pos
  rw [nodePoly_rodrigues h hK t0 hlen, iterate_derivative_C_mul, ← Function.iterate_add_apply, show N + 1 - j + (N - 1) = N + (N - j) by omega, bumpOn, mul_pow]
  constructor
  · rw [eval_mul, eval_C, prod_pow_deriv _ _ (by omega), ← mul_assoc, pade_identity hj, show N - (N - j) = j by omega,
      show t0 - (t0 + len) = -len by ring]
    ring
  · rw [mul_comm ((X - C t0) ^ N), eval_mul, eval_C, prod_pow_deriv _ _ (by omega), ← mul_assoc, pade_identity hj, show N - (N - j) = j by omega,
      show t0 + len - t0 = len by ring]
    ring

theorem stageMat_ends {c K : List ℝ} {J : List (List ℝ)} {N : Nat} (h : PointsOK c J N)
    (hK : ∀ q : ℝ[X], q.natDegree ≤ 2 * N - 1 → ∑ l ∈ Finset.range (N + 1), K.getD l 0 * q.eval (c.getD l 0) = integral q 0 1) (t0 : ℝ) {len : ℝ}
    (hlen : len ≠ 0) (A : Matrix (Fin nx) (Fin nx) ℝ) :
    stageMat A (nodePoly c N t0 len) N 0 t0 = ((N + 1).factorial : ℝ) • padeNum N (-(len • A)) ∧
      stageMat A (nodePoly c N t0 len) N 0 (t0 + len) = ((N + 1).factorial : ℝ) • padeNum N (len • A) := by
  have e0 : (nodePoly c N t0 len).eval t0 = 0 := by
    have := nodePoly_eval (c := c) (N := N) t0 len (Nat.zero_le N)
    rwa [nodePoint, h.first, mul_zero, add_zero] at this
  have e1 : (nodePoly c N t0 len).eval (t0 + len) = 0 := by
    have := nodePoly_eval (c := c) (N := N) t0 len le_rfl
    rwa [nodePoint, h.last, mul_one] at this
  have refl : ∀ f : Nat → Matrix (Fin nx) (Fin nx) ℝ, f 0 = 0 → ∑ i ∈ Finset.range (N + 2), f i = ∑ j ∈ Finset.range (N + 1), f (N + 1 - j) := fun f hf => by
    rw [Finset.sum_range_succ', hf, add_zero, ← Finset.sum_range_reflect]
    refine Finset.sum_congr rfl fun j hj => ?_
    have := Finset.mem_range.1 hj
    congr 1
    omega
  have hpow : ∀ j, (-(len • A)) ^ j = (-len) ^ j • A ^ j := fun j => by rw [← neg_smul, smul_pow]
  unfold stageMat padeNum
  rw [refl _ (by simp [e0]), refl _ (by simp [e1]), Finset.smul_sum, Finset.smul_sum]
  constructor <;> refine Finset.sum_congr rfl fun j hj => ?_ <;> have hj := Nat.lt_succ_iff.1 (Finset.mem_range.1 hj)
  · rw [Nat.add_zero, (nodePoly_ends h hK t0 hlen hj).1, hpow, show N + 1 - (N + 1 - j) = j by omega, smul_smul, smul_smul, mul_assoc]
  · rw [Nat.add_zero, (nodePoly_ends h hK t0 hlen hj).2, smul_pow, show N + 1 - (N + 1 - j) = j by omega, smul_smul, smul_smul, mul_assoc]

/-- The collocation polynomials of one piece of a homogeneous linear system. -/
theorem piece_hom {c : List ℝ} {J : List (List ℝ)} {N : Nat} (h : PointsOK c J N) {len : ℝ}
    (hlen : 0 < len) {A : Matrix (Fin nx) (Fin nx) ℝ} {x rhs : Nat → Fin nx → ℝ}
    (hd : ∀ j, ∀ k < N, x (k + 1) j - x k j - (∑ l ∈ Finset.range (N + 1), (J.getD k []).getD l 0 * rhs l j) * len = 0)
    (hr : ∀ l ≤ N, rhs l = A *ᵥ x l) : ∃ (y : Fin nx → ℝ[X]) (u : Fin nx → ℝ), (∀ j, (y j).natDegree ≤ N + 1) ∧
      (∀ l ≤ N, evalAt y (nodePoint c 0 len l) = x l) ∧
      ∀ k s, evalAt (derivOf (k + 1) y) s = A *ᵥ evalAt (derivOf k y) s + (derivative^[k] (nodePoly c N 0 len)).eval s • u := by
  have hpoly : ∀ j : Fin nx, ∃ y : ℝ[X], y.natDegree ≤ N + 1 ∧ (∀ l ≤ N, y.eval (0 + len * c.getD l 0) = x l j) ∧
      ∀ l ≤ N, (derivative y).eval (0 + len * c.getD l 0) = rhs l j := fun j =>
    (defect_iff h 0 len hlen (fun l => x l j) fun l => rhs l j).1 (hd j)
  choose y hy1 hy2 hy3 using hpoly
  have hyl : ∀ l ≤ N, evalAt y (nodePoint c 0 len l) = x l := fun l hl => funext fun j => hy2 j l hl
  obtain ⟨u, hu⟩ := piece_poly h hlen.ne' (A := A) (y := y) (b := fun _ => 0) hy1 (fun j => by simp) fun l hl => by
    rw [hyl l hl, ← hr l hl]
    funext j
    have := hy3 j l hl
    simp only [evalAt, derivOf, Function.iterate_one, nodePoint, Pi.add_apply, eval_zero, add_zero]
    exact this
  refine ⟨y, u, hy1, hyl, fun k s => ?_⟩
  have e : evalAt (derivOf k fun _ : Fin nx => (0 : ℝ[X])) s = 0 := funext fun j => by
    simp only [evalAt, derivOf]
    rw [iterate_map_zero]
    simp
  rw [hu k s, e, add_zero]

/-- One piece of a homogeneous linear system. -/
theorem piece_pade {c K : List ℝ} {J : List (List ℝ)} {N : Nat} (h : PointsOK c J N)
    (hK : ∀ q : ℝ[X], q.natDegree ≤ 2 * N - 1 → ∑ l ∈ Finset.range (N + 1), K.getD l 0 * q.eval (c.getD l 0) = integral q 0 1) {len : ℝ}
    (hlen : 0 < len) {A : Matrix (Fin nx) (Fin nx) ℝ} {x rhs : Nat → Fin nx → ℝ}
    (hd : ∀ j, ∀ k < N, x (k + 1) j - x k j - (∑ l ∈ Finset.range (N + 1), (J.getD k []).getD l 0 * rhs l j) * len = 0)
    (hr : ∀ l ≤ N, rhs l = A *ᵥ x l) : padeNum N (-(len • A)) *ᵥ x N = padeNum N (len • A) *ᵥ x 0 := by
  obtain ⟨y, u, hy1, hyl, hu'⟩ := piece_hom h hlen hd hr
  have ht := stage_transfer (le_of_eq (nodePoly_natDegree c N 0 len)) hy1 hu' 0 (0 + len)
  rw [(stageMat_ends h hK 0 hlen.ne' A).1, (stageMat_ends h hK 0 hlen.ne' A).2, smul_mulVec, smul_mulVec] at ht
  have h0 : evalAt y 0 = x 0 := by
    rw [← hyl 0 (Nat.zero_le _), nodePoint, h.first, mul_zero, add_zero]
  have h1 : evalAt y (0 + len) = x N := by
    rw [← hyl N le_rfl, nodePoint, h.last, mul_one]
  rw [h0, h1] at ht
  have := congrArg (((N + 1).factorial : ℝ)⁻¹ • ·) ht
  simp only [smul_smul] at this
  rwa [inv_mul_cancel₀ (by positivity), one_smul, one_smul] at this

/-- The same for the difference of two solutions, in terms of the defects. -/
theorem piece_pade_defects {c K : List ℝ} {J : List (List ℝ)} {N : Nat} (h : PointsOK c J N)
    (hK : ∀ q : ℝ[X], q.natDegree ≤ 2 * N - 1 → ∑ l ∈ Finset.range (N + 1), K.getD l 0 * q.eval (c.getD l 0) = integral q 0 1) {len : ℝ}
    (hlen : 0 < len) {A : Matrix (Fin nx) (Fin nx) ℝ} {x x' rhs rhs' : Nat → List ℝ}
    (hd : ∀ a ∈ defects J rhs x N nx 0 len, a = 0) (hd' : ∀ a ∈ defects J rhs' x' N nx 0 len, a = 0)
    (hr : ∀ l ≤ N, toVec nx (rhs l) - toVec nx (rhs' l) = A *ᵥ (toVec nx (x l) - toVec nx (x' l))) :
    padeNum N (-(len • A)) *ᵥ (toVec nx (x N) - toVec nx (x' N)) = padeNum N (len • A) *ᵥ (toVec nx (x 0) - toVec nx (x' 0)) := by
  refine piece_pade h hK hlen (x := fun l => toVec nx (x l) - toVec nx (x' l)) (rhs := fun l => toVec nx (rhs l) - toVec nx (rhs' l)) (fun j k hk => ?_) hr
  have h1 := defects_zero_iff.1 hd j j.2 k hk
  have h2 := defects_zero_iff.1 hd' j j.2 k hk
  simp only [Nat.zero_add] at h1 h2
  simp only [Pi.sub_apply, toVec, mul_sub, Finset.sum_sub_distrib]
  linear_combination h1 - h2

/-! ### Invariants -/

theorem padeCoef_zero (N : Nat) : padeCoef N 0 = 1 := by
  unfold padeCoef
  simp only [Nat.sub_zero, Nat.factorial_zero, Nat.cast_one, mul_one]
  exact div_self (by positivity)

theorem padeCoef_nonneg (N j : Nat) : 0 ≤ padeCoef N j := by unfold padeCoef; positivity

theorem padeCoef_le {N j : Nat} (hj : j ≤ N) : padeCoef N j ≤ 1 / (j.factorial : ℝ) := by
  have h := Nat.descFactorial_le j (show N ≤ 2 * N by omega)
  have h1 := Nat.factorial_mul_descFactorial hj
  have h2 := Nat.factorial_mul_descFactorial (show j ≤ 2 * N by omega)
  have h' : (N.descFactorial j : ℝ) ≤ ((2 * N).descFactorial j : ℝ) := by exact_mod_cast h
  have h1' : ((N - j).factorial : ℝ) * (N.descFactorial j : ℝ) = (N.factorial : ℝ) := by exact_mod_cast h1
  have h2' : ((2 * N - j).factorial : ℝ) * ((2 * N).descFactorial j : ℝ) = ((2 * N).factorial : ℝ) := by exact_mod_cast h2
  unfold padeCoef
  rw [div_le_div_iff₀ (by positivity) (by positivity), ← h1', ← h2']
  have := mul_le_mul_of_nonneg_left h' (by positivity : (0 : ℝ) ≤ ((2 * N - j).factorial : ℝ) * ((N - j).factorial : ℝ) * (j.factorial : ℝ))
  linarith

theorem padeNum_near {N : Nat} {M : Matrix (Fin nx) (Fin nx) ℝ} {μ : ℝ} (hμ : 0 ≤ μ) (hM : ∀ v, ‖M *ᵥ v‖ ≤ μ * ‖v‖) (hs : μ ≤ 1 / 3) (v : Fin nx → ℝ) :
    ‖padeNum N M *ᵥ v - v‖ ≤ 1 / 2 * ‖v‖ := by
  unfold padeNum
  rw [sum_mulVec, Finset.sum_range_succ', padeCoef_zero, pow_zero, one_smul, one_mulVec, add_sub_cancel_right]
  refine (norm_sum_le _ _).trans ?_
  have h1 : ∀ j ∈ Finset.range N, ‖(padeCoef N (j + 1) • M ^ (j + 1)) *ᵥ v‖ ≤ μ ^ (j + 1) / ((j + 1).factorial : ℝ) * ‖v‖ := fun j hj => by
    have hj := Finset.mem_range.1 hj
    rw [smul_mulVec, norm_smul, Real.norm_of_nonneg (padeCoef_nonneg _ _)]
    calc _ ≤ 1 / ((j + 1).factorial : ℝ) * (μ ^ (j + 1) * ‖v‖) :=
          mul_le_mul (padeCoef_le (by omega)) (pow_mulVec_le hμ hM _ _) (norm_nonneg _) (by positivity)
      _ = _ := by ring
  refine (Finset.sum_le_sum h1).trans ?_
  rw [← Finset.sum_mul]
  refine mul_le_mul_of_nonneg_right ?_ (norm_nonneg _)
  have h2 := Real.sum_le_exp_of_nonneg hμ (N + 1)
  rw [Finset.sum_range_succ'] at h2
  have h3 := (Real.exp_le_exp.2 hs).trans exp_third
  simp only [pow_zero, Nat.factorial_zero, Nat.cast_one, div_one] at h2
  linarith

theorem padeNum_unit {N : Nat} {M : Matrix (Fin nx) (Fin nx) ℝ} {μ : ℝ} (hμ : 0 ≤ μ) (hM : ∀ v, ‖M *ᵥ v‖ ≤ μ * ‖v‖) (hs : μ ≤ 1 / 3) :
    IsUnit (padeNum N M) := by
  rw [← mulVec_injective_iff_isUnit]
  intro v w hvw
  have h := padeNum_near (N := N) hμ hM hs (v - w)
  have e : padeNum N M *ᵥ (v - w) = 0 := by rw [mulVec_sub]; exact sub_eq_zero.2 hvw
  rw [e, zero_sub, norm_neg] at h
  have : ‖v - w‖ ≤ 0 := by linarith
  exact sub_eq_zero.1 (norm_le_zero_iff.1 this)

theorem padeNum_comm (N : Nat) (M : Matrix (Fin nx) (Fin nx) ℝ) : Commute (padeNum N (-M)) (padeNum N M) := by
  unfold padeNum
  refine Commute.sum_left _ _ _ fun i _ => Commute.sum_right _ _ _ fun j _ => ?_
  exact (((Commute.neg_left (Commute.refl M)).pow_pow i j).smul_left _).smul_right _

theorem padeNum_adjoint {N : Nat} {M H : Matrix (Fin nx) (Fin nx) ℝ} (h : H * M = -(Mᵀ * H)) : H * padeNum N M = (padeNum N (-M))ᵀ * H := by
  have hp : ∀ j, H * M ^ j = ((-M) ^ j)ᵀ * H := fun j => by
    induction j with
    | zero => simp
    | succ j ih =>
      rw [pow_succ, ← mul_assoc, ih, mul_assoc, h, pow_succ', transpose_mul, transpose_neg, mul_assoc, neg_mul]
  unfold padeNum
  rw [Finset.mul_sum, transpose_sum, Finset.sum_mul]
  refine Finset.sum_congr rfl fun j _ => ?_
  rw [mul_smul_comm, hp, transpose_smul, smul_mul_assoc]

/-- A quadratic form that the differential equation leaves constant is the same at both ends of a piece. -/
theorem pade_invariant {N : Nat} {M H : Matrix (Fin nx) (Fin nx) ℝ} (h : H * M = -(Mᵀ * H)) (hu : IsUnit (padeNum N (-M))) {x0 x1 : Fin nx → ℝ}
    (hx : padeNum N (-M) *ᵥ x1 = padeNum N M *ᵥ x0) : x1 ⬝ᵥ H *ᵥ x1 = x0 ⬝ᵥ H *ᵥ x0 := by
  set Q := padeNum N (-M) with hQ
  set P := padeNum N M with hP
  have hc : Q * P = P * Q := padeNum_comm N M
  have hinj := mulVec_injective_iff_isUnit.2 hu
  have hdet : IsUnit Q.det := (isUnit_iff_isUnit_det Q).1 hu
  obtain ⟨w, rfl⟩ : ∃ w, x0 = Q *ᵥ w := ⟨Q⁻¹ *ᵥ x0, by rw [mulVec_mulVec, mul_nonsing_inv _ hdet, one_mulVec]⟩
  obtain rfl : x1 = P *ᵥ w := hinj (by change Q *ᵥ x1 = Q *ᵥ (P *ᵥ w); rw [hx, mulVec_mulVec, mulVec_mulVec, hc])
  have h1 : H * P = Qᵀ * H := padeNum_adjoint h
  have h2 : H * Q = Pᵀ * H := by
    have := padeNum_adjoint (N := N) (M := -M) (H := H) (by rw [mul_neg, h, transpose_neg, neg_mul])
    rwa [neg_neg] at this
  have key : ∀ Z : Matrix (Fin nx) (Fin nx) ℝ, (Z *ᵥ w) ⬝ᵥ H *ᵥ (Z *ᵥ w) = w ⬝ᵥ (Zᵀ * (H * Z)) *ᵥ w := fun Z => by
    rw [← mulVec_mulVec w Zᵀ, dotProduct_mulVec w, vecMul_transpose, mulVec_mulVec]
  rw [key, key, h1, h2, ← mul_assoc, ← mul_assoc, ← transpose_mul, ← transpose_mul, hc]

end Ceacoest
