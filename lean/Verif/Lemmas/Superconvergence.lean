import Verif.Lemmas.Convergence
import Verif.Spec.Superconvergence
import Verif.Lemmas.Legendre
import Mathlib.Analysis.ODE.Gronwall
import Mathlib.Analysis.Calculus.Deriv.Prod
import Mathlib.Analysis.Complex.ExponentialBounds
import Mathlib.Algebra.Polynomial.Roots
import Mathlib.Analysis.Calculus.IteratedDeriv.Lemmas

/-! # Errors of linear systems at the ends of the pieces (C86) -/

namespace Ceacoest
open Polynomial Spec RK

/-! ### The node polynomial of the Legendre-Gauss-Lobatto points -/

/-- `∏ (X - c l)`. -/
noncomputable def nodeProd (c : List ℝ) (N : Nat) : ℝ[X] := ∏ l ∈ Finset.range (N + 1), (X - C (c.getD l 0))

theorem nodeProd_monic (c : List ℝ) (N : Nat) : (nodeProd c N).Monic := monic_prod_of_monic _ _ fun _ _ => monic_X_sub_C _

theorem nodeProd_natDegree (c : List ℝ) (N : Nat) : (nodeProd c N).natDegree = N + 1 := by
  rw [nodeProd, natDegree_prod_of_monic _ _ fun _ _ => monic_X_sub_C _]
  simp

theorem nodeProd_eval {c : List ℝ} {N l : Nat} (hl : l ≤ N) : (nodeProd c N).eval (c.getD l 0) = 0 := by
  rw [nodeProd, eval_prod]
  exact Finset.prod_eq_zero (Finset.mem_range.2 (Nat.lt_succ_of_le hl)) (by simp)

theorem bump_eq (N : Nat) : (X * (X - 1) : ℝ[X]) ^ N = C ((-1) ^ N) * bump N := by
  rw [bump, ← mul_pow, C_pow, ← mul_pow]
  congr 1
  simp
  ring

theorem monic_XX (N : Nat) : ((X * (X - 1) : ℝ[X]) ^ N).Monic := by
  have h : (X - 1 : ℝ[X]) = X - C 1 := by simp
  rw [h]
  exact (monic_X.mul (monic_X_sub_C 1)).pow N

theorem natDegree_XX (N : Nat) : ((X * (X - 1) : ℝ[X]) ^ N).natDegree = 2 * N := by
  have h : (X - 1 : ℝ[X]) = X - C 1 := by simp
  rw [h, (monic_X.mul (monic_X_sub_C 1)).natDegree_pow, monic_X.natDegree_mul (monic_X_sub_C 1), natDegree_X, natDegree_X_sub_C]
  ring

/-- The Rodrigues formula of the node polynomial. -/
theorem nodeProd_rodrigues {c K : List ℝ} {J : List (List ℝ)} {N : Nat} (h : PointsOK c J N)
    (hK : ∀ q : ℝ[X], q.natDegree ≤ 2 * N - 1 → ∑ l ∈ Finset.range (N + 1), K.getD l 0 * q.eval (c.getD l 0) = integral q 0 1) :
    nodeProd c N = C (((N + 1).factorial : ℝ) / ((2 * N).factorial : ℝ)) * derivative^[N - 1] ((X * (X - 1)) ^ N) := by
  have hN := h.pos
  set κ : ℝ := ((N + 1).factorial : ℝ) / ((2 * N).factorial : ℝ) with hκ
  set V : ℝ[X] := derivative^[N - 1] ((X * (X - 1)) ^ N) with hV
  have hVb : V = C ((-1) ^ N) * derivative^[N - 1] (bump N) := by
    rw [hV, bump_eq, iterate_derivative_C_mul]
  have hVd : V.natDegree ≤ N + 1 := by
    refine (natDegree_iterate_derivative _ _).trans ?_
    rw [natDegree_XX]
    omega
  have hVc : κ * V.coeff (N + 1) = 1 := by
    rw [hV, coeff_iterate_derivative, show N + 1 + (N - 1) = 2 * N by omega]
    have : ((X * (X - 1) : ℝ[X]) ^ N).coeff (2 * N) = 1 := by
      have := (monic_XX N).coeff_natDegree
      rwa [natDegree_XX] at this
    rw [this, nsmul_eq_mul, mul_one, hκ]
    have e := Nat.factorial_mul_descFactorial (n := 2 * N) (k := N - 1) (by omega)
    rw [show 2 * N - (N - 1) = N + 1 by omega] at e
    have e' : ((N + 1).factorial : ℝ) * ((2 * N).descFactorial (N - 1) : ℝ) = ((2 * N).factorial : ℝ) := by exact_mod_cast e
    rw [div_mul_eq_mul_div, e', div_self]
    positivity
  set D : ℝ[X] := nodeProd c N - C κ * V with hD
  have hDd : D.natDegree ≤ N := by
    rw [natDegree_le_iff_coeff_eq_zero]
    intro k hk
    rw [hD, coeff_sub, coeff_C_mul]
    rcases Nat.lt_or_ge (N + 1) k with hk' | hk'
    · rw [coeff_eq_zero_of_natDegree_lt (by rw [nodeProd_natDegree]; exact hk'), coeff_eq_zero_of_natDegree_lt (lt_of_le_of_lt hVd hk')]
      simp
    · obtain rfl : k = N + 1 := by omega
      have := (nodeProd_monic c N).coeff_natDegree
      rw [nodeProd_natDegree] at this
      rw [this, hVc, sub_self]
  have hDorth : ∀ q : ℝ[X], q.natDegree + 2 ≤ N → integral (D * q) 0 1 = 0 := by
    intro q hq
    have h1 : integral (nodeProd c N * q) 0 1 = 0 := by
      rw [← hK _ ((natDegree_mul_le).trans (by rw [nodeProd_natDegree]; omega))]
      refine Finset.sum_eq_zero fun l hl => ?_
      rw [eval_mul, nodeProd_eval (Nat.lt_succ_iff.1 (Finset.mem_range.1 hl)), zero_mul, mul_zero]
    have h2 : integral (derivative^[N - 1] (bump N) * q) 0 1 = 0 := by
      rw [integral_iterate N (N - 1) (by omega), iterate_derivative_eq_zero (by omega), mul_zero, integral_zero, mul_zero]
    rw [show D * q = nodeProd c N * q + C (-(κ * (-1) ^ N)) * (derivative^[N - 1] (bump N) * q) by
      rw [hD, hVb, C_neg, C_mul]; ring, integral_add, integral_C_mul, h1, h2]
    simp
  have hbb := bump_boundary N (N - 1) (by omega)
  have hD0 : D.eval 0 = 0 := by
    have := nodeProd_eval (c := c) (N := N) (Nat.zero_le _)
    rw [h.first] at this
    rw [hD, eval_sub, eval_mul, hVb, eval_mul, hbb.1, this]
    simp
  have hD1 : D.eval 1 = 0 := by
    have := nodeProd_eval (c := c) (N := N) le_rfl
    rw [h.last] at this
    rw [hD, eval_sub, eval_mul, hVb, eval_mul, hbb.2, this]
    simp
  by_contra hne
  have hDne : D ≠ 0 := sub_ne_zero.2 hne
  obtain ⟨r1, hr1⟩ : X ∣ D := by
    have := dvd_iff_isRoot.2 hD0
    simpa using this
  have hr1' : r1.eval 1 = 0 := by
    rw [hr1] at hD1
    simpa using hD1
  obtain ⟨r, hr⟩ := dvd_iff_isRoot.2 hr1'
  have hDr : D = X * (X - C 1) * r := by rw [hr1, hr]; ring
  have hrne : r ≠ 0 := fun e => hDne (by rw [hDr, e, mul_zero])
  have hrd : r.natDegree + 2 ≤ N := by
    have : D.natDegree = 2 + r.natDegree := by
      rw [hDr, Monic.natDegree_mul' (monic_X.mul (monic_X_sub_C 1)) hrne, monic_X.natDegree_mul (monic_X_sub_C 1), natDegree_X,
        natDegree_X_sub_C]
    omega
  have h0 := hDorth r hrd
  -- a point in the open interval where `r` does not vanish
  obtain ⟨x, hx, hxr⟩ : ∃ x ∈ Set.Ioo (0 : ℝ) 1, r.eval x ≠ 0 := by
    by_contra hcon
    push Not at hcon
    exact hrne (eq_zero_of_infinite_isRoot r ((Set.Ioo_infinite (by norm_num : (0 : ℝ) < 1)).mono fun x hx => hcon x hx))
  have hpos : 0 < integral (C (-1) * (D * r)) 0 1 := by
    refine intervalIntegral.integral_pos (by norm_num) (C (-1) * (D * r)).continuous.continuousOn (fun x hx => ?_) ⟨x, ⟨hx.1.le, hx.2.le⟩, ?_⟩
    · rw [hDr]
      simp only [eval_mul, eval_C, eval_X, eval_sub]
      nlinarith [mul_nonneg (mul_nonneg hx.1.le (sub_nonneg.2 hx.2)) (sq_nonneg (r.eval x))]
    · rw [hDr]
      simp only [eval_mul, eval_C, eval_X, eval_sub]
      nlinarith [mul_pos (mul_pos hx.1 (sub_pos.2 hx.2)) (sq_pos_of_ne_zero hxr)]
  rw [integral_C_mul, h0] at hpos
  simp at hpos

/-! ### The same on an interval -/

theorem iterate_derivative_scale (k : Nat) (p : ℝ[X]) (α t0 : ℝ) :
    derivative^[k] (p.comp (C α * (X - C t0))) = C (α ^ k) * (derivative^[k] p).comp (C α * (X - C t0)) := by
  induction k generalizing p with
  | zero => simp
  | succ k ih =>
    rw [Function.iterate_succ_apply, derivative_comp, show derivative (C α * (X - C t0)) = C α by simp, iterate_derivative_C_mul, ih,
      Function.iterate_succ_apply, ← mul_assoc, ← C_mul, pow_succ']

/-- The points of an interval. -/
noncomputable def nodePoint (c : List ℝ) (t0 len : ℝ) (l : Nat) : ℝ := t0 + len * c.getD l 0

/-- The node polynomial of an interval. -/
noncomputable def nodePoly (c : List ℝ) (N : Nat) (t0 len : ℝ) : ℝ[X] := ∏ l ∈ Finset.range (N + 1), (X - C (nodePoint c t0 len l))

/-- The function whose derivatives are the node polynomial and its integrals. -/
noncomputable def bumpOn (N : Nat) (t0 len : ℝ) : ℝ[X] := ((X - C t0) * (X - C (t0 + len))) ^ N

theorem nodePoly_rodrigues {c K : List ℝ} {J : List (List ℝ)} {N : Nat} (h : PointsOK c J N)
    (hK : ∀ q : ℝ[X], q.natDegree ≤ 2 * N - 1 → ∑ l ∈ Finset.range (N + 1), K.getD l 0 * q.eval (c.getD l 0) = integral q 0 1) (t0 : ℝ) {len : ℝ}
    (hlen : len ≠ 0) :
    nodePoly c N t0 len = C (((N + 1).factorial : ℝ) / ((2 * N).factorial : ℝ)) * derivative^[N - 1] (bumpOn N t0 len) := by
  have hN := h.pos
  set L : ℝ[X] := C len⁻¹ * (X - C t0) with hL
  have hCC : (C len * C len⁻¹ : ℝ[X]) = 1 := by rw [← C_mul, mul_inv_cancel₀ hlen, C_1]
  have h1 : C (len ^ (N + 1)) * (nodeProd c N).comp L = nodePoly c N t0 len := by
    rw [nodeProd, prod_comp, nodePoly, ← Finset.card_range (N + 1), C_pow, ← Finset.prod_const, Finset.card_range, ← Finset.prod_mul_distrib]
    refine Finset.prod_congr rfl fun l _ => ?_
    rw [sub_comp, X_comp, C_comp, hL, nodePoint, C_add, C_mul]
    linear_combination (X - C t0) * hCC
  have h2 : C (len ^ (2 * N)) * ((X * (X - 1)) ^ N : ℝ[X]).comp L = bumpOn N t0 len := by
    rw [bumpOn, pow_comp, pow_mul, C_pow, ← mul_pow]
    congr 1
    rw [mul_comp, sub_comp, X_comp, one_comp, hL, C_pow, C_add]
    linear_combination (C len * C len⁻¹ * (X - C t0) ^ 2 + (X - C t0) ^ 2 - C len * (X - C t0)) * hCC
  rw [← h1, nodeProd_rodrigues h hK, mul_comp, C_comp, ← h2, iterate_derivative_C_mul, iterate_derivative_scale]
  have e : (C (len ^ (2 * N)) * C (len⁻¹ ^ (N - 1)) : ℝ[X]) = C (len ^ (N + 1)) := by
    rw [← C_mul]
    congr 1
    rw [show 2 * N = (N + 1) + (N - 1) by omega, pow_add, inv_pow, mul_assoc, mul_inv_cancel₀ (pow_ne_zero _ hlen), mul_one]
  linear_combination (-(C (((N + 1).factorial : ℝ) / ((2 * N).factorial : ℝ))) * (derivative^[N - 1] ((X * (X - 1)) ^ N : ℝ[X])).comp L) * e

theorem bumpOn_boundary (N k : Nat) (hk : k < N) (t0 len : ℝ) :
    (derivative^[k] (bumpOn N t0 len)).eval t0 = 0 ∧ (derivative^[k] (bumpOn N t0 len)).eval (t0 + len) = 0 := by
  constructor
  · have h1 : (X - C t0 : ℝ[X]) ^ N ∣ bumpOn N t0 len := ⟨(X - C (t0 + len)) ^ N, by rw [bumpOn, mul_pow]⟩
    obtain ⟨q, hq⟩ := pow_sub_dvd_iterate_derivative_of_pow_dvd k h1
    rw [hq, eval_mul, eval_pow]
    simp [zero_pow (by omega : N - k ≠ 0)]
  · have h1 : (X - C (t0 + len) : ℝ[X]) ^ N ∣ bumpOn N t0 len := ⟨(X - C t0) ^ N, by rw [bumpOn, mul_pow, mul_comm]⟩
    obtain ⟨q, hq⟩ := pow_sub_dvd_iterate_derivative_of_pow_dvd k h1
    rw [hq, eval_mul, eval_pow]
    simp [zero_pow (by omega : N - k ≠ 0)]

theorem bumpOn_le (N : Nat) {t0 len s : ℝ} (hs : s ∈ Set.Icc t0 (t0 + len)) : |(bumpOn N t0 len).eval s| ≤ (len / 2) ^ (2 * N) := by
  rw [bumpOn, eval_pow, abs_pow, pow_mul]
  refine pow_le_pow_left₀ (abs_nonneg _) ?_ N
  simp only [eval_mul, eval_sub, eval_X, eval_C]
  rw [abs_le]
  constructor
  · nlinarith [sq_nonneg (s - t0 - len / 2)]
  · nlinarith [mul_nonneg (sub_nonneg.2 hs.1) (sub_nonneg.2 hs.2), sq_nonneg len]

theorem nodePoly_monic (c : List ℝ) (N : Nat) (t0 len : ℝ) : (nodePoly c N t0 len).Monic := monic_prod_of_monic _ _ fun _ _ => monic_X_sub_C _

theorem nodePoly_natDegree (c : List ℝ) (N : Nat) (t0 len : ℝ) : (nodePoly c N t0 len).natDegree = N + 1 := by
  rw [nodePoly, natDegree_prod_of_monic _ _ fun _ _ => monic_X_sub_C _]
  simp

theorem nodePoly_eval {c : List ℝ} {N l : Nat} (t0 len : ℝ) (hl : l ≤ N) : (nodePoly c N t0 len).eval (nodePoint c t0 len l) = 0 := by
  rw [nodePoly, eval_prod]
  exact Finset.prod_eq_zero (Finset.mem_range.2 (Nat.lt_succ_of_le hl)) (by simp)

theorem iterate_derivative_mul_lin (k : Nat) (p : ℝ[X]) (a : ℝ) :
    derivative^[k + 1] (p * (X - C a)) = derivative^[k + 1] p * (X - C a) + C ((k : ℝ) + 1) * derivative^[k] p := by
  induction k with
  | zero => simp
  | succ k ih =>
    rw [Function.iterate_succ_apply', ih, derivative_add, derivative_mul, derivative_C_mul, ← Function.iterate_succ_apply' derivative (k + 1) p,
      ← Function.iterate_succ_apply' derivative k p, show derivative (X - C a) = 1 by simp]
    push_cast
    simp only [C_add, C_1]
    ring

/-- Derivatives of a product of linear factors. -/
theorem prod_deriv_bound {len t : ℝ} (hlen : 0 ≤ len) (p : Nat → ℝ) (hp : ∀ l, |t - p l| ≤ len) (n k : Nat) :
    |(derivative^[k] (∏ l ∈ Finset.range n, (X - C (p l)))).eval t| ≤ n.descFactorial k * len ^ (n - k) := by
  induction n generalizing k with
  | zero =>
    cases k with
    | zero => simp
    | succ k =>
      rw [Function.iterate_succ_apply]
      simp
  | succ n ih =>
    cases k with
    | zero =>
      have := ih 0
      simp only [Function.iterate_zero, id, Nat.descFactorial_zero, Nat.sub_zero, Nat.cast_one, one_mul] at this ⊢
      rw [Finset.prod_range_succ, eval_mul, abs_mul, pow_succ]
      refine mul_le_mul this ?_ (abs_nonneg _) (by positivity)
      simpa using hp n
    | succ k =>
      rw [Finset.prod_range_succ, iterate_derivative_mul_lin, eval_add, eval_mul, eval_mul, eval_C]
      have h1 := ih (k + 1)
      have h2 := ih k
      have h3 : |(X - C (p n)).eval t| ≤ len := by simpa using hp n
      refine (abs_add_le _ _).trans ?_
      rw [abs_mul, abs_mul, abs_of_nonneg (by positivity : (0 : ℝ) ≤ (k : ℝ) + 1), Nat.succ_descFactorial_succ]
      have h4 := mul_le_mul h1 h3 (abs_nonneg _) (by positivity)
      have h5 := mul_le_mul_of_nonneg_left h2 (by positivity : (0 : ℝ) ≤ (k : ℝ) + 1)
      refine (add_le_add h4 h5).trans (le_of_eq ?_)
      rw [Nat.descFactorial_succ, show n + 1 - (k + 1) = n - k by omega]
      rcases Nat.lt_trichotomy k n with hk | rfl | hk
      · have e : len ^ (n - k) = len ^ (n - (k + 1)) * len := by rw [← pow_succ]; congr 1; omega
        rw [e, Nat.cast_mul, Nat.cast_sub hk.le, Nat.cast_mul]
        push_cast
        ring
      · simp
      · rw [Nat.descFactorial_of_lt hk]
        simp

/-! ### One piece -/

/-- A polynomial of degree at most `N + 1` that vanishes at the points. -/
theorem nodePoly_dvd {c : List ℝ} {J : List (List ℝ)} {N : Nat} (h : PointsOK c J N) {t0 len : ℝ} (hlen : len ≠ 0) {p : ℝ[X]}
    (hp : p.natDegree ≤ N + 1) (h0 : ∀ l ≤ N, p.eval (nodePoint c t0 len l) = 0) : p = C (p.coeff (N + 1)) * nodePoly c N t0 len := by
  rw [← sub_eq_zero]
  refine eq_zero_of_degree_lt_of_eval_index_eq_zero (v := nodePoint c t0 len) (Finset.range (N + 1)) (fun i hi k hk hik => ?_) ?_ fun l hl => ?_
  · have hi := Finset.mem_range.1 hi
    have hk := Finset.mem_range.1 hk
    have e : c.getD i 0 = c.getD k 0 := by
      have : len * c.getD i 0 = len * c.getD k 0 := by simpa [nodePoint] using hik
      exact mul_left_cancel₀ hlen this
    rw [getD_of_lt _ _ (by rw [h.len]; exact hi), getD_of_lt _ _ (by rw [h.len]; exact hk)] at e
    exact (h.nodup.getElem_inj_iff).1 e
  · rw [Finset.card_range, degree_lt_iff_coeff_zero]
    intro k hk
    rw [coeff_sub, coeff_C_mul]
    rcases Nat.lt_or_ge (N + 1) k with hk' | hk'
    · rw [coeff_eq_zero_of_natDegree_lt (lt_of_le_of_lt hp hk'),
        coeff_eq_zero_of_natDegree_lt (p := nodePoly c N t0 len) (n := k) (by rw [nodePoly_natDegree]; exact hk')]
      simp
    · obtain rfl : k = N + 1 := by omega
      have := (nodePoly_monic c N t0 len).coeff_natDegree
      rw [nodePoly_natDegree] at this
      rw [this, mul_one, sub_self]
  · have hl := Nat.lt_succ_iff.1 (Finset.mem_range.1 hl)
    rw [eval_sub, eval_mul, h0 l hl, nodePoly_eval _ _ hl]
    simp

section
open Matrix
variable {nx : Nat}

/-- The values of polynomials. -/
noncomputable def evalAt (y : Fin nx → ℝ[X]) (s : ℝ) : Fin nx → ℝ := fun j => (y j).eval s

/-- The derivatives of polynomials. -/
noncomputable def derivOf (k : Nat) (y : Fin nx → ℝ[X]) : Fin nx → ℝ[X] := fun j => derivative^[k] (y j)

/-- The derivatives of a solution of `z' = A z + b`. -/
noncomputable def solDeriv (A : Matrix (Fin nx) (Fin nx) ℝ) (b : Fin nx → ℝ[X]) (z : ℝ → Fin nx → ℝ) : Nat → ℝ → Fin nx → ℝ
  | 0, s => z s
  | k + 1, s => A *ᵥ solDeriv A b z k s + evalAt (derivOf k b) s

theorem evalAt_deriv (y : Fin nx → ℝ[X]) (s : ℝ) : HasDerivAt (evalAt y) (evalAt (derivOf 1 y) s) s :=
  hasDerivAt_pi.2 fun j => (y j).hasDerivAt s

theorem mulVec_deriv (A : Matrix (Fin nx) (Fin nx) ℝ) {z : ℝ → Fin nx → ℝ} {z' : Fin nx → ℝ} {S : Set ℝ} {s : ℝ} (h : HasDerivWithinAt z z' S s) :
    HasDerivWithinAt (fun s => A *ᵥ z s) (A *ᵥ z') S s := by
  refine hasDerivWithinAt_pi.2 fun j => ?_
  simp only [mulVec, dotProduct]
  exact HasDerivWithinAt.fun_sum fun k _ => ((hasDerivWithinAt_pi.1 h k).const_mul (A j k))

theorem solDeriv_deriv {A : Matrix (Fin nx) (Fin nx) ℝ} {b : Fin nx → ℝ[X]} {z : ℝ → Fin nx → ℝ} {S : Set ℝ}
    (hz : ∀ s ∈ S, HasDerivWithinAt z (A *ᵥ z s + evalAt b s) S s) (k : Nat) : ∀ s ∈ S, HasDerivWithinAt (solDeriv A b z k) (solDeriv A b z (k + 1) s) S s := by
  induction k with
  | zero => exact hz
  | succ k ih =>
    intro s hs
    refine (mulVec_deriv A (ih s hs)).add ?_
    have := (evalAt_deriv (derivOf k b) s).hasDerivWithinAt (s := S)
    have e : derivOf 1 (derivOf k b) = derivOf (k + 1) b := by
      funext j
      simp only [derivOf, Function.iterate_succ_apply']
      rfl
    rwa [e] at this

theorem pow_mulVec_le {A : Matrix (Fin nx) (Fin nx) ℝ} {a : ℝ} (ha : 0 ≤ a) (hA : ∀ v, ‖A *ᵥ v‖ ≤ a * ‖v‖) (k : Nat) (v : Fin nx → ℝ) :
    ‖(A ^ k) *ᵥ v‖ ≤ a ^ k * ‖v‖ := by
  induction k generalizing v with
  | zero => simp
  | succ k ih =>
    rw [pow_succ, ← mulVec_mulVec, pow_succ, mul_assoc]
    exact (ih _).trans (mul_le_mul_of_nonneg_left (hA v) (by positivity))

theorem gronwall_le {δ K ε x : ℝ} (hK : 0 ≤ K) (hε : 0 ≤ ε) (hx : 0 ≤ x) : gronwallBound δ K ε x ≤ Real.exp (K * x) * (δ + x * ε) := by
  rcases hK.eq_or_lt with rfl | hK
  · rw [gronwallBound_K0]
    simp [mul_comm]
  · rw [gronwallBound_of_K_ne_0 hK.ne']
    have h1 : 1 - K * x ≤ Real.exp (-(K * x)) := by linarith [Real.add_one_le_exp (-(K * x))]
    have h2 : Real.exp (K * x) * (1 - K * x) ≤ 1 := by
      refine (mul_le_mul_of_nonneg_left h1 (Real.exp_pos _).le).trans ?_
      rw [← Real.exp_add]
      simp
    have h3 : ε / K * (Real.exp (K * x) - 1) ≤ ε / K * (Real.exp (K * x) * (K * x)) := by
      refine mul_le_mul_of_nonneg_left ?_ (by positivity)
      linarith
    have h4 : ε / K * (Real.exp (K * x) * (K * x)) = Real.exp (K * x) * (x * ε) := by field_simp
    linarith

theorem exp_third : Real.exp (1 / 3) ≤ 3 / 2 := by
  have h1 : Real.exp (1 / 3) ^ 3 = Real.exp 1 := by rw [← Real.exp_nat_mul]; norm_num
  have h2 := Real.exp_one_lt_d9
  by_contra hc
  push Not at hc
  have := pow_lt_pow_left₀ hc (by norm_num) (n := 3) (by norm_num)
  rw [h1] at this
  norm_num at this
  linarith

/-- What the collocation polynomials of a piece satisfy at all times. -/
theorem piece_poly {c : List ℝ} {J : List (List ℝ)} {N : Nat} (h : PointsOK c J N) {t0 len : ℝ} (hlen : len ≠ 0) {A : Matrix (Fin nx) (Fin nx) ℝ}
    {y b : Fin nx → ℝ[X]} (hy : ∀ j, (y j).natDegree ≤ N + 1) (hb : ∀ j, (b j).natDegree ≤ N + 1)
    (hode : ∀ l ≤ N, evalAt (derivOf 1 y) (nodePoint c t0 len l) = A *ᵥ evalAt y (nodePoint c t0 len l) + evalAt b (nodePoint c t0 len l)) :
    ∃ u : Fin nx → ℝ, ∀ k s, evalAt (derivOf (k + 1) y) s =
      A *ᵥ evalAt (derivOf k y) s + evalAt (derivOf k b) s + (derivative^[k] (nodePoly c N t0 len)).eval s • u := by
  set p : Fin nx → ℝ[X] := fun j => derivative (y j) - ∑ k, C (A j k) * y k - b j with hp
  have hpd : ∀ j, (p j).natDegree ≤ N + 1 := fun j => by
    refine (natDegree_sub_le_of_le (natDegree_sub_le_of_le ((natDegree_derivative_le _).trans ((Nat.sub_le _ _).trans (hy j)))
      (natDegree_sum_le_of_forall_le _ _ fun k _ => (natDegree_C_mul_le _ _).trans (hy k))) (hb j)).trans ?_
    simp
  have hp0 : ∀ j, ∀ l ≤ N, (p j).eval (nodePoint c t0 len l) = 0 := fun j l hl => by
    have := congrFun (hode l hl) j
    simp only [evalAt, derivOf, Function.iterate_one, Pi.add_apply, mulVec, dotProduct] at this
    rw [hp]
    simp only [eval_sub, eval_finset_sum, eval_mul, eval_C]
    rw [this]
    ring
  refine ⟨fun j => (p j).coeff (N + 1), fun k s => funext fun j => ?_⟩
  have e := nodePoly_dvd h hlen (hpd j) (hp0 j)
  have e1 : derivative (y j) = ∑ k, C (A j k) * y k + b j + C ((p j).coeff (N + 1)) * nodePoly c N t0 len := by
    rw [← e, hp]
    ring
  simp only [evalAt, derivOf, Pi.add_apply, Pi.smul_apply, smul_eq_mul, mulVec, dotProduct]
  rw [Function.iterate_succ_apply, e1]
  rw [iterate_map_add, iterate_map_add, iterate_derivative_sum, iterate_derivative_C_mul]
  simp only [iterate_derivative_C_mul, eval_add, eval_finset_sum, eval_mul, eval_C]
  ring

/-- The error at the end of a piece. -/
theorem piece_super {c K : List ℝ} {J : List (List ℝ)} {N : Nat} (h : PointsOK c J N)
    (hK : ∀ q : ℝ[X], q.natDegree ≤ 2 * N - 1 → ∑ l ∈ Finset.range (N + 1), K.getD l 0 * q.eval (c.getD l 0) = integral q 0 1) {t0 len : ℝ}
    (hlen : 0 < len) {A : Matrix (Fin nx) (Fin nx) ℝ} {a : ℝ} (ha : 0 ≤ a) (hA : ∀ v, ‖A *ᵥ v‖ ≤ a * ‖v‖) (hsmall : len * a ≤ 1 / 3)
    {y b : Fin nx → ℝ[X]} (hy : ∀ j, (y j).natDegree ≤ N + 1) (hb : ∀ j, (b j).natDegree ≤ N + 1)
    (hode : ∀ l ≤ N, evalAt (derivOf 1 y) (nodePoint c t0 len l) = A *ᵥ evalAt y (nodePoint c t0 len l) + evalAt b (nodePoint c t0 len l))
    {z : ℝ → Fin nx → ℝ} (hz : ∀ s ∈ Set.Icc t0 (t0 + len), HasDerivWithinAt z (A *ᵥ z s + evalAt b s) (Set.Icc t0 (t0 + len)) s) {B : ℝ}
    (hB : ‖solDeriv A b z (N + 2) t0‖ ≤ B) :
    ‖evalAt y (t0 + len) - z (t0 + len)‖ ≤ Real.exp (2 * a * len) *
      (‖evalAt y t0 - z t0‖ + len * (2 * B * a ^ (N - 1) / ((2 * N).factorial : ℝ) * (len / 2) ^ (2 * N))) := by
  obtain ⟨u, hu⟩ := piece_poly h hlen.ne' hy hb hode
  have hN := h.pos
  set ω := nodePoly c N t0 len with hω
  set E := ‖evalAt y t0 - z t0‖ with hE
  have hE0 : 0 ≤ E := norm_nonneg _
  have hB0 : 0 ≤ B := (norm_nonneg _).trans hB
  -- the size of `u`
  have hωk : ∀ k, |(derivative^[k] ω).eval t0| ≤ (N + 1).descFactorial k * len ^ (N + 1 - k) := fun k => by
    rcases Nat.lt_or_ge N 0 with h' | -
    · omega
    have := prod_deriv_bound (len := len) (t := t0) hlen.le (fun l => if l ≤ N then nodePoint c t0 len l else t0) (fun l => ?_) (N + 1) k
    · have e : ∏ l ∈ Finset.range (N + 1), (X - C (if l ≤ N then nodePoint c t0 len l else t0)) = ω :=
        Finset.prod_congr rfl fun l hl => by rw [if_pos (Nat.lt_succ_iff.1 (Finset.mem_range.1 hl))]
      rwa [e] at this
    · split_ifs with hl
      · obtain ⟨h0, h1⟩ := h.mem l hl
        rw [nodePoint, show t0 - (t0 + len * c.getD l 0) = -(len * c.getD l 0) by ring, abs_neg, abs_of_nonneg (by positivity)]
        nlinarith
      · simpa using hlen.le
  set e : Nat → Fin nx → ℝ := fun k => evalAt (derivOf k y) t0 - solDeriv A b z k t0 with he
  have hstep : ∀ k, e (k + 1) = A *ᵥ e k + (derivative^[k] ω).eval t0 • u := fun k => by
    simp only [he]
    rw [hu k t0, mulVec_sub]
    change _ - (A *ᵥ solDeriv A b z k t0 + evalAt (derivOf k b) t0) = _
    abel
  have hek : ∀ k ≤ N + 1, ‖e k‖ ≤ a ^ k * E + ‖u‖ * ∑ i ∈ Finset.range k, a ^ (k - 1 - i) * ((N + 1).descFactorial i * len ^ (N + 1 - i)) := by
    intro k
    induction k with
    | zero =>
      intro _
      have : e 0 = evalAt y t0 - z t0 := rfl
      simp [this, hE]
    | succ k ih =>
      intro hk
      have ih := ih (by omega)
      rw [hstep]
      refine (norm_add_le _ _).trans ?_
      rw [norm_smul, Real.norm_eq_abs]
      have h1 := (hA (e k)).trans (mul_le_mul_of_nonneg_left ih ha)
      have h2 := mul_le_mul_of_nonneg_right (hωk k) (norm_nonneg u)
      refine (add_le_add h1 h2).trans (le_of_eq ?_)
      rw [Finset.sum_range_succ, show k + 1 - 1 - k = 0 by omega]
      have : ∑ i ∈ Finset.range k, a ^ (k + 1 - 1 - i) * (((N + 1).descFactorial i : ℝ) * len ^ (N + 1 - i)) =
          a * ∑ i ∈ Finset.range k, a ^ (k - 1 - i) * (((N + 1).descFactorial i : ℝ) * len ^ (N + 1 - i)) := by
        rw [Finset.mul_sum]
        refine Finset.sum_congr rfl fun i hi => ?_
        have := Finset.mem_range.1 hi
        rw [show k + 1 - 1 - i = (k - 1 - i) + 1 by omega, pow_succ]
        ring
      rw [this]
      ring
  have hω1 : (derivative^[N + 1] ω).eval t0 = ((N + 1).factorial : ℝ) := by
    have h1 : derivative^[N + 1] ω = C ((N + 1).factorial : ℝ) := by
      refine Polynomial.ext fun k => ?_
      rw [coeff_iterate_derivative, coeff_C]
      split_ifs with hk
      · subst hk
        have := (nodePoly_monic c N t0 len).coeff_natDegree
        rw [nodePoly_natDegree] at this
        rw [Nat.zero_add, this, Nat.descFactorial_self]
        simp
      · rw [coeff_eq_zero_of_natDegree_lt (by rw [hω, nodePoly_natDegree]; omega)]
        simp
    rw [h1, eval_C]
  have hlast : e (N + 2) = -solDeriv A b z (N + 2) t0 := by
    simp only [he]
    have : evalAt (derivOf (N + 2) y) t0 = 0 := funext fun j => by
      simp only [evalAt, derivOf]
      rw [iterate_derivative_eq_zero (lt_of_le_of_lt (hy j) (by omega))]
      simp
    rw [this, zero_sub]
  have hmain : ((N + 1).factorial : ℝ) * ‖u‖ ≤ B + (a ^ (N + 2) * E + ‖u‖ * (((N + 1).factorial : ℝ) * (1 / 2))) := by
    have h1 := hstep (N + 1)
    rw [hlast, hω1] at h1
    have h2 : ((N + 1).factorial : ℝ) • u = -solDeriv A b z (N + 2) t0 - A *ᵥ e (N + 1) := by rw [h1]; abel
    have h3 := congrArg norm h2
    rw [norm_smul, Real.norm_of_nonneg (by positivity)] at h3
    rw [h3]
    refine (norm_sub_le _ _).trans (add_le_add (by rwa [norm_neg]) ((hA _).trans ((mul_le_mul_of_nonneg_left (hek (N + 1) le_rfl) ha).trans ?_)))
    rw [mul_add, ← mul_assoc, ← pow_succ']
    refine add_le_add le_rfl ?_
    rw [mul_left_comm, Finset.mul_sum]
    refine mul_le_mul_of_nonneg_left ?_ (norm_nonneg _)
    have h4 : ∀ i ∈ Finset.range (N + 1), a * (a ^ (N + 1 - 1 - i) * (((N + 1).descFactorial i : ℝ) * len ^ (N + 1 - i))) =
        ((N + 1).factorial : ℝ) * ((len * a) ^ (N + 1 - i) / ((N + 1 - i).factorial : ℝ)) := fun i hi => by
      have hi := Finset.mem_range.1 hi
      have e1 := Nat.factorial_mul_descFactorial (n := N + 1) (k := i) (by omega)
      have e2 : ((N + 1 - i).factorial : ℝ) * ((N + 1).descFactorial i : ℝ) = ((N + 1).factorial : ℝ) := by exact_mod_cast e1
      rw [← e2, mul_pow]
      have e3 : a ^ (N + 1 - i) = a * a ^ (N + 1 - 1 - i) := by rw [← pow_succ']; congr 1; omega
      rw [e3]
      field_simp
    rw [Finset.sum_congr rfl h4, ← Finset.mul_sum]
    refine mul_le_mul_of_nonneg_left ?_ (by positivity)
    have h5 : ∑ i ∈ Finset.range (N + 1), (len * a) ^ (N + 1 - i) / ((N + 1 - i).factorial : ℝ) + 1 ≤ Real.exp (len * a) := by
      have := Real.sum_le_exp_of_nonneg (x := len * a) (by positivity) (N + 2)
      rw [Finset.sum_range_succ'] at this
      have hr := Finset.sum_range_reflect (fun k => (len * a) ^ (k + 1) / ((k + 1).factorial : ℝ)) (N + 1)
      rw [← hr] at this
      refine le_trans (le_of_eq ?_) this
      congr 1
      · refine Finset.sum_congr rfl fun i hi => ?_
        have := Finset.mem_range.1 hi
        rw [show N + 1 - 1 - i + 1 = N + 1 - i by omega]
      · simp
    have h6 := (Real.exp_le_exp.2 hsmall).trans exp_third
    linarith
  have hun : ‖u‖ ≤ 2 * (B + a ^ (N + 2) * E) / ((N + 1).factorial : ℝ) := by
    rw [le_div_iff₀ (by positivity)]
    linarith
  -- the error, up to a function that vanishes at both ends
  set κ : ℝ := ((N + 1).factorial : ℝ) / ((2 * N).factorial : ℝ) with hκ
  have hκ0 : 0 ≤ κ := by positivity
  set Γ : Nat → ℝ[X] := fun i => C κ * derivative^[i] (bumpOn N t0 len) with hΓ
  have hΓω : Γ (N - 1) = ω := (nodePoly_rodrigues h hK t0 hlen.ne').symm
  have hΓd : ∀ i, derivative (Γ i) = Γ (i + 1) := fun i => by
    simp only [hΓ]
    rw [derivative_C_mul, ← Function.iterate_succ_apply' derivative]
  set g : ℝ → Fin nx → ℝ := fun s => ∑ i ∈ Finset.range (N - 1), (Γ i).eval s • ((A ^ (N - 1 - 1 - i)) *ᵥ u) with hg
  have hgd : ∀ s, HasDerivAt g (A *ᵥ g s - (Γ 0).eval s • ((A ^ (N - 1)) *ᵥ u) + ω.eval s • u) s := fun s => by
    have h1 : HasDerivAt g (∑ i ∈ Finset.range (N - 1), (Γ (i + 1)).eval s • ((A ^ (N - 1 - 1 - i)) *ᵥ u)) s := by
      refine HasDerivAt.fun_sum fun i _ => ?_
      have := ((Γ i).hasDerivAt s).smul_const ((A ^ (N - 1 - 1 - i)) *ᵥ u)
      rwa [hΓd] at this
    refine h1.congr_deriv ?_
    have h2 : A *ᵥ g s = ∑ i ∈ Finset.range (N - 1), (Γ i).eval s • ((A ^ (N - 1 - i)) *ᵥ u) := by
      rw [hg, mulVec_sum]
      refine Finset.sum_congr rfl fun i hi => ?_
      have := Finset.mem_range.1 hi
      rw [mulVec_smul, mulVec_mulVec, ← pow_succ', show N - 1 - 1 - i + 1 = N - 1 - i by omega]
    have h3 := Finset.sum_range_succ (fun i => (Γ i).eval s • ((A ^ (N - 1 - i)) *ᵥ u)) (N - 1)
    rw [Finset.sum_range_succ'] at h3
    rw [h2, ← hΓω]
    rw [Nat.sub_self, pow_zero, one_mulVec, Nat.sub_zero] at h3
    rw [sub_add_eq_add_sub, eq_sub_iff_add_eq, ← h3]
    congr 1
    refine Finset.sum_congr rfl fun i hi => ?_
    rw [show N - 1 - 1 - i = N - 1 - (i + 1) by omega]
  have hg0 : g t0 = 0 ∧ g (t0 + len) = 0 := by
    constructor <;>
    · refine Finset.sum_eq_zero fun i hi => ?_
      have hi := Finset.mem_range.1 hi
      simp only [hΓ]
      rw [eval_mul, eval_C]
      first
      | rw [(bumpOn_boundary N i (by omega) t0 len).1, mul_zero, zero_smul]
      | rw [(bumpOn_boundary N i (by omega) t0 len).2, mul_zero, zero_smul]
  set r : ℝ → Fin nx → ℝ := fun s => evalAt y s - z s - g s with hr
  have hrd : ∀ s ∈ Set.Icc t0 (t0 + len), HasDerivWithinAt r (A *ᵥ r s + (Γ 0).eval s • ((A ^ (N - 1)) *ᵥ u)) (Set.Icc t0 (t0 + len)) s := fun s hs => by
    refine ((((evalAt_deriv y s).hasDerivWithinAt).sub (hz s hs)).sub (hgd s).hasDerivWithinAt).congr_deriv ?_
    have := hu 0 s
    simp only [Nat.zero_add, Function.iterate_zero, id] at this
    rw [this, hr, mulVec_sub, mulVec_sub]
    change A *ᵥ evalAt y s + evalAt b s + ω.eval s • u - _ - _ = _
    abel
  have hε0 : (0 : ℝ) ≤ κ * (len / 2) ^ (2 * N) * (a ^ (N - 1) * ‖u‖) := by positivity
  have hgron := norm_le_gronwallBound_of_norm_deriv_right_le (f := r) (f' := fun s => A *ᵥ r s + (Γ 0).eval s • ((A ^ (N - 1)) *ᵥ u)) (δ := E) (K := a)
    (ε := κ * (len / 2) ^ (2 * N) * (a ^ (N - 1) * ‖u‖)) (a := t0) (b := t0 + len) (fun s hs => (hrd s hs).continuousWithinAt)
    (fun s hs => ((hrd s ⟨hs.1, hs.2.le⟩).mono_of_mem_nhdsWithin (Icc_mem_nhdsGE_of_mem hs)))
    (by simp only [hr]; rw [hg0.1, sub_zero])
    (fun s hs => by
      refine (norm_add_le _ _).trans (add_le_add (hA _) ?_)
      rw [norm_smul, Real.norm_eq_abs]
      refine mul_le_mul ?_ (pow_mulVec_le ha hA _ _) (norm_nonneg _) (by positivity)
      simp only [hΓ, Function.iterate_zero, id]
      rw [eval_mul, eval_C, abs_mul, abs_of_nonneg hκ0]
      exact mul_le_mul_of_nonneg_left (bumpOn_le N ⟨hs.1, hs.2.le⟩) hκ0)
    (t0 + len) ⟨by linarith, le_rfl⟩
  have hfin := hgron.trans (gronwall_le ha hε0 (by linarith))
  have hrend : r (t0 + len) = evalAt y (t0 + len) - z (t0 + len) := by simp only [hr]; rw [hg0.2, sub_zero]
  rw [hrend, show t0 + len - t0 = len by ring] at hfin
  refine hfin.trans ?_
  rw [show 2 * a * len = a * len + a * len by ring, Real.exp_add, mul_assoc (Real.exp (a * len))]
  refine mul_le_mul_of_nonneg_left ?_ (Real.exp_pos _).le
  have h7 : κ * (len / 2) ^ (2 * N) * (a ^ (N - 1) * ‖u‖) ≤
      2 * (B + a ^ (N + 2) * E) * a ^ (N - 1) / ((2 * N).factorial : ℝ) * (len / 2) ^ (2 * N) := by
    calc _ ≤ κ * (len / 2) ^ (2 * N) * (a ^ (N - 1) * (2 * (B + a ^ (N + 2) * E) / ((N + 1).factorial : ℝ))) := by gcongr
      _ = _ := by rw [hκ]; field_simp
  have hq : len * (2 * (a ^ (N + 2) * E) * a ^ (N - 1) / ((2 * N).factorial : ℝ) * (len / 2) ^ (2 * N)) ≤ (a * len) * E := by
    have e1 : a ^ (N + 2) * a ^ (N - 1) = a * a ^ (2 * N) := by rw [← pow_add, ← pow_succ']; congr 1; omega
    have e2 : len * (2 * (a ^ (N + 2) * E) * a ^ (N - 1) / ((2 * N).factorial : ℝ) * (len / 2) ^ (2 * N)) =
        (a * len) * E * (2 / ((2 * N).factorial : ℝ) * (len * a / 2) ^ (2 * N)) := by
      rw [show len * a / 2 = a * (len / 2) by ring, mul_pow]
      linear_combination (2 * len * E / ((2 * N).factorial : ℝ) * (len / 2) ^ (2 * N)) * e1
    rw [e2]
    refine mul_le_of_le_one_right (by positivity) ?_
    have h1 : (2 : ℝ) / ((2 * N).factorial : ℝ) ≤ 1 := by
      rw [div_le_one (by positivity)]
      have : 2 ≤ (2 * N).factorial := (Nat.factorial_le (show 2 ≤ 2 * N by omega)).trans' (by decide)
      exact_mod_cast this
    have h2 : (len * a / 2) ^ (2 * N) ≤ 1 := pow_le_one₀ (by positivity) (by linarith)
    calc _ ≤ (1 : ℝ) * 1 := mul_le_mul h1 h2 (by positivity) (by norm_num)
      _ = 1 := by norm_num
  have h8 := mul_le_mul_of_nonneg_left h7 hlen.le
  have h9 : E * (1 + a * len) ≤ E * Real.exp (a * len) := mul_le_mul_of_nonneg_left (by linarith [Real.add_one_le_exp (a * len)]) hE0
  have h10 : (1 : ℝ) ≤ Real.exp (a * len) := Real.one_le_exp (by positivity)
  have h11 : 0 ≤ len * (2 * B * a ^ (N - 1) / ((2 * N).factorial : ℝ) * (len / 2) ^ (2 * N)) := by positivity
  have h12 : len * (2 * (B + a ^ (N + 2) * E) * a ^ (N - 1) / ((2 * N).factorial : ℝ) * (len / 2) ^ (2 * N)) =
      len * (2 * B * a ^ (N - 1) / ((2 * N).factorial : ℝ) * (len / 2) ^ (2 * N)) +
      len * (2 * (a ^ (N + 2) * E) * a ^ (N - 1) / ((2 * N).factorial : ℝ) * (len / 2) ^ (2 * N)) := by ring
  nlinarith

theorem solDeriv_iterated {A : Matrix (Fin nx) (Fin nx) ℝ} {b : Fin nx → ℝ[X]} {z : ℝ → Fin nx → ℝ} {S : Set ℝ} (hS : UniqueDiffOn ℝ S)
    (hz : ∀ s ∈ S, HasDerivWithinAt z (A *ᵥ z s + evalAt b s) S s) (j : Fin nx) (k : Nat) :
    ∀ s ∈ S, iteratedDerivWithin k (fun s => solDeriv A b z 1 s j) S s = solDeriv A b z (k + 1) s j := by
  induction k with
  | zero => intro s _; rw [iteratedDerivWithin_zero]
  | succ k ih =>
    intro s hs
    rw [iteratedDerivWithin_succ, derivWithin_congr ih (ih s hs)]
    exact (hasDerivWithinAt_pi.1 (solDeriv_deriv hz (k + 1) s hs) j).derivWithin (hS s hs)

theorem mulVec_le_of_rows {A : Nat → Nat → ℝ} {a : ℝ} (ha : 0 ≤ a) (hA : RowSums A nx a) (v : Fin nx → ℝ) :
    ‖(Matrix.of fun j k : Fin nx => A j k) *ᵥ v‖ ≤ a * ‖v‖ := by
  refine (pi_norm_le_iff_of_nonneg (by positivity)).2 fun j => ?_
  have h1 := hA j j.2
  rw [Finset.sum_range] at h1
  simp only [mulVec, dotProduct, Matrix.of_apply]
  refine (norm_sum_le _ _).trans ?_
  calc _ ≤ ∑ k : Fin nx, |A j k| * ‖v‖ := Finset.sum_le_sum fun k _ => by
        rw [norm_mul, Real.norm_eq_abs]
        exact mul_le_mul_of_nonneg_left (norm_le_pi_norm v k) (abs_nonneg _)
    _ = (∑ k : Fin nx, |A j k|) * ‖v‖ := (Finset.sum_mul ..).symm
    _ ≤ _ := by gcongr

end

/-- The error at the ends of the pieces. -/
theorem mesh_error {c K : List ℝ} {J : List (List ℝ)} {N : Nat} (h : PointsOK c J N)
    (hK : ∀ q : ℝ[X], q.natDegree ≤ 2 * N - 1 → ∑ l ∈ Finset.range (N + 1), K.getD l 0 * q.eval (c.getD l 0) = integral q 0 1) {t : List ℝ} {P : Nat}
    (ht : ∀ i < P, t.getD i 0 < t.getD (i + 1) 0) {nx : Nat} {x : Nat → List ℝ} (hx : ∀ r, (x r).length = nx) {f : List ℝ → List ℝ → List ℝ → List ℝ}
    {v : ℝ → List ℝ} {p : List ℝ}
    (hd : ∀ i < P, ∀ a ∈ defects J (fun l => f (x (i * N + l)) (v (pointTime t c i l)) p) (fun l => x (i * N + l)) N nx 0
      (t.getD (i + 1) 0 - t.getD i 0), a = 0) {A : Nat → Nat → ℝ} {a : ℝ} (ha : 0 ≤ a) (hA : RowSums A nx a)
    (hlin : LinearOn f t P nx (N + 1) A v p) {z : ℝ → List ℝ} (hzl : ∀ s, (z s).length = nx)
    (hz : ∀ i < P, ∀ s ∈ pieceOf t i, ∀ j < nx, HasDerivWithinAt (fun s => (z s).getD j 0) ((f (z s) (v s) p).getD j 0) (pieceOf t i) s) {B hmax e0 : ℝ}
    (hh : ∀ i < P, t.getD (i + 1) 0 - t.getD i 0 ≤ hmax) (hsmall : hmax * a ≤ 1 / 3) (hB0 : 0 ≤ B)
    (hB : ∀ i < P, ∀ j < nx, ∀ s ∈ pieceOf t i, |iteratedDerivWithin (N + 1) (fun s => (f (z s) (v s) p).getD j 0) (pieceOf t i) s| ≤ B)
    (he : ∀ j < nx, |(x 0).getD j 0 - (z (t.getD 0 0)).getD j 0| ≤ e0) (he0 : 0 ≤ e0) :
    ∀ i ≤ P, ∀ j < nx, |(x (i * N)).getD j 0 - (z (t.getD i 0)).getD j 0| ≤ meshError a B e0 hmax N t (t.getD i 0) := by
  set A' : Matrix (Fin nx) (Fin nx) ℝ := Matrix.of fun j k => A j k with hA'
  set M : ℝ := 2 * B * a ^ (N - 1) / ((2 * N).factorial : ℝ) * (hmax / 2) ^ (2 * N) with hM
  set xF : Nat → Fin nx → ℝ := fun i j => (x (i * N)).getD j 0 with hxF
  set zF : ℝ → Fin nx → ℝ := fun s j => (z s).getD j 0 with hzF
  have h0 : ‖xF 0 - zF (t.getD 0 0)‖ ≤ e0 := (pi_norm_le_iff_of_nonneg he0).2 fun j => by
    simp only [hxF, hzF, Pi.sub_apply, Real.norm_eq_abs, Nat.zero_mul]
    exact he j j.2
  have hstep : ∀ i < P, ‖xF (i + 1) - zF (t.getD (i + 1) 0)‖ ≤
      Real.exp (2 * a * (t.getD (i + 1) 0 - t.getD i 0)) * (‖xF i - zF (t.getD i 0)‖ + (t.getD (i + 1) 0 - t.getD i 0) * M) := by
    intro i hi
    set len := t.getD (i + 1) 0 - t.getD i 0 with hlen
    have hlen0 : 0 < len := sub_pos.2 (ht i hi)
    have hend : t.getD i 0 + len = t.getD (i + 1) 0 := by rw [hlen]; ring
    obtain ⟨b, hb⟩ := hlin i hi
    have hpoly : ∀ j : Fin nx, ∃ y : ℝ[X], y.natDegree ≤ N + 1 ∧ (∀ l ≤ N, y.eval (t.getD i 0 + len * c.getD l 0) = (x (i * N + l)).getD j 0) ∧
        ∀ l ≤ N, (derivative y).eval (t.getD i 0 + len * c.getD l 0) = (f (x (i * N + l)) (v (pointTime t c i l)) p).getD j 0 := fun j =>
      (defect_iff h (t.getD i 0) len hlen0 (fun l => (x (i * N + l)).getD j 0) fun l => (f (x (i * N + l)) (v (pointTime t c i l)) p).getD j 0).1
        fun k hk => by simpa only [Nat.zero_add, ← Nat.add_assoc] using defects_zero_iff.1 (hd i hi) j j.2 k hk
    choose y hy1 hy2 hy3 using hpoly
    set b' : Fin nx → ℝ[X] := fun j => b j with hb'
    have hpt : ∀ l ≤ N, pointTime t c i l ∈ pieceOf t i := fun l hl => pointTime_mem (ht i hi) (h.mem l hl)
    have hrhs : ∀ s ∈ pieceOf t i, ∀ j : Fin nx, (f (z s) (v s) p).getD j 0 = (A'.mulVec (zF s) + evalAt b' s) j := fun s hs j => by
      rw [(hb j j.2).2 s hs _ (hzl s), Finset.sum_range]
      rfl
    have hpiece : pieceOf t i = Set.Icc (t.getD i 0) (t.getD i 0 + len) := by rw [hend]; rfl
    have hzd : ∀ s ∈ Set.Icc (t.getD i 0) (t.getD i 0 + len),
        HasDerivWithinAt zF (A'.mulVec (zF s) + evalAt b' s) (Set.Icc (t.getD i 0) (t.getD i 0 + len)) s := fun s hs => by
      rw [← hpiece] at hs ⊢
      refine hasDerivWithinAt_pi.2 fun j => ?_
      rw [← hrhs s hs j]
      exact hz i hi s hs j j.2
    have hBs : ‖solDeriv A' b' zF (N + 2) (t.getD i 0)‖ ≤ B := (pi_norm_le_iff_of_nonneg hB0).2 fun j => by
      have hmem : t.getD i 0 ∈ pieceOf t i := ⟨le_rfl, (ht i hi).le⟩
      have hud : UniqueDiffOn ℝ (Set.Icc (t.getD i 0) (t.getD i 0 + len)) := uniqueDiffOn_Icc (by linarith)
      rw [Real.norm_eq_abs, ← solDeriv_iterated hud hzd j (N + 1) _ (by rw [← hpiece]; exact hmem), ← hpiece]
      have e := iteratedDerivWithin_congr (n := N + 1) (f := fun s => (f (z s) (v s) p).getD j 0) (g := fun s => solDeriv A' b' zF 1 s j)
        (fun s hs => hrhs s hs j) hmem
      rw [← e]
      exact hB i hi j j.2 _ hmem
    have := piece_super h hK (t0 := t.getD i 0) hlen0 ha (mulVec_le_of_rows ha hA)
      ((mul_le_mul_of_nonneg_right (hh i hi) ha).trans hsmall) (y := y) (b := b') hy1 (fun j => (hb j j.2).1) (fun l hl => funext fun j => by
        have h1 := hy3 j l hl
        rw [(hb j j.2).2 _ (hpt l hl) _ (hx _), Finset.sum_range] at h1
        simp only [evalAt, derivOf, Function.iterate_one, nodePoint, Pi.add_apply, Matrix.mulVec, dotProduct, Matrix.of_apply]
        rw [h1]
        congr 1
        refine Finset.sum_congr rfl fun k _ => ?_
        rw [hy2 k l hl]) hzd hBs
    have e1 : evalAt y (t.getD i 0 + len) = xF (i + 1) := funext fun j => by
      have := hy2 j N le_rfl
      rw [h.last, mul_one] at this
      simp only [evalAt, hxF]
      rw [this, Nat.add_mul, Nat.one_mul]
    have e2 : evalAt y (t.getD i 0) = xF i := funext fun j => by
      have := hy2 j 0 (Nat.zero_le _)
      rw [h.first, mul_zero, add_zero] at this
      simp only [evalAt, hxF]
      rw [this, Nat.add_zero]
    rw [e1, e2, hend] at this
    refine this.trans ?_
    have h2 : (len / 2) ^ (2 * N) ≤ (hmax / 2) ^ (2 * N) := pow_le_pow_left₀ (by positivity) (by linarith [hh i hi]) _
    rw [hM]
    gcongr
  have hM0 : 0 ≤ M := by
    have : 0 ≤ (hmax / 2) ^ (2 * N) := by rw [pow_mul]; positivity
    positivity
  have hall : ∀ i ≤ P, ‖xF i - zF (t.getD i 0)‖ ≤ meshError a B e0 hmax N t (t.getD i 0) ∧ t.getD 0 0 ≤ t.getD i 0 := by
    intro i
    induction i with
    | zero =>
      intro _
      refine ⟨h0.trans (le_of_eq ?_), le_rfl⟩
      simp [meshError]
    | succ i ih =>
      intro hi
      obtain ⟨ih, ih0⟩ := ih (by omega)
      have hti := ht i (by omega)
      refine ⟨(hstep i (by omega)).trans ?_, by linarith⟩
      unfold meshError at ih ⊢
      rw [← hM] at ih ⊢
      set τ := t.getD i 0
      set τ' := t.getD (i + 1) 0
      set τ0 := t.getD 0 0
      have e1 : Real.exp (2 * a * (τ' - τ0)) = Real.exp (2 * a * (τ' - τ)) * Real.exp (2 * a * (τ - τ0)) := by
        rw [← Real.exp_add]; congr 1; ring
      rw [e1, mul_assoc (Real.exp _)]
      refine mul_le_mul_of_nonneg_left ?_ (Real.exp_pos _).le
      have h1 : (1 : ℝ) ≤ Real.exp (2 * a * (τ - τ0)) := Real.one_le_exp (by have : 0 ≤ τ - τ0 := by linarith
                                                                             positivity)
      have h2 : (τ' - τ) * M ≤ Real.exp (2 * a * (τ - τ0)) * ((τ' - τ) * M) :=
        le_mul_of_one_le_left (mul_nonneg (by linarith) hM0) h1
      calc _ ≤ Real.exp (2 * a * (τ - τ0)) * (e0 + (τ - τ0) * M) + Real.exp (2 * a * (τ - τ0)) * ((τ' - τ) * M) := add_le_add ih h2
        _ = _ := by ring
  intro i hi j hj
  have := (norm_le_pi_norm (xF i - zF (t.getD i 0)) ⟨j, hj⟩).trans (hall i hi).1
  simpa only [hxF, hzF, Pi.sub_apply, Real.norm_eq_abs] using this

end Ceacoest
