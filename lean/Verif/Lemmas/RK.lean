import Verif.Model.RK
import Verif.Spec.Poly
import Verif.Lemmas.Lists
import Mathlib.LinearAlgebra.Lagrange
import Mathlib.Algebra.BigOperators.Group.List.Basic
import Mathlib.MeasureTheory.Integral.IntervalIntegral.FundThmCalculus
import Mathlib.Analysis.Calculus.Deriv.Polynomial
import Mathlib.Topology.Algebra.Polynomial
import Mathlib.Tactic.FieldSimp

/-! # Coefficient lists and polynomials -/

namespace Ceacoest.RK
open Polynomial Spec

variable {F : Type} [Field F]

theorem toPoly_nil : toPoly ([] : List F) = 0 := by simp [toPoly]

theorem toPoly_cons (a : F) (c : List F) : toPoly (a :: c) = C a + toPoly c * X := by
  unfold toPoly
  rw [List.length_cons, Finset.sum_range_succ', Finset.sum_mul, add_comm]
  congr 1
  · simp
  · refine Finset.sum_congr rfl fun i _ => ?_
    rw [List.getD_cons_succ, pow_succ, mul_assoc]

theorem eval_toPoly (c : List F) (x : F) : (toPoly c).eval x = polyval c x := by
  induction c with
  | nil => simp [toPoly_nil, polyval]
  | cons a c ih =>
    rw [toPoly_cons, eval_add, eval_C, eval_mul, eval_X, ih]
    rfl

theorem degree_toPoly (c : List F) : (toPoly c).degree < c.length ∨ c = [] := by
  by_cases h : c = []
  · exact .inr h
  · refine .inl ?_
    unfold toPoly
    rw [degree_lt_iff_coeff_zero]
    intro m hm
    rw [finset_sum_coeff]
    refine Finset.sum_eq_zero fun i hi => ?_
    rw [coeff_C_mul, coeff_X_pow, if_neg (by have := Finset.mem_range.1 hi; omega), mul_zero]

theorem zipWith_sub_toPoly (a b : List F) (h : a.length = b.length) :
    toPoly (List.zipWith (· - ·) a b) = toPoly a - toPoly b := by
  induction a generalizing b with
  | nil => cases b <;> simp_all [toPoly_nil]
  | cons x a ih =>
    cases b with
    | nil => simp at h
    | cons y b =>
      rw [List.zipWith_cons_cons, toPoly_cons, toPoly_cons, toPoly_cons, ih b (by simpa using h), C_sub]
      ring

theorem toPoly_map_mul (r : F) (c : List F) : toPoly (c.map (r * ·)) = C r * toPoly c := by
  induction c with
  | nil => simp [toPoly_nil]
  | cons a c ih => rw [List.map_cons, toPoly_cons, toPoly_cons, ih, C_mul]; ring

theorem toPoly_append_zero (c : List F) : toPoly (c ++ [0]) = toPoly c := by
  induction c with
  | nil => simp [toPoly_cons, toPoly_nil]
  | cons a c ih => rw [List.cons_append, toPoly_cons, toPoly_cons, ih]

theorem toPoly_mulLin (c : List F) (r : F) : toPoly (mulLin c r) = toPoly c * (X - C r) := by
  unfold mulLin
  rw [zipWith_sub_toPoly _ _ (by simp), toPoly_cons, toPoly_append_zero, toPoly_map_mul, C_0]
  ring

theorem length_mulLin (c : List F) (r : F) : (mulLin c r).length = c.length + 1 := by simp [mulLin]

theorem toPoly_foldl_mulLin (roots : List F) (c : List F) :
    toPoly (roots.foldl mulLin c) = toPoly c * (roots.map fun r => X - C r).prod := by
  induction roots generalizing c with
  | nil => simp
  | cons r roots ih => rw [List.foldl_cons, ih, toPoly_mulLin, List.map_cons, List.prod_cons, mul_assoc]

theorem length_foldl_mulLin (roots : List F) (c : List F) : (roots.foldl mulLin c).length = c.length + roots.length := by
  induction roots generalizing c with
  | nil => simp
  | cons r roots ih => rw [List.foldl_cons, ih, length_mulLin, List.length_cons]; omega

theorem toPoly_map_div (s : F) (c : List F) : toPoly (c.map (· / s)) = C s⁻¹ * toPoly c := by
  rw [← toPoly_map_mul]
  congr 1
  refine List.map_congr_left fun a _ => ?_
  rw [div_eq_mul_inv, mul_comm]

theorem foldl_mul_eq_prod (l : List F) (a : F) : l.foldl (· * ·) a = a * l.prod := by
  induction l generalizing a with
  | nil => simp
  | cons b l ih => rw [List.foldl_cons, ih, List.prod_cons, mul_assoc]

theorem mem_others (points : List F) (i : Nat) (x : F) :
    x ∈ others points i ↔ ∃ j, j ≠ i ∧ points[j]? = some x := by
  unfold others
  rw [List.mem_append, List.mem_iff_getElem?, List.mem_iff_getElem?]
  constructor
  · rintro (⟨j, hj⟩ | ⟨j, hj⟩)
    · rw [List.getElem?_take] at hj
      split at hj
      · exact ⟨j, by omega, hj⟩
      · simp at hj
    · rw [List.getElem?_drop] at hj
      exact ⟨i + 1 + j, by omega, hj⟩
  · rintro ⟨j, hne, hj⟩
    rcases Nat.lt_or_gt_of_ne hne with h | h
    · exact .inl ⟨j, by rw [List.getElem?_take, if_pos h, hj]⟩
    · refine .inr ⟨j - (i + 1), ?_⟩
      rw [List.getElem?_drop, ← hj]
      congr 1
      omega

theorem length_others (points : List F) (i : Nat) (h : i < points.length) : (others points i).length = points.length - 1 := by
  simp [others]
  omega

variable [DecidableEq F]

/-- What `basisPoly` computes when the points are distinct. -/
theorem basisPoly_ok (points : List F) (hn : points.Nodup) (h2 : 2 ≤ points.length) (i : Nat) (hi : i < points.length) :
    ∃ c, basisPoly points points[i] i = .ok c ∧ c.length = points.length ∧
      toPoly c = C ((others points i).map (points[i] - ·)).prod⁻¹ * ((others points i).map fun r => X - C r).prod := by
  have hne : others points i ≠ [] := by
    intro h
    have := length_others points i hi
    rw [h] at this
    simp at this
    omega
  have hp : ((others points i).map (points[i] - ·)).prod ≠ 0 := by
    refine List.prod_ne_zero ?_
    intro h0
    rw [List.mem_map] at h0
    obtain ⟨x, hx, h0⟩ := h0
    obtain ⟨j, hji, hj⟩ := (mem_others points i x).1 hx
    obtain ⟨hjl, hj⟩ := List.getElem?_eq_some_iff.1 hj
    rw [sub_eq_zero, ← hj] at h0
    exact hji ((hn.getElem_inj_iff).1 h0).symm
  refine ⟨((others points i).foldl mulLin [1]).map (· / ((others points i).map (points[i] - ·)).foldl (· * ·) 1), ?_, ?_, ?_⟩
  · simp only [basisPoly, fromroots, if_neg hne]
    rw [foldl_mul_eq_prod, one_mul]
    show divScalar _ _ = _
    rw [divScalar, if_neg hp]
  · rw [List.length_map, length_foldl_mulLin, length_others points i hi]
    simp
    omega
  · rw [toPoly_map_div, toPoly_foldl_mulLin, foldl_mul_eq_prod, one_mul]
    simp [toPoly_cons, toPoly_nil]

theorem basisPoly_eval (points : List F) (hn : points.Nodup) (h2 : 2 ≤ points.length) (i : Nat) (hi : i < points.length) (c : List F)
    (hc : basisPoly points points[i] i = .ok c) (j : Nat) (hj : j < points.length) :
    (toPoly c).eval points[j] = if i = j then 1 else 0 := by
  obtain ⟨c', hc', -, ht⟩ := basisPoly_ok points hn h2 i hi
  rw [hc] at hc'
  cases hc'
  rw [ht, eval_mul, eval_C, eval_list_prod, List.map_map]
  have hfun : (eval points[j] ∘ fun r => X - C r) = fun r => points[j] - r := by funext r; simp
  rw [hfun]
  by_cases h : i = j
  · subst h
    rw [if_pos rfl, inv_mul_cancel₀]
    refine List.prod_ne_zero ?_
    intro h0
    rw [List.mem_map] at h0
    obtain ⟨x, hx, h0⟩ := h0
    obtain ⟨j, hji, hj⟩ := (mem_others points i x).1 hx
    obtain ⟨hjl, hj⟩ := List.getElem?_eq_some_iff.1 hj
    rw [sub_eq_zero, ← hj] at h0
    exact hji ((hn.getElem_inj_iff).1 h0).symm
  · rw [if_neg h, mul_eq_zero]
    right
    rw [List.prod_eq_zero_iff, List.mem_map]
    exact ⟨points[j], (mem_others points i _).2 ⟨j, fun h' => h h'.symm, List.getElem?_eq_getElem hj⟩, sub_self _⟩

theorem mapM_eq_ok_iff {α β : Type} (f : α → Py β) (l : List α) (r : List β) :
    l.mapM f = .ok r ↔ List.Forall₂ (fun a b => f a = .ok b) l r := by
  induction l generalizing r with
  | nil =>
    simp only [List.mapM_nil, List.forall₂_nil_left_iff]
    constructor
    · intro h; cases h; rfl
    · rintro rfl; rfl
  | cons a l ih =>
    rw [List.mapM_cons, List.forall₂_cons_left_iff]
    constructor
    · intro h
      cases ha : f a with
      | error e => rw [ha] at h; cases h
      | ok b =>
        rw [ha] at h
        cases hl : l.mapM f with
        | error e => rw [hl] at h; cases h
        | ok bs =>
          rw [hl] at h
          cases h
          exact ⟨b, bs, rfl, (ih bs).1 hl, rfl⟩
    · rintro ⟨b, bs, hb, hbs, rfl⟩
      rw [hb, (ih bs).2 hbs]
      rfl

theorem mapM_getElem {α β : Type} (f : α → Py β) (l : List α) (r : List β) (h : l.mapM f = .ok r) :
    ∃ hl : r.length = l.length, ∀ i (hi : i < l.length), f l[i] = .ok (r[i]'(by omega)) := by
  have h' := (mapM_eq_ok_iff f l r).1 h
  exact ⟨h'.length_eq.symm, fun i hi => (List.forall₂_iff_get.1 h').2 i hi (by rw [← h'.length_eq]; exact hi)⟩

/-! ### Integration -/

theorem derivative_integCoef [CharZero F] (c : List F) (k : Nat) :
    derivative (toPoly (integCoef c k) * X ^ (k + 1)) = toPoly c * X ^ k := by
  induction c generalizing k with
  | nil => simp [integCoef, toPoly_nil]
  | cons a c ih =>
    rw [integCoef, toPoly_cons, toPoly_cons, add_mul, mul_assoc, ← pow_succ', derivative_add, ih (k + 1), add_mul, mul_assoc,
      ← pow_succ']
    congr 1
    rw [derivative_C_mul_X_pow, Nat.add_sub_cancel]
    congr 1
    have : ((k : F) + 1) ≠ 0 := by exact_mod_cast Nat.succ_ne_zero k
    push_cast
    rw [div_mul_cancel₀ _ this]

theorem derivative_integ1 [CharZero F] (lo : F) (c : List F) : derivative (toPoly (integ1 lo c)) = toPoly c := by
  have := derivative_integCoef c 0
  simp only [zero_add, pow_one, pow_zero, mul_one] at this
  simp only [integ1]
  rw [toPoly_cons, derivative_add, derivative_C, zero_add, this]

theorem integ1_lo (lo : F) (c : List F) : (toPoly (integ1 lo c)).eval lo = 0 := by
  simp only [integ1]
  rw [toPoly_cons, eval_add, eval_C, eval_mul, eval_X, eval_toPoly]
  simp [polyval]

theorem integral_derivative (p : ℝ[X]) (a b : ℝ) : integral (derivative p) a b = p.eval b - p.eval a := by
  unfold integral
  refine intervalIntegral.integral_eq_sub_of_hasDerivAt (f := fun x => p.eval x) (fun x _ => p.hasDerivAt x) ?_
  exact ((derivative p).continuous).intervalIntegrable _ _

theorem integral_add (p q : ℝ[X]) (a b : ℝ) : integral (p + q) a b = integral p a b + integral q a b := by
  unfold integral
  simp only [eval_add]
  exact intervalIntegral.integral_add (p.continuous.intervalIntegrable _ _) (q.continuous.intervalIntegrable _ _)

theorem integral_C_mul (r : ℝ) (p : ℝ[X]) (a b : ℝ) : integral (C r * p) a b = r * integral p a b := by
  unfold integral
  simp only [eval_mul, eval_C]
  exact intervalIntegral.integral_const_mul _ _

theorem integral_zero (a b : ℝ) : integral 0 a b = 0 := by simp [integral]

theorem integral_add_interval (p : ℝ[X]) (a b c : ℝ) : integral p a b + integral p b c = integral p a c := by
  unfold integral
  exact intervalIntegral.integral_add_adjacent_intervals (p.continuous.intervalIntegrable _ _) (p.continuous.intervalIntegrable _ _)

theorem integ1_integral (lo hi : ℝ) (c : List ℝ) : polyval (integ1 lo c) hi = integral (toPoly c) lo hi := by
  rw [← derivative_integ1 lo c, integral_derivative, integ1_lo, sub_zero, eval_toPoly]

theorem getD_of_lt {α : Type} (l : List α) (d : α) {i : Nat} (h : i < l.length) : l.getD i d = l[i] := by
  simp [List.getD, h]

theorem sum_map_range {M : Type} [AddCommMonoid M] (f : Nat → M) (n : Nat) :
    ((List.range n).map f).sum = ∑ k ∈ Finset.range n, f k := by
  induction n with
  | zero => simp
  | succ n ih => rw [List.range_succ, List.map_append, List.sum_append, ih, Finset.sum_range_succ]; simp

theorem integral_sum {ι : Type} (s : Finset ι) (p : ι → ℝ[X]) (a b : ℝ) :
    integral (∑ i ∈ s, p i) a b = ∑ i ∈ s, integral (p i) a b := by
  classical
  induction s using Finset.induction_on with
  | empty => simp [integral_zero]
  | insert i s hi ih => rw [Finset.sum_insert hi, Finset.sum_insert hi, integral_add, ih]

end Ceacoest.RK
