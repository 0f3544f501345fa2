import Mathlib.Algebra.Polynomial.Degree.IsMonicOfDegree
import Verif.Spec.TimeReversal
import Verif.Lemmas.Superconvergence
import Mathlib.Data.List.Sort

/-! # Lemmas for C91: the points and weights are symmetric -/

namespace Ceacoest
open Polynomial Spec RK

theorem integral_flip (q : ℝ[X]) (a b : ℝ) : integral (q.comp (1 - X)) a b = integral q (1 - b) (1 - a) := by
  unfold integral
  simp only [eval_comp, eval_sub, eval_one, eval_X]
  exact intervalIntegral.integral_comp_sub_left (fun x => q.eval x) 1

theorem degree_flip {q : ℝ[X]} {n : Nat} (h : q.degree < (n + 1 : Nat)) : (q.comp (1 - X)).degree < (n + 1 : Nat) := by
  by_cases hq : q.comp (1 - X) = 0
  · rw [hq, degree_zero]; exact WithBot.bot_lt_coe _
  · have h0 : q ≠ 0 := fun e => hq (by rw [e, zero_comp])
    rw [degree_eq_natDegree hq]
    rw [degree_eq_natDegree h0] at h
    have h1 : (1 - X : ℝ[X]).natDegree ≤ 1 := natDegree_one_sub_X
    have h2 := natDegree_comp_le (p := q) (q := (1 - X : ℝ[X]))
    have h3 : q.natDegree < n + 1 := by exact_mod_cast h
    have : q.natDegree * (1 - X : ℝ[X]).natDegree ≤ q.natDegree * 1 := Nat.mul_le_mul_left _ h1
    exact_mod_cast (show (q.comp (1 - X)).natDegree < n + 1 by omega)

/-- The points are symmetric about the middle of the piece. -/
theorem points_symm {c K : List ℝ} {J : List (List ℝ)} {N : Nat} (h : PointsOK c J N)
    (hK : ∀ q : ℝ[X], q.natDegree ≤ 2 * N - 1 → ∑ l ∈ Finset.range (N + 1), K.getD l 0 * q.eval (c.getD l 0) = integral q 0 1)
    (hinc : c.Pairwise (· < ·)) : reversedTimes 1 c = c := by
  have hrod := nodeProd_rodrigues h hK
  have hsym : ∀ x : ℝ, (nodeProd c N).eval x = 0 → (nodeProd c N).eval (1 - x) = 0 := by
    intro x hx
    have e : ((X * (X - 1)) ^ N : ℝ[X]).comp (1 - X) = (X * (X - 1)) ^ N := by
      rw [pow_comp, mul_comp, sub_comp, X_comp, one_comp]
      congr 1; ring
    have e2 := iterate_derivative_comp_one_sub_X ((X * (X - 1)) ^ N : ℝ[X]) (N - 1)
    rw [e] at e2
    have e3 := congrArg (eval x) e2
    rw [eval_mul, eval_comp, eval_sub, eval_one, eval_X] at e3
    rw [hrod, eval_mul, eval_C] at hx ⊢
    rcases mul_eq_zero.1 hx with h0 | h0
    · rw [h0, zero_mul]
    · rw [h0] at e3
      rcases mul_eq_zero.1 e3.symm with h1 | h1
      · exfalso
        rw [eval_pow, eval_neg, eval_one] at h1
        exact pow_ne_zero _ (by norm_num) h1
      · rw [h1, mul_zero]
  have hmem : ∀ x : ℝ, x ∈ c ↔ (nodeProd c N).eval x = 0 := by
    intro x
    rw [nodeProd, eval_prod, Finset.prod_eq_zero_iff, List.mem_iff_getElem]
    constructor
    · rintro ⟨i, hi, rfl⟩
      exact ⟨i, Finset.mem_range.2 (by rw [← h.len]; exact hi), by rw [getD_of_lt _ _ hi]; simp⟩
    · rintro ⟨i, hi, e⟩
      have hi' : i < c.length := by rw [h.len]; exact Finset.mem_range.1 hi
      refine ⟨i, hi', ?_⟩
      rw [eval_sub, eval_X, eval_C, getD_of_lt _ _ hi'] at e
      linarith
  have hpw : (reversedTimes 1 c).Pairwise (· < ·) := by
    unfold reversedTimes
    rw [List.pairwise_reverse, List.pairwise_map]
    exact hinc.imp fun h => by linarith
  refine List.SortedLT.eq_of_mem_iff hpw.sortedLT hinc.sortedLT fun a => ?_
  unfold reversedTimes
  rw [List.mem_reverse, List.mem_map]
  constructor
  · rintro ⟨x, hx, rfl⟩
    exact (hmem _).2 (hsym x ((hmem x).1 hx))
  · intro ha
    exact ⟨1 - a, (hmem _).2 (hsym a ((hmem a).1 ha)), by ring⟩

theorem reversedTimes_getD {T : ℝ} {t : List ℝ} {n i : Nat} (hl : t.length = n + 1) (hi : i ≤ n) :
    (reversedTimes T t).getD i 0 = T - t.getD (n - i) 0 := by
  have h1 : i < (reversedTimes T t).length := by simp [reversedTimes, hl]; omega
  rw [getD_of_lt _ _ h1, getD_of_lt t _ (by omega : n - i < t.length)]
  simp only [reversedTimes, List.getElem_reverse, List.getElem_map, List.length_map]
  congr 2
  omega

/-- Weights are determined by what they give on polynomials. -/
theorem weights_unique {c : List ℝ} {N : Nat} (hn : c.Nodup) (hl : c.length = N + 1) {a b : Nat → ℝ}
    (h : ∀ q : ℝ[X], q.degree < (N + 1 : Nat) → ∑ l ∈ Finset.range (N + 1), a l * q.eval (c.getD l 0) = ∑ l ∈ Finset.range (N + 1), b l * q.eval (c.getD l 0))
    {l : Nat} (hl' : l ≤ N) : a l = b l := by
  obtain ⟨q, hq, hv⟩ := exists_interp c hn hl (fun i => if i.1 = l then 1 else 0)
  have hv' : ∀ i ≤ N, q.eval (c.getD i 0) = if i = l then 1 else 0 := fun i hi => hv ⟨i, by omega⟩
  have e : ∀ w : Nat → ℝ, ∑ i ∈ Finset.range (N + 1), w i * q.eval (c.getD i 0) = w l := fun w => by
    rw [Finset.sum_eq_single l]
    · rw [hv' l hl', if_pos rfl, mul_one]
    · intro i hi hne
      rw [hv' i (by have := Finset.mem_range.1 hi; omega), if_neg hne, mul_zero]
    · intro hnot; exact absurd (Finset.mem_range.2 (by omega)) hnot
  rw [← e a, ← e b]
  exact h q hq

theorem sum_flip {M : Type} [AddCommMonoid M] (f : Nat → M) (N : Nat) : ∑ l ∈ Finset.range (N + 1), f (N - l) = ∑ l ∈ Finset.range (N + 1), f l := by
  have := Finset.sum_range_reflect f (N + 1)
  simpa using this

theorem J_symm {c : List ℝ} {J : List (List ℝ)} {N : Nat} (h : PointsOK c J N) (hs : ∀ l ≤ N, c.getD (N - l) 0 = 1 - c.getD l 0) {k l : Nat} (hk : k < N) (hl : l ≤ N) :
    (J.getD (N - 1 - k) []).getD (N - l) 0 = (J.getD k []).getD l 0 := by
  refine weights_unique h.nodup h.len (a := fun l => (J.getD (N - 1 - k) []).getD (N - l) 0) (b := fun l => (J.getD k []).getD l 0) (fun q hq => ?_) hl
  rw [h.exact q hq k hk]
  have h1 := h.exact (q.comp (1 - X)) (degree_flip hq) (N - 1 - k) (by omega)
  rw [integral_flip, show N - 1 - k + 1 = N - k by omega, hs k (by omega), show N - 1 - k = N - (k + 1) by omega, hs (k + 1) (by omega), sub_sub_cancel, sub_sub_cancel,
    ← sum_flip] at h1
  rw [← h1, show N - 1 - k = N - (k + 1) by omega]
  refine Finset.sum_congr rfl fun i hi => ?_
  have hi := Finset.mem_range.1 hi
  rw [eval_comp, eval_sub, eval_one, eval_X, hs i (by omega), sub_sub_cancel]

theorem K_symm {c K : List ℝ} {J : List (List ℝ)} {N : Nat} (h : PointsOK c J N)
    (hK : ∀ q : ℝ[X], q.natDegree ≤ 2 * N - 1 → ∑ l ∈ Finset.range (N + 1), K.getD l 0 * q.eval (c.getD l 0) = integral q 0 1)
    (hs : ∀ l ≤ N, c.getD (N - l) 0 = 1 - c.getD l 0) {l : Nat} (hl : l ≤ N) : K.getD (N - l) 0 = K.getD l 0 := by
  have hN := h.pos
  have hdeg : ∀ q : ℝ[X], q.degree < (N + 1 : Nat) → q.natDegree ≤ 2 * N - 1 := fun q hq => by
    by_cases h0 : q = 0
    · simp [h0]
    · have : q.natDegree < N + 1 := (natDegree_lt_iff_degree_lt h0).2 hq
      omega
  refine weights_unique h.nodup h.len (a := fun l => K.getD (N - l) 0) (b := fun l => K.getD l 0) (fun q hq => ?_) hl
  rw [hK q (hdeg q hq)]
  have h1 := hK (q.comp (1 - X)) (hdeg _ (degree_flip hq))
  rw [integral_flip, sub_self, sub_zero, ← sum_flip] at h1
  rw [← h1]
  refine Finset.sum_congr rfl fun i hi => ?_
  have hi := Finset.mem_range.1 hi
  rw [eval_comp, eval_sub, eval_one, eval_X, hs i (by omega), sub_sub_cancel]

/-! ### The weights -/

theorem legCoef_succ (n k : Nat) : ((k : ℝ) + 1) ^ 2 * legCoef n (k + 1) = (n * (n + 1) - k * (k + 1)) * legCoef n k := by
  rw [← choose_mul_choose, ← choose_mul_choose]
  have h1 := Nat.choose_succ_right_eq n k
  have h2 := Nat.choose_mul_succ_eq (n + k) n
  rw [show n + k + 1 - n = k + 1 by omega] at h2
  have h2' : ((n + k).choose n : ℝ) * (n + k + 1) = ((n + (k + 1)).choose n : ℝ) * (k + 1) := by exact_mod_cast h2
  rcases Nat.lt_or_ge n k with hk | hk
  · rw [Nat.choose_eq_zero_of_lt hk, Nat.choose_eq_zero_of_lt (by omega : n < k + 1)]
    simp
  · have h1' : (n.choose (k + 1) : ℝ) * (k + 1) = (n.choose k : ℝ) * (n - k) := by
      rw [← Nat.cast_sub hk]
      exact_mod_cast h1
    push_cast
    linear_combination ((k : ℝ) + 1) * ((n + (k + 1)).choose n : ℝ) * h1' - ((n.choose k : ℝ) * (n - k)) * h2'

/-- Legendre's differential equation. -/
theorem shiftedLeg_ode (n : Nat) : derivative (X * (X - 1) * derivative (shiftedLeg n)) = C ((n : ℝ) * (n + 1)) * shiftedLeg n := by
  ext k
  rw [coeff_derivative, coeff_C_mul, mul_assoc, coeff_X_mul, sub_mul, one_mul, coeff_sub, coeff_derivative, coeff_shiftedLeg, coeff_shiftedLeg]
  have hX : (X * derivative (shiftedLeg n)).coeff k = (-1) ^ k * (legCoef n k : ℝ) * k := by
    cases k with
    | zero => simp
    | succ k => rw [coeff_X_mul, coeff_derivative, coeff_shiftedLeg]; push_cast; ring
  rw [hX]
  have := legCoef_succ n k
  rw [pow_succ]
  linear_combination ((-1 : ℝ) ^ k) * this

/-- The node polynomial without the factor of point `i`. -/
noncomputable def nodeOmit (c : List ℝ) (N i : Nat) : ℝ[X] := ∏ l ∈ (Finset.range (N + 1)).erase i, (X - C (c.getD l 0))

theorem nodeOmit_mul {c : List ℝ} {N i : Nat} (hi : i ≤ N) : (X - C (c.getD i 0)) * nodeOmit c N i = nodeProd c N := by
  unfold nodeOmit nodeProd
  exact Finset.mul_prod_erase (Finset.range (N + 1)) (fun l => X - C (c.getD l 0)) (Finset.mem_range.2 (by omega))

theorem nodeOmit_monic (c : List ℝ) (N i : Nat) : (nodeOmit c N i).Monic := monic_prod_of_monic _ _ fun _ _ => monic_X_sub_C _

theorem nodeOmit_natDegree (c : List ℝ) {N i : Nat} (hi : i ≤ N) : (nodeOmit c N i).natDegree = N := by
  rw [nodeOmit, natDegree_prod_of_monic _ _ fun _ _ => monic_X_sub_C _]
  simp [Finset.card_erase_of_mem (Finset.mem_range.2 (by omega : i < N + 1))]

theorem nodeOmit_eval {c : List ℝ} {N i l : Nat} (hl : l ≤ N) (hne : l ≠ i) : (nodeOmit c N i).eval (c.getD l 0) = 0 := by
  rw [nodeOmit, eval_prod]
  exact Finset.prod_eq_zero (Finset.mem_erase.2 ⟨hne, Finset.mem_range.2 (by omega)⟩) (by simp)

theorem nodeOmit_self {c : List ℝ} {N i : Nat} (hi : i ≤ N) : (nodeOmit c N i).eval (c.getD i 0) = (derivative (nodeProd c N)).eval (c.getD i 0) := by
  rw [← nodeOmit_mul hi, derivative_mul]
  simp

/-- The weights of Gauss–Lobatto quadrature. -/
theorem K_closed {c K : List ℝ} {J : List (List ℝ)} {N : Nat} (h : PointsOK c J N)
    (hK : ∀ q : ℝ[X], q.natDegree ≤ 2 * N - 1 → ∑ l ∈ Finset.range (N + 1), K.getD l 0 * q.eval (c.getD l 0) = integral q 0 1)
    {i : Nat} (hi : i ≤ N) : K.getD i 0 * ((N : ℝ) * (N + 1) * (shiftedLeg N).eval (c.getD i 0) ^ 2) = 1 := by
  have hN := h.pos
  have hN0 : (N : ℝ) ≠ 0 := by exact_mod_cast (by omega : N ≠ 0)
  -- the derivative of the node polynomial
  obtain ⟨lam, hlam, hder⟩ : ∃ lam : ℝ, lam ≠ 0 ∧ derivative (nodeProd c N) = C lam * shiftedLeg N := by
    refine ⟨((N + 1).factorial : ℝ) / ((2 * N).factorial : ℝ) * ((-1) ^ N * N.factorial), ?_, ?_⟩
    · refine mul_ne_zero (div_ne_zero ?_ ?_) (mul_ne_zero (pow_ne_zero _ (by norm_num)) ?_) <;> exact_mod_cast Nat.factorial_ne_zero _
    · rw [nodeProd_rodrigues h hK, derivative_mul, derivative_C, zero_mul, zero_add, ← Function.iterate_succ_apply' (f := derivative), Nat.succ_eq_add_one, show N - 1 + 1 = N by omega, bump_eq,
        iterate_derivative_C_mul, iterate_bump]
      simp only [C_mul]
      ring
  -- quadrature of polynomials that vanish at all points but one
  have hsum : ∀ (r : ℝ[X]) (j : Nat), j ≤ N → ∑ l ∈ Finset.range (N + 1), K.getD l 0 * (r * nodeOmit c N j).eval (c.getD l 0) =
      K.getD j 0 * (r.eval (c.getD j 0) * (lam * (shiftedLeg N).eval (c.getD j 0))) := by
    intro r j hj
    rw [Finset.sum_eq_single j]
    · rw [eval_mul, nodeOmit_self hj, hder, eval_mul, eval_C]
    · intro l hl hne
      rw [eval_mul, nodeOmit_eval (by have := Finset.mem_range.1 hl; omega) hne]
      ring
    · intro hnot; exact absurd (Finset.mem_range.2 (by omega)) hnot
  -- the same at all points
  have hconst : K.getD i 0 * ((shiftedLeg N).eval (c.getD i 0) ^ 2) = K.getD 0 0 * ((shiftedLeg N).eval (c.getD 0 0) ^ 2) := by
    have hd : (nodeOmit c N i - nodeOmit c N 0).natDegree < N := by
      exact IsMonicOfDegree.natDegree_sub_lt (by omega) ⟨nodeOmit_natDegree c hi, nodeOmit_monic c N i⟩
        ⟨nodeOmit_natDegree c (by omega), nodeOmit_monic c N 0⟩
    have h1 := hK (shiftedLeg N * (nodeOmit c N i - nodeOmit c N 0)) (by
      refine natDegree_mul_le.trans ?_
      rw [natDegree_shiftedLeg]; omega)
    rw [shiftedLeg_orth N _ hd] at h1
    simp only [mul_sub, eval_sub] at h1
    simp only [mul_sub, Finset.sum_sub_distrib] at h1
    rw [hsum _ i hi, hsum _ 0 (by omega)] at h1
    have h2 : lam * (K.getD i 0 * ((shiftedLeg N).eval (c.getD i 0) ^ 2) - K.getD 0 0 * ((shiftedLeg N).eval (c.getD 0 0) ^ 2)) = 0 := by
      linear_combination h1
    rcases mul_eq_zero.1 h2 with h3 | h3
    · exact absurd h3 hlam
    · linarith
  -- the first weight
  have hP0 : (shiftedLeg N).eval 0 = 1 := by
    rw [← coeff_zero_eq_eval_zero, coeff_shiftedLeg]
    simp [legCoef]
  have hfirst : K.getD 0 0 * ((N : ℝ) * (N + 1)) = 1 := by
    have hω : C ((N : ℝ) * (N + 1)) * nodeProd c N = C lam * (X * (X - 1) * derivative (shiftedLeg N)) := by
      have hd : derivative (C ((N : ℝ) * (N + 1)) * nodeProd c N - C lam * (X * (X - 1) * derivative (shiftedLeg N))) = 0 := by
        rw [derivative_sub, derivative_C_mul, derivative_C_mul, hder, shiftedLeg_ode]
        ring
      have hc := natDegree_eq_zero_of_derivative_eq_zero hd
      obtain ⟨a, ha⟩ := natDegree_eq_zero.1 hc
      have he := congrArg (eval 0) ha
      have hz := nodeProd_eval (c := c) (N := N) (l := 0) (by omega)
      rw [h.first] at hz
      simp [hz] at he
      rw [he, C_0] at ha
      exact (sub_eq_zero.1 ha.symm)
    have hq : C ((N : ℝ) * (N + 1)) * nodeOmit c N 0 = C lam * ((X - 1) * derivative (shiftedLeg N)) := by
      have e := nodeOmit_mul (c := c) (N := N) (i := 0) (by omega)
      rw [h.first, C_0, sub_zero] at e
      refine mul_left_cancel₀ (X_ne_zero (R := ℝ)) ?_
      rw [← e] at hω
      linear_combination hω
    have h1 := hsum (C ((N : ℝ) * (N + 1))) 0 (by omega)
    rw [hK _ (by
      refine natDegree_mul_le.trans ?_
      rw [natDegree_C, nodeOmit_natDegree c (by omega)]; omega), hq, integral_C_mul, h.first, hP0, eval_C] at h1
    have h2 := integral_derivative ((X - 1) * shiftedLeg N) 0 1
    rw [derivative_mul, derivative_sub, derivative_X, derivative_one, sub_zero, one_mul, integral_add] at h2
    have h3 := shiftedLeg_orth N 1 (by simp; omega)
    rw [mul_one] at h3
    rw [h3] at h2
    simp [hP0] at h2
    rw [h2] at h1
    have h4 : lam * (K.getD 0 0 * ((N : ℝ) * (N + 1)) - 1) = 0 := by linear_combination -h1
    rcases mul_eq_zero.1 h4 with h5 | h5
    · exact absurd h5 hlam
    · linarith
  rw [h.first, hP0] at hconst
  linear_combination (N : ℝ) * (N + 1) * hconst + hfirst

end Ceacoest
