import Verif.Spec.MaximumPrinciple
import Verif.Lemmas.TimeReversal
import Mathlib.Analysis.Calculus.Deriv.Add
import Mathlib.Analysis.Calculus.Deriv.Mul

/-! # Lemmas for C92: multipliers of the collocation equations are costates -/

namespace Ceacoest
open Polynomial Spec RK

/-! ### The Lobatto IIIB method -/

theorem sumJ_exact {c : List ℝ} {J : List (List ℝ)} {N : Nat} (h : PointsOK c J N) (q : ℝ[X]) (hq : q.degree < (N + 1 : Nat)) :
    ∀ m ≤ N, ∑ l ∈ Finset.range (N + 1), (∑ j ∈ Finset.range m, (J.getD j []).getD l 0) * q.eval (c.getD l 0) = integral q 0 (c.getD m 0) := by
  intro m
  induction m with
  | zero =>
    intro _
    rw [h.first]
    simp [integral]
  | succ m ih =>
    intro hm
    rw [← integral_add_interval q 0 (c.getD m 0), ← ih (by omega), ← h.exact q hq m (by omega), ← Finset.sum_add_distrib]
    refine Finset.sum_congr rfl fun l _ => ?_
    rw [Finset.sum_range_succ, add_mul]

theorem sumJ_eq_K {c K : List ℝ} {J : List (List ℝ)} {N : Nat} (h : PointsOK c J N)
    (hK : ∀ q : ℝ[X], q.natDegree ≤ 2 * N - 1 → ∑ l ∈ Finset.range (N + 1), K.getD l 0 * q.eval (c.getD l 0) = integral q 0 1) {l : Nat} (hl : l ≤ N) :
    ∑ j ∈ Finset.range N, (J.getD j []).getD l 0 = K.getD l 0 := by
  have hN := h.pos
  refine weights_unique h.nodup h.len (a := fun l => ∑ j ∈ Finset.range N, (J.getD j []).getD l 0) (b := fun l => K.getD l 0) (fun q hq => ?_) hl
  rw [sumJ_exact h q hq N le_rfl, h.last, hK q]
  by_cases h0 : q = 0
  · simp [h0]
  · have : q.natDegree < N + 1 := (natDegree_lt_iff_degree_lt h0).2 hq
    omega

/-- The coefficients of the Lobatto IIIB method, from those of the collocation method. -/
noncomputable def lobB (K : List ℝ) (J : List (List ℝ)) (l m : Nat) : ℝ :=
  K.getD m 0 * (1 - (∑ j ∈ Finset.range m, (J.getD j []).getD l 0) / K.getD l 0)

theorem lobB_ok {c K : List ℝ} {J : List (List ℝ)} {N : Nat} (h : PointsOK c J N)
    (hK : ∀ q : ℝ[X], q.natDegree ≤ 2 * N - 1 → ∑ l ∈ Finset.range (N + 1), K.getD l 0 * q.eval (c.getD l 0) = integral q 0 1)
    (hpos : ∀ l ≤ N, 0 < K.getD l 0) : LobattoIIIB c K N (lobB K J) where
  first l hl := by simp [lobB]
  last l hl := by
    rw [lobB, sumJ_eq_K h hK hl, div_self (hpos l hl).ne']
    simp
  exact l hl q hq := by
    obtain ⟨Q, hQ, hQd⟩ := exists_antideriv q
    obtain ⟨e, he, hev⟩ := exists_interp c h.nodup h.len (fun i => if i.1 = l then 1 else 0)
    have hev' : ∀ i ≤ N, e.eval (c.getD i 0) = if i = l then 1 else 0 := fun i hi => hev ⟨i, by omega⟩
    obtain ⟨R, hR, hRd⟩ := exists_antideriv e
    have hed : e.natDegree ≤ N := by
      by_cases h0 : e = 0
      · simp [h0]
      · have : e.natDegree < N + 1 := (natDegree_lt_iff_degree_lt h0).2 he
        omega
    have ha : ∀ m ≤ N, ∑ j ∈ Finset.range m, (J.getD j []).getD l 0 = R.eval (c.getD m 0) - R.eval 0 := fun m hm => by
      have := sumJ_exact h e he m hm
      rw [Finset.sum_eq_single l] at this
      · rw [hev' l hl, if_pos rfl, mul_one] at this
        rw [this, ← hR, integral_derivative]
      · intro i hi hne
        rw [hev' i (by have := Finset.mem_range.1 hi; omega), if_neg hne, mul_zero]
      · intro hnot; exact absurd (Finset.mem_range.2 (by omega)) hnot
    have hKl := sumJ_eq_K h hK hl
    rw [ha N le_rfl, h.last] at hKl
    have hKl0 := (hpos l hl).ne'
    -- the two quadratures
    have q1 := hK (q * (R - C (R.eval 0))) (by
      refine natDegree_mul_le.trans ?_
      have : (R - C (R.eval 0)).natDegree ≤ R.natDegree := by rw [natDegree_sub_C]
      omega)
    have q2 := hK (Q * e) (by
      refine natDegree_mul_le.trans ?_
      omega)
    have q3 := hK q (by omega)
    have e2 : ∑ m ∈ Finset.range (N + 1), K.getD m 0 * (Q * e).eval (c.getD m 0) = K.getD l 0 * Q.eval (c.getD l 0) := by
      rw [Finset.sum_eq_single l]
      · rw [eval_mul, hev' l hl, if_pos rfl, mul_one]
      · intro i hi hne
        rw [eval_mul, hev' i (by have := Finset.mem_range.1 hi; omega), if_neg hne, mul_zero, mul_zero]
      · intro hnot; exact absurd (Finset.mem_range.2 (by omega)) hnot
    rw [e2] at q2
    have hparts : integral (q * (R - C (R.eval 0))) 0 1 + integral (Q * e) 0 1 = Q.eval 1 * K.getD l 0 := by
      rw [← integral_add, show q * (R - C (R.eval 0)) + Q * e = derivative (Q * (R - C (R.eval 0))) by
        rw [derivative_mul, derivative_sub, derivative_C, sub_zero, hQ, hR], integral_derivative]
      simp only [eval_mul, eval_sub, eval_C]
      rw [← hKl]
      ring
    have hsum : ∑ m ∈ Finset.range (N + 1), lobB K J l m * q.eval (c.getD m 0) =
        (∑ m ∈ Finset.range (N + 1), K.getD m 0 * q.eval (c.getD m 0)) -
          (∑ m ∈ Finset.range (N + 1), K.getD m 0 * (q * (R - C (R.eval 0))).eval (c.getD m 0)) / K.getD l 0 := by
      rw [Finset.sum_div, ← Finset.sum_sub_distrib]
      refine Finset.sum_congr rfl fun m hm => ?_
      rw [lobB, ha m (by have := Finset.mem_range.1 hm; omega)]
      simp only [eval_mul, eval_sub, eval_C]
      ring
    rw [hsum, q1, q3, ← hQ, integral_derivative, integral_derivative, show integral (derivative Q * (R - C (R.eval 0))) 0 1 = Q.eval 1 * K.getD l 0 - K.getD l 0 * Q.eval (c.getD l 0) by
      rw [hQ, q2]; linarith]
    field_simp
    ring

theorem lobB_unique {c K : List ℝ} {J : List (List ℝ)} {N : Nat} (h : PointsOK c J N) {B B' : Nat → Nat → ℝ} (hB : LobattoIIIB c K N B) (hB' : LobattoIIIB c K N B')
    {l m : Nat} (hl : l ≤ N) (hm : m ≤ N) : B' l m = B l m := by
  rcases Nat.eq_zero_or_pos m with rfl | hm0
  · rw [hB.first l hl, hB'.first l hl]
  rcases Nat.eq_or_lt_of_le hm with rfl | hmN
  · rw [hB.last l hl, hB'.last l hl]
  set S := (Finset.range (N + 1)).filter fun i => i ≠ 0 ∧ i ≠ N ∧ i ≠ m with hS
  have hcard : S.card + 2 ≤ N := by
    have h1 : S ⊆ (Finset.Ioo 0 N).erase m := fun i hi => by
      simp only [hS, Finset.mem_filter, Finset.mem_range, Finset.mem_erase, Finset.mem_Ioo] at hi ⊢
      omega
    have h2 := Finset.card_le_card h1
    rw [Finset.card_erase_of_mem (by simp [hm0, hmN]), Nat.card_Ioo] at h2
    omega
  have hdeg : (∏ i ∈ S, (X - C (c.getD i 0))).natDegree + 2 ≤ N := by
    have := natDegree_prod_le S fun i => X - C (c.getD i 0)
    simp only [natDegree_X_sub_C, Finset.sum_const, smul_eq_mul, mul_one] at this
    omega
  have e1 := hB.exact l hl _ hdeg
  rw [← hB'.exact l hl _ hdeg, ← sub_eq_zero, ← Finset.sum_sub_distrib] at e1
  rw [Finset.sum_eq_single m] at e1
  · rw [← sub_mul, mul_eq_zero, eval_prod, Finset.prod_eq_zero_iff] at e1
    rcases e1 with e1 | ⟨i, hi, e1⟩
    · linarith
    · exfalso
      simp only [hS, Finset.mem_filter, Finset.mem_range] at hi
      rw [eval_sub, eval_X, eval_C, sub_eq_zero] at e1
      have hi' : i < c.length := by rw [h.len]; omega
      have hm' : m < c.length := by rw [h.len]; omega
      rw [getD_of_lt _ _ hi', getD_of_lt _ _ hm'] at e1
      exact hi.2.2.2 ((List.Nodup.getElem_inj_iff h.nodup).1 e1).symm
  · intro i hi hne
    by_cases h0 : i = 0
    · rw [h0, hB.first l hl, hB'.first l hl, sub_self]
    by_cases h1 : i = N
    · rw [h1, hB.last l hl, hB'.last l hl, zero_mul, sub_self]
    · have hz : (∏ i ∈ S, (X - C (c.getD i 0))).eval (c.getD i 0) = 0 := by
        rw [eval_prod]
        exact Finset.prod_eq_zero (i := i) (by simp only [hS, Finset.mem_filter]; exact ⟨hi, h0, h1, hne⟩) (by simp)
      rw [hz, mul_zero, mul_zero, sub_self]
  · intro hnot; exact absurd (Finset.mem_range.2 (by omega)) hnot

/-! ### Multipliers and costates on one piece -/

theorem abel (J G : Nat → ℝ) (n : Nat) :
    ∑ j ∈ Finset.range n, J j * ∑ m ∈ Finset.range (j + 1), G m = ∑ m ∈ Finset.range n, G m * (∑ j ∈ Finset.range n, J j - ∑ j ∈ Finset.range m, J j) := by
  induction n with
  | zero => simp
  | succ n ih =>
    rw [Finset.sum_range_succ, ih, Finset.sum_range_succ (fun m => G m * _), Finset.sum_range_succ J, Finset.sum_range_succ G]
    simp only [add_sub_right_comm, mul_add, Finset.sum_add_distrib, ← Finset.sum_mul]
    ring

/-- The weighted means of the multipliers are the costates of the Lobatto IIIB method. -/
theorem costate_eq {c K : List ℝ} {J : List (List ℝ)} {N : Nat} (h : PointsOK c J N)
    (hK : ∀ q : ℝ[X], q.natDegree ≤ 2 * N - 1 → ∑ l ∈ Finset.range (N + 1), K.getD l 0 * q.eval (c.getD l 0) = integral q 0 1)
    (hpos : ∀ l ≤ N, 0 < K.getD l 0) {lam G : Nat → ℝ} {A : ℝ} (hlam : ∀ j < N, lam j = -(A - ∑ m ∈ Finset.range (j + 1), G m)) {l : Nat} (hl : l ≤ N) :
    -((∑ j ∈ Finset.range N, (J.getD j []).getD l 0 * lam j) / K.getD l 0) = A - ∑ m ∈ Finset.range (N + 1), lobB K J l m / K.getD m 0 * G m := by
  have hKl := (hpos l hl).ne'
  have e1 : ∑ j ∈ Finset.range N, (J.getD j []).getD l 0 * lam j =
      -(A * K.getD l 0) + ∑ m ∈ Finset.range N, G m * (K.getD l 0 - ∑ j ∈ Finset.range m, (J.getD j []).getD l 0) := by
    rw [← sumJ_eq_K h hK hl, ← abel, Finset.mul_sum, ← Finset.sum_neg_distrib, ← Finset.sum_add_distrib]
    refine Finset.sum_congr rfl fun j hj => ?_
    rw [hlam j (Finset.mem_range.1 hj)]
    ring
  have e2 : ∑ m ∈ Finset.range (N + 1), lobB K J l m / K.getD m 0 * G m =
      (∑ m ∈ Finset.range N, G m * (K.getD l 0 - ∑ j ∈ Finset.range m, (J.getD j []).getD l 0)) / K.getD l 0 := by
    rw [Finset.sum_range_succ, (lobB_ok h hK hpos).last l hl, zero_div, zero_mul, add_zero, Finset.sum_div]
    refine Finset.sum_congr rfl fun m hm => ?_
    have hKm := (hpos m (Finset.mem_range.1 hm).le).ne'
    rw [lobB]
    field_simp
  rw [e1, e2]
  field_simp
  ring

/-! ### The Lagrange function -/

/-- The Lagrange function of the nonlinear program, as a function of states, inputs and parameters: the Hamiltonian with the weighted means of the multipliers, the path and end point
terms, and the increments of the states with the multipliers. -/
noncomputable def lagF (F : OCFunctions) (K len : List ℝ) (P N nx ng nh : Nat) (μ : Nat → Nat → ℝ) (ν : Nat → ℝ) (ψ lam : Nat → Nat → Nat → ℝ) (x u : Nat → List ℝ) (p : List ℝ) : ℝ :=
  (∑ k ∈ Finset.range P, ∑ l ∈ Finset.range (N + 1), len.getD k 0 * K.getD l 0 * F.hamiltonian nx (ψ k l) (x (k * N + l)) (u (k * N + l)) p) +
    (∑ r ∈ Finset.range (P * N + 1), F.pathTerm ng (μ r) (x r) (u r) p) + F.endTerm nh ν (x 0 ++ x (P * N)) p +
    ∑ k ∈ Finset.range P, ∑ j ∈ Finset.range N, ∑ a ∈ Finset.range nx, lam k j a * ((x (k * N + j + 1)).getD a 0 - (x (k * N + j)).getD a 0)

theorem piece_le {P N k l : Nat} (hk : k < P) (hl : l ≤ N) : k * N + l ≤ P * N := by
  calc k * N + l ≤ k * N + N := by omega
    _ = (k + 1) * N := (Nat.succ_mul k N).symm
    _ ≤ P * N := Nat.mul_le_mul_right _ hk

theorem lagF_congr (F : OCFunctions) (K len : List ℝ) (P N nx ng nh : Nat) (μ : Nat → Nat → ℝ) (ν : Nat → ℝ) (ψ lam : Nat → Nat → Nat → ℝ) {x u x' u' : Nat → List ℝ} {p : List ℝ}
    (hx : ∀ r ≤ P * N, x r = x' r) (hu : ∀ r ≤ P * N, u r = u' r) : lagF F K len P N nx ng nh μ ν ψ lam x u p = lagF F K len P N nx ng nh μ ν ψ lam x' u' p := by
  unfold lagF
  congr 1
  · congr 1
    · congr 1
      · refine Finset.sum_congr rfl fun k hk => Finset.sum_congr rfl fun l hl => ?_
        have := piece_le (N := N) (Finset.mem_range.1 hk) (show l ≤ N by have := Finset.mem_range.1 hl; omega)
        rw [hx _ this, hu _ this]
      · refine Finset.sum_congr rfl fun r hr => ?_
        have : r ≤ P * N := by have := Finset.mem_range.1 hr; omega
        rw [hx _ this, hu _ this]
    · rw [hx 0 (by omega), hx _ le_rfl]
  · refine Finset.sum_congr rfl fun k hk => Finset.sum_congr rfl fun j hj => ?_
    have hj := Finset.mem_range.1 hj
    have h1 := piece_le (N := N) (Finset.mem_range.1 hk) (show j + 1 ≤ N by omega)
    rw [hx _ (by omega : k * N + j ≤ P * N), hx (k * N + j + 1) (by omega)]

section Partials
variable {F : OCFunctions} {nx nu np ng nh m : Nat} {x u : Nat → List ℝ} {p : List ℝ}

theorem Spec.HasPDerivs.deriv {n : Nat} {φ : List ℝ → ℝ} {y : List ℝ} (h : HasPDerivs n φ y) {j : Nat} (hj : j < n) :
    HasDerivAt (fun s => φ (y.set j s)) (pderiv φ y j) (y.getD j 0) := (h j hj).hasDerivAt

theorem Spec.HasPDerivs.lin {n m : Nat} {φ : List ℝ → ℝ} {χ : Nat → List ℝ → ℝ} {y : List ℝ} (h : HasPDerivs n φ y) (h' : ∀ a < m, HasPDerivs n (χ a) y) (w : Nat → ℝ) :
    HasPDerivs n (fun y => φ y + ∑ a ∈ Finset.range m, w a * χ a y) y := fun j hj =>
  (h j hj).add (DifferentiableAt.fun_sum fun a ha => (h' a (Finset.mem_range.1 ha) j hj).const_mul _)

theorem Spec.HasPDerivs.lin0 {n m : Nat} {χ : Nat → List ℝ → ℝ} {y : List ℝ} (h' : ∀ a < m, HasPDerivs n (χ a) y) (w : Nat → ℝ) :
    HasPDerivs n (fun y => ∑ a ∈ Finset.range m, w a * χ a y) y := fun j hj =>
  DifferentiableAt.fun_sum fun a ha => (h' a (Finset.mem_range.1 ha) j hj).const_mul _

variable (h : F.PartialsAt nx nu np ng nh m x u p)
include h

theorem ham_x (ψ : Nat → ℝ) {r : Nat} (hr : r ≤ m) : HasPDerivs nx (fun y => F.hamiltonian nx ψ y (u r) p) (x r) := (h.Lx r hr).lin (h.fx r hr) ψ
theorem ham_u (ψ : Nat → ℝ) {r : Nat} (hr : r ≤ m) : HasPDerivs nu (fun v => F.hamiltonian nx ψ (x r) v p) (u r) := (h.Lu r hr).lin (h.fu r hr) ψ
theorem ham_p (ψ : Nat → ℝ) {r : Nat} (hr : r ≤ m) : HasPDerivs np (fun w => F.hamiltonian nx ψ (x r) (u r) w) p := (h.Lp r hr).lin (h.fp r hr) ψ
theorem path_x (μ : Nat → ℝ) {r : Nat} (hr : r ≤ m) : HasPDerivs nx (fun y => F.pathTerm ng μ y (u r) p) (x r) := Spec.HasPDerivs.lin0 (h.gx r hr) μ
theorem path_u (μ : Nat → ℝ) {r : Nat} (hr : r ≤ m) : HasPDerivs nu (fun v => F.pathTerm ng μ (x r) v p) (u r) := Spec.HasPDerivs.lin0 (h.gu r hr) μ
theorem path_p (μ : Nat → ℝ) {r : Nat} (hr : r ≤ m) : HasPDerivs np (fun w => F.pathTerm ng μ (x r) (u r) w) p := Spec.HasPDerivs.lin0 (h.gp r hr) μ
theorem end_x (ν : Nat → ℝ) : HasPDerivs (2 * nx) (fun y => F.endTerm nh ν y p) (x 0 ++ x m) := h.Mx.lin h.hx ν
theorem end_p (ν : Nat → ℝ) : HasPDerivs np (fun w => F.endTerm nh ν (x 0 ++ x m) w) p := h.Mp.lin h.hp ν

end Partials

section Derivs
variable {F : OCFunctions} {K len : List ℝ} {P N nx nu np ng nh : Nat} {x u : Nat → List ℝ} {p : List ℝ}
variable (μ : Nat → Nat → ℝ) (ν : Nat → ℝ) (ψ lam : Nat → Nat → Nat → ℝ)

/-- One entry of one row is changed, in a function of the row. -/
theorem update_deriv {n : Nat} {φ : List ℝ → ℝ} {z : Nat → List ℝ} {q r b : Nat} (h : q = r → HasPDerivs n φ (z q)) (hb : b < n) :
    HasDerivAt (fun s => φ (Function.update z r ((z r).set b s) q)) (if q = r then pderiv φ (z q) b else 0) ((z r).getD b 0) := by
  by_cases hq : q = r
  · subst hq
    simp only [Function.update_self, if_true]
    exact (h rfl).deriv hb
  · simp only [Function.update_of_ne hq, if_neg hq]
    exact hasDerivAt_const _ _

theorem lagF_u (h : F.PartialsAt nx nu np ng nh (P * N) x u p) {r b : Nat} (hr : r ≤ P * N) (hb : b < nu) :
    HasDerivAt (fun s => lagF F K len P N nx ng nh μ ν ψ lam x (Function.update u r ((u r).set b s)) p)
      ((∑ k ∈ Finset.range P, ∑ l ∈ Finset.range (N + 1), if k * N + l = r then
          len.getD k 0 * K.getD l 0 * pderiv (fun v => F.hamiltonian nx (ψ k l) (x r) v p) (u r) b else 0) +
        pderiv (fun v => F.pathTerm ng (μ r) (x r) v p) (u r) b) ((u r).getD b 0) := by
  have e : pderiv (fun v => F.pathTerm ng (μ r) (x r) v p) (u r) b =
      ∑ q ∈ Finset.range (P * N + 1), if q = r then pderiv (fun v => F.pathTerm ng (μ q) (x q) v p) (u q) b else 0 := by
    rw [Finset.sum_ite_eq' _ r, if_pos (Finset.mem_range.2 (by omega))]
  rw [e]
  refine HasDerivAt.add_const _ (HasDerivAt.add_const _ (HasDerivAt.add (HasDerivAt.fun_sum fun k hk => HasDerivAt.fun_sum fun l hl => ?_) (HasDerivAt.fun_sum fun q hq => ?_)))
  · have hkl := piece_le (N := N) (Finset.mem_range.1 hk) (show l ≤ N by have := Finset.mem_range.1 hl; omega)
    have := (update_deriv (φ := fun v => F.hamiltonian nx (ψ k l) (x (k * N + l)) v p) (q := k * N + l) (r := r) (fun _ => ham_u h (ψ k l) hkl) hb).const_mul
      (len.getD k 0 * K.getD l 0)
    refine this.congr_deriv ?_
    split_ifs with hq
    · rw [hq]
    · rw [mul_zero]
  · have hq : q ≤ P * N := by have := Finset.mem_range.1 hq; omega
    exact update_deriv (φ := fun v => F.pathTerm ng (μ q) (x q) v p) (fun _ => path_u h (μ q) hq) hb

theorem lagF_p (h : F.PartialsAt nx nu np ng nh (P * N) x u p) {b : Nat} (hb : b < np) :
    HasDerivAt (fun s => lagF F K len P N nx ng nh μ ν ψ lam x u (p.set b s))
      ((∑ k ∈ Finset.range P, ∑ l ∈ Finset.range (N + 1),
          len.getD k 0 * K.getD l 0 * pderiv (fun w => F.hamiltonian nx (ψ k l) (x (k * N + l)) (u (k * N + l)) w) p b) +
        (∑ r ∈ Finset.range (P * N + 1), pderiv (fun w => F.pathTerm ng (μ r) (x r) (u r) w) p b) +
        pderiv (fun w => F.endTerm nh ν (x 0 ++ x (P * N)) w) p b) (p.getD b 0) := by
  refine HasDerivAt.add_const _ (HasDerivAt.add (HasDerivAt.add (HasDerivAt.fun_sum fun k hk => HasDerivAt.fun_sum fun l hl => ?_) (HasDerivAt.fun_sum fun q hq => ?_)) ?_)
  · have hkl := piece_le (N := N) (Finset.mem_range.1 hk) (show l ≤ N by have := Finset.mem_range.1 hl; omega)
    exact ((ham_p h (ψ k l) hkl).deriv hb).const_mul _
  · exact (path_p h (μ q) (by have := Finset.mem_range.1 hq; omega)).deriv hb
  · exact (end_p h ν).deriv hb

theorem entry_deriv {z : Nat → List ℝ} {q r a b : Nat} (hb : b < (z r).length) :
    HasDerivAt (fun s => (Function.update z r ((z r).set b s) q).getD a 0) (if q = r ∧ a = b then 1 else 0) ((z r).getD b 0) := by
  by_cases hq : q = r
  · subst hq
    by_cases ha : a = b
    · subst ha
      simp only [Function.update_self, and_self, if_true]
      have e : (fun s : ℝ => ((z q).set a s).getD a 0) = fun s => s := by
        funext s
        rw [List.getD_eq_getElem?_getD, List.getElem?_set_self hb]
        rfl
      rw [e]
      exact hasDerivAt_id _
    · simp only [Function.update_self, ha, and_false, if_false]
      have e : (fun s : ℝ => ((z q).set b s).getD a 0) = fun _ => (z q).getD a 0 := by
        funext s
        rw [List.getD_eq_getElem?_getD, List.getElem?_set_ne (Ne.symm ha), List.getD_eq_getElem?_getD]
      rw [e]
      exact hasDerivAt_const _ _
  · simp only [Function.update_of_ne hq, hq, false_and, if_false]
    exact hasDerivAt_const _ _

theorem lagF_x (h : F.PartialsAt nx nu np ng nh (P * N) x u p) (hlen : ∀ r, (x r).length = nx) (hPN : 1 ≤ P * N) {r b : Nat} (hr : r ≤ P * N) (hb : b < nx) :
    HasDerivAt (fun s => lagF F K len P N nx ng nh μ ν ψ lam (Function.update x r ((x r).set b s)) u p)
      ((∑ k ∈ Finset.range P, ∑ l ∈ Finset.range (N + 1), if k * N + l = r then
          len.getD k 0 * K.getD l 0 * pderiv (fun y => F.hamiltonian nx (ψ k l) y (u (k * N + l)) p) (x (k * N + l)) b else 0) +
        pderiv (fun y => F.pathTerm ng (μ r) y (u r) p) (x r) b +
        ((if r = 0 then pderiv (fun xe => F.endTerm nh ν xe p) (x 0 ++ x (P * N)) b else 0) +
          if r = P * N then pderiv (fun xe => F.endTerm nh ν xe p) (x 0 ++ x (P * N)) (nx + b) else 0) +
        ∑ k ∈ Finset.range P, ∑ j ∈ Finset.range N, ((if k * N + j + 1 = r then lam k j b else 0) - if k * N + j = r then lam k j b else 0)) ((x r).getD b 0) := by
  have e : pderiv (fun y => F.pathTerm ng (μ r) y (u r) p) (x r) b =
      ∑ q ∈ Finset.range (P * N + 1), if q = r then pderiv (fun y => F.pathTerm ng (μ q) y (u q) p) (x q) b else 0 := by
    rw [Finset.sum_ite_eq' _ r, if_pos (Finset.mem_range.2 (by omega))]
  rw [e]
  refine HasDerivAt.add (HasDerivAt.add (HasDerivAt.add (HasDerivAt.fun_sum fun k hk => HasDerivAt.fun_sum fun l hl => ?_) (HasDerivAt.fun_sum fun q hq => ?_)) ?_)
    (HasDerivAt.fun_sum fun k hk => HasDerivAt.fun_sum fun j hj => ?_)
  · have hkl := piece_le (N := N) (Finset.mem_range.1 hk) (show l ≤ N by have := Finset.mem_range.1 hl; omega)
    have := (update_deriv (φ := fun y => F.hamiltonian nx (ψ k l) y (u (k * N + l)) p) (q := k * N + l) (r := r) (fun _ => ham_x h (ψ k l) hkl) hb).const_mul
      (len.getD k 0 * K.getD l 0)
    refine this.congr_deriv ?_
    split_ifs with hq
    · rfl
    · rw [mul_zero]
  · have hq : q ≤ P * N := by have := Finset.mem_range.1 hq; omega
    exact update_deriv (φ := fun y => F.pathTerm ng (μ q) y (u q) p) (fun _ => path_x h (μ q) hq) hb
  · by_cases h0 : r = 0
    · subst h0
      simp only [if_true, if_neg (show ¬ 0 = P * N by omega), add_zero]
      have := (end_x h ν).deriv (show b < 2 * nx by omega)
      have hl0 := hlen 0
      rw [List.getD_eq_getElem?_getD, List.getElem?_append_left (by omega), ← List.getD_eq_getElem?_getD] at this
      refine this.congr_of_eventuallyEq (Filter.Eventually.of_forall fun s => ?_)
      dsimp only
      rw [Function.update_self, Function.update_of_ne (by omega), List.set_append_left _ _ (by omega)]
    · rw [if_neg h0, zero_add]
      by_cases h1 : r = P * N
      · rw [if_pos h1]
        have := (end_x h ν).deriv (show nx + b < 2 * nx by omega)
        have hl0 := hlen 0
        rw [List.getD_eq_getElem?_getD, List.getElem?_append_right (by omega), hl0, Nat.add_sub_cancel_left, ← List.getD_eq_getElem?_getD] at this
        rw [h1]
        refine this.congr_of_eventuallyEq (Filter.Eventually.of_forall fun s => ?_)
        dsimp only
        rw [Function.update_self, Function.update_of_ne (by omega), List.set_append_right _ _ (by omega), hl0, Nat.add_sub_cancel_left]
      · rw [if_neg h1]
        simp only [Function.update_of_ne (show (0 : Nat) ≠ r by omega), Function.update_of_ne (show P * N ≠ r by omega)]
        exact hasDerivAt_const _ _
  · have hbl : b < (x r).length := by rw [hlen]; exact hb
    have e2 : ((if k * N + j + 1 = r then lam k j b else 0) - if k * N + j = r then lam k j b else 0) =
        ∑ a ∈ Finset.range nx, lam k j a * ((if k * N + j + 1 = r ∧ a = b then 1 else 0) - if k * N + j = r ∧ a = b then 1 else 0) := by
      rw [Finset.sum_eq_single b]
      · simp only [and_true, mul_sub, mul_ite, mul_one, mul_zero]
      · intro a _ hab
        simp [hab]
      · intro hnot; exact absurd (Finset.mem_range.2 hb) hnot
    rw [e2]
    exact HasDerivAt.fun_sum fun a ha => ((entry_deriv hbl).sub (entry_deriv hbl)).const_mul _

end Derivs

/-! ### Which pieces a point belongs to -/

theorem pick_left {P N r : Nat} (hN : 1 ≤ N) (f : Nat → Nat → ℝ) :
    (∑ k ∈ Finset.range P, ∑ l ∈ Finset.range N, if k * N + l = r then f k l else 0) = if r < P * N then f (r / N) (r % N) else 0 := by
  have key : ∀ k l, l < N → (k * N + l = r ↔ k = r / N ∧ l = r % N) := fun k l hl => by
    constructor
    · rintro rfl
      rw [Nat.add_comm, Nat.add_mul_div_right _ _ hN, Nat.div_eq_of_lt hl, Nat.add_mul_mod_self_right, Nat.mod_eq_of_lt hl]
      simp
    · rintro ⟨rfl, rfl⟩
      exact Nat.div_add_mod' r N
  by_cases hr : r < P * N
  · rw [if_pos hr, Finset.sum_eq_single (r / N), Finset.sum_eq_single (r % N), if_pos (Nat.div_add_mod' r N)]
    · intro l hl hne
      rw [if_neg fun e => hne ((key _ _ (Finset.mem_range.1 hl)).1 e).2]
    · intro hnot; exact absurd (Finset.mem_range.2 (Nat.mod_lt _ hN)) hnot
    · intro k hk hne
      refine Finset.sum_eq_zero fun l hl => ?_
      rw [if_neg fun e => hne ((key _ _ (Finset.mem_range.1 hl)).1 e).1]
    · intro hnot
      exact absurd (Finset.mem_range.2 (Nat.div_lt_of_lt_mul (by rwa [Nat.mul_comm]))) hnot
  · rw [if_neg hr]
    refine Finset.sum_eq_zero fun k hk => Finset.sum_eq_zero fun l hl => ?_
    have := piece_le (N := N) (l := l + 1) (Finset.mem_range.1 hk) (Finset.mem_range.1 hl)
    rw [if_neg (by omega)]

/-- A point between two mesh times. -/
theorem pick_inner {P N k l : Nat} (hk : k < P) (h0 : 0 < l) (hl : l < N) (f g : Nat → Nat → ℝ) :
    (∑ i ∈ Finset.range P, ∑ j ∈ Finset.range (N + 1), if i * N + j = k * N + l then f i j else 0) = f k l ∧
      (∑ i ∈ Finset.range P, ∑ j ∈ Finset.range N, ((if i * N + j + 1 = k * N + l then g i j else 0) - if i * N + j = k * N + l then g i j else 0)) = g k (l - 1) - g k l := by
  have hN : 1 ≤ N := by omega
  have d : ∀ l < N, (k * N + l) / N = k ∧ (k * N + l) % N = l := fun l hl => by
    rw [Nat.add_comm, Nat.add_mul_div_right _ _ hN, Nat.div_eq_of_lt hl, Nat.add_mul_mod_self_right, Nat.mod_eq_of_lt hl]
    simp
  have hlt := piece_le (N := N) (l := l + 1) hk hl
  constructor
  · simp only [Finset.sum_range_succ (n := N), Finset.sum_add_distrib]
    rw [pick_left hN, if_pos (by omega), (d l hl).1, (d l hl).2]
    have : ∑ i ∈ Finset.range P, (if i * N + N = k * N + l then f i N else 0) = 0 := Finset.sum_eq_zero fun i _ => by
      rw [if_neg]
      intro e
      have e' : ((i + 1) * N) % N = (k * N + l) % N := by rw [Nat.succ_mul, e]
      rw [Nat.mul_mod_left, (d l hl).2] at e'
      omega
    rw [this, add_zero]
  · simp only [Finset.sum_sub_distrib]
    have e : ∀ i j, i * N + j + 1 = k * N + l ↔ i * N + j = k * N + (l - 1) := fun i j => by omega
    simp only [e]
    rw [pick_left hN, pick_left hN, if_pos (by omega), if_pos (by omega), (d l hl).1, (d l hl).2, (d (l - 1) (by omega)).1, (d (l - 1) (by omega)).2]

/-- A mesh time. -/
theorem pick_mesh {P N k : Nat} (hN : 1 ≤ N) (hk : k ≤ P) (f g : Nat → Nat → ℝ) :
    (∑ i ∈ Finset.range P, ∑ j ∈ Finset.range (N + 1), if i * N + j = k * N then f i j else 0) = (if k < P then f k 0 else 0) + (if 0 < k then f (k - 1) N else 0) ∧
      (∑ i ∈ Finset.range P, ∑ j ∈ Finset.range N, ((if i * N + j + 1 = k * N then g i j else 0) - if i * N + j = k * N then g i j else 0)) =
        (if 0 < k then g (k - 1) (N - 1) else 0) - if k < P then g k 0 else 0 := by
  have hlt : k * N < P * N ↔ k < P := ⟨fun h => Nat.lt_of_mul_lt_mul_right h, fun h => Nat.mul_lt_mul_of_pos_right h (by omega)⟩
  have d : k * N / N = k ∧ k * N % N = 0 := ⟨Nat.mul_div_cancel _ (by omega), Nat.mul_mod_left _ _⟩
  constructor
  · simp only [Finset.sum_range_succ (n := N), Finset.sum_add_distrib]
    rw [pick_left hN, d.1, d.2]
    simp only [hlt]
    congr 1
    by_cases h0 : 0 < k
    · rw [if_pos h0, Finset.sum_eq_single (k - 1), if_pos]
      · rw [← Nat.succ_mul]; congr 1; omega
      · intro i _ hne
        rw [if_neg]
        intro e
        rw [← Nat.succ_mul] at e
        have := Nat.eq_of_mul_eq_mul_right (by omega) e
        omega
      · intro hnot; exact absurd (Finset.mem_range.2 (by omega)) hnot
    · rw [if_neg h0]
      obtain rfl : k = 0 := by omega
      exact Finset.sum_eq_zero fun i _ => if_neg (by omega)
  · simp only [Finset.sum_sub_distrib]
    rw [pick_left hN (f := g) (r := k * N), d.1, d.2]
    simp only [hlt]
    congr 1
    by_cases h0 : 0 < k
    · have e : k * N = (k - 1) * N + (N - 1) + 1 := by
        have : k * N = (k - 1) * N + N := by rw [← Nat.succ_mul]; congr 1; omega
        omega
      have e' : ∀ i j, i * N + j + 1 = k * N ↔ i * N + j = (k - 1) * N + (N - 1) := fun i j => by omega
      simp only [e']
      have hd : ((k - 1) * N + (N - 1)) / N = k - 1 ∧ ((k - 1) * N + (N - 1)) % N = N - 1 := by
        rw [Nat.add_comm, Nat.add_mul_div_right _ _ (by omega), Nat.div_eq_of_lt (by omega), Nat.add_mul_mod_self_right, Nat.mod_eq_of_lt (by omega)]
        simp
      have := piece_le (N := N) (l := N) (show k - 1 < P by omega) le_rfl
      rw [pick_left hN, if_pos (by omega), hd.1, hd.2, if_pos h0]
    · obtain rfl : k = 0 := by omega
      rw [if_neg h0]
      exact Finset.sum_eq_zero fun i _ => Finset.sum_eq_zero fun j _ => if_neg (by omega)

end Ceacoest
