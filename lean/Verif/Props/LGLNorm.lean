import Verif.Props.LGL
import Verif.Props.SymCol
import Mathlib.Analysis.SpecialFunctions.Integrals.Basic

/-! # C114: integrals taken with the Lobatto points are not amplified -/

namespace Ceacoest.RK
open Spec Polynomial

/-- The polynomial that vanishes at all points and is not positive between them, with leading coefficient one. -/
noncomputable def nodeSquare (points : List ℝ) (n : Nat) : ℝ[X] :=
  X * (X - C 1) * ∏ j ∈ Finset.Ico 1 (n - 1), (X - C (points.getD j 0)) ^ 2

theorem nodeSquare_monic (points : List ℝ) (n : Nat) : (nodeSquare points n).Monic :=
  (monic_X.mul (monic_X_sub_C 1)).mul (monic_prod_of_monic _ _ fun j _ => (monic_X_sub_C _).pow 2)

theorem nodeSquare_natDegree (points : List ℝ) {n : Nat} (hn : 2 ≤ n) : (nodeSquare points n).natDegree = 2 * n - 2 := by
  unfold nodeSquare
  rw [Monic.natDegree_mul (monic_X.mul (monic_X_sub_C 1)) (monic_prod_of_monic _ _ fun j _ => (monic_X_sub_C _).pow 2),
    Monic.natDegree_mul monic_X (monic_X_sub_C 1), natDegree_prod_of_monic _ _ fun j _ => (monic_X_sub_C _).pow 2]
  simp only [natDegree_X, natDegree_X_sub_C, natDegree_pow, Finset.sum_const, Nat.card_Ico, smul_eq_mul]
  omega

theorem nodeSquare_eval (points : List ℝ) (n : Nat) (x : ℝ) :
    (nodeSquare points n).eval x = x * (x - 1) * ∏ j ∈ Finset.Ico 1 (n - 1), (x - points.getD j 0) ^ 2 := by
  unfold nodeSquare
  rw [eval_mul, eval_mul, eval_prod]
  simp

/-- The quadrature never underestimates the integral of the square of an interpolating polynomial: the degree of the square may be
one more than the largest degree for which the quadrature is exact. -/
theorem C114_square (n : Int) (hn : 2 ≤ n) :
    ∃ col, lglCollocation n = .ok col ∧ (col.n : Int) = n ∧ lglPoints n = .ok col.points ∧ col.points.length = col.n ∧
      ∀ p : ℝ[X], p.natDegree ≤ col.n - 1 →
        integral (p ^ 2) 0 1 ≤ ∑ i ∈ Finset.range col.n, col.K.getD i 0 * (p.eval (col.points.getD i 0)) ^ 2 := by
  obtain ⟨col, hcol, hcn, hpts, hpl, hKl, hK⟩ := C25_exact n hn
  obtain ⟨-, p0, p1, hne, hrange⟩ := lgl_points_facts n hn _ hpts
  refine ⟨col, hcol, hcn, hpts, hpl, fun p hp => ?_⟩
  have h2 : 2 ≤ col.n := by omega
  set T := nodeSquare col.points col.n with hT
  set a := p.coeff (col.n - 1) with ha
  have hTd : T.natDegree = 2 * col.n - 2 := nodeSquare_natDegree _ h2
  have hsq : (p ^ 2).natDegree ≤ 2 * col.n - 2 := natDegree_pow_le.trans (by omega)
  have hlead : (p ^ 2).coeff (2 * col.n - 2) = a ^ 2 := by
    rw [show 2 * col.n - 2 = 2 * (col.n - 1) by omega]
    exact coeff_pow_of_natDegree_le hp
  have hq : (p ^ 2 - C (a ^ 2) * T).natDegree ≤ 2 * col.n - 3 := by
    refine natDegree_le_iff_coeff_eq_zero.2 fun k hk => ?_
    rw [coeff_sub, coeff_C_mul]
    rcases Nat.lt_or_ge (2 * col.n - 2) k with h | h
    · rw [coeff_eq_zero_of_natDegree_lt (by omega), coeff_eq_zero_of_natDegree_lt (by omega), mul_zero, sub_zero]
    · obtain rfl : k = 2 * col.n - 2 := by omega
      have : T.coeff (2 * col.n - 2) = 1 := by
        rw [← hTd]
        exact nodeSquare_monic _ _
      rw [hlead, this, mul_one, sub_self]
  have hT0 : ∀ i < col.n, T.eval (col.points.getD i 0) = 0 := fun i hi => by
    rw [hT, nodeSquare_eval]
    by_cases h0 : i = 0
    · subst h0
      rw [p0]
      ring
    · by_cases hl : i = col.n - 1
      · rw [hl, ← hpl, p1]
        ring
      · rw [Finset.prod_eq_zero (i := i) (by simp only [Finset.mem_Ico]; omega) (by simp), mul_zero]
  have hTi : integral T 0 1 ≤ 0 := by
    have h' : 0 ≤ integral (-T) 0 1 := by
      refine intervalIntegral.integral_nonneg (by norm_num) fun x hx => ?_
      rw [eval_neg, hT, nodeSquare_eval]
      have h1 : 0 ≤ ∏ j ∈ Finset.Ico 1 (col.n - 1), (x - col.points.getD j 0) ^ 2 := Finset.prod_nonneg fun j _ => sq_nonneg _
      have h3 : 0 ≤ x * (1 - x) := mul_nonneg hx.1 (by linarith [hx.2])
      nlinarith [mul_nonneg h3 h1]
    have e : integral (-T) 0 1 = -integral T 0 1 := by
      unfold integral
      rw [← intervalIntegral.integral_neg]
      exact intervalIntegral.integral_congr fun x _ => eval_neg _ _
    linarith
  have hE := hK _ hq
  have e1 : integral (p ^ 2 - C (a ^ 2) * T) 0 1 = integral (p ^ 2) 0 1 - a ^ 2 * integral T 0 1 := by
    have h1 := integral_add (p ^ 2 - C (a ^ 2) * T) (C (a ^ 2) * T) 0 1
    rw [sub_add_cancel, integral_C_mul] at h1
    linarith
  have e2 : ∑ i ∈ Finset.range col.n, col.K.getD i 0 * (p ^ 2 - C (a ^ 2) * T).eval (col.points.getD i 0) =
      ∑ i ∈ Finset.range col.n, col.K.getD i 0 * (p.eval (col.points.getD i 0)) ^ 2 :=
    Finset.sum_congr rfl fun i hi => by
      rw [eval_sub, eval_mul, hT0 i (Finset.mem_range.1 hi), mul_zero, sub_zero, eval_pow]
  rw [← e2, hE, e1]
  nlinarith [sq_nonneg a]

/-- Cauchy and Schwarz on an interval inside `[0, 1]`. -/
theorem integral_sq_le (p : ℝ[X]) {a b : ℝ} (h0 : 0 ≤ a) (hab : a ≤ b) (h1 : b ≤ 1) : (integral p a b) ^ 2 ≤ (b - a) * integral (p ^ 2) 0 1 := by
  have hI : integral (p ^ 2) a b ≤ integral (p ^ 2) 0 1 := by
    have hii : ∀ c d : ℝ, IntervalIntegrable (fun x => (p ^ 2).eval x) MeasureTheory.volume c d := fun c d => (p ^ 2).continuous.intervalIntegrable c d
    have e : integral (p ^ 2) 0 1 = integral (p ^ 2) 0 a + integral (p ^ 2) a b + integral (p ^ 2) b 1 := by
      unfold integral
      rw [intervalIntegral.integral_add_adjacent_intervals (hii _ _) (hii _ _), intervalIntegral.integral_add_adjacent_intervals (hii _ _) (hii _ _)]
    have hn : ∀ c d : ℝ, c ≤ d → 0 ≤ integral (p ^ 2) c d := fun c d h => intervalIntegral.integral_nonneg h fun x _ => by
      rw [eval_pow]
      exact sq_nonneg _
    linarith [hn 0 a h0, hn b 1 h1]
  -- the square of the distance from the mean value
  rcases hab.eq_or_lt with rfl | hlt
  · have : integral p a a = 0 := intervalIntegral.integral_same
    rw [this]
    simp
  have hL : 0 < b - a := by linarith
  set m := integral p a b / (b - a) with hm
  have hnn : 0 ≤ integral ((p - C m) ^ 2) a b := intervalIntegral.integral_nonneg hab fun x _ => by
    rw [eval_pow]
    exact sq_nonneg _
  have e : integral ((p - C m) ^ 2) a b = integral (p ^ 2) a b - 2 * m * integral p a b + m ^ 2 * (b - a) := by
    have e1 : (p - C m) ^ 2 = p ^ 2 + (C (-2 * m) * p + C (m ^ 2) * 1) := by
      simp only [map_mul, map_neg, map_pow, C_ofNat]
      ring
    rw [e1, integral_add, integral_add, integral_C_mul, integral_C_mul]
    have : integral (1 : ℝ[X]) a b = b - a := by simp [integral]
    rw [this]
    ring
  have hmI : integral p a b = m * (b - a) := by rw [hm, div_mul_cancel₀ _ hL.ne']
  rw [e, hmI] at hnn
  rw [hmI]
  nlinarith

/-- The rows of the integration matrix: the sum of the absolute values is at most the square root of the length of the interval
between the two points. -/
theorem C114_rows (n : Int) (hn : 2 ≤ n) :
    ∃ col, lglCollocation n = .ok col ∧ (col.n : Int) = n ∧ lglPoints n = .ok col.points ∧ col.points.length = col.n ∧
      ∀ k < col.n - 1, col.points.getD (k + 1) 0 - col.points.getD k 0 ≤ ∑ i ∈ Finset.range col.n, |(col.J.getD k []).getD i 0| ∧
        ∑ i ∈ Finset.range col.n, |(col.J.getD k []).getD i 0| ≤ √(col.points.getD (k + 1) 0 - col.points.getD k 0) := by
  obtain ⟨col, hcol, hcn, hpts, hpl, hsq⟩ := C114_square n hn
  obtain ⟨col', hcol', -, -, hsum⟩ := C63_weights n hn
  obtain rfl : col = col' := Except.ok.inj (hcol.symm.trans hcol')
  obtain ⟨hlen, p0, p1, hne, hrange⟩ := lgl_points_facts n hn _ hpts
  obtain ⟨interior, hpts', -, hinc, -⟩ := (C26_points n).2 hn
  rw [hpts] at hpts'
  have hpe : col.points = 0 :: interior ++ [1] := Except.ok.inj hpts'
  rw [← hpe] at hinc
  have hnd : col.points.Nodup := hinc.imp fun h => h.ne
  obtain ⟨col', hc', -, -, -, hJ, -⟩ := C24_exact col.points hnd (by omega)
  have hcc : collocation col.points = .ok col := by
    have := hcol
    rw [lglCollocation, hpts, py_bind_ok] at this
    exact this
  obtain rfl : col' = col := Except.ok.inj (hc'.symm.trans hcc)
  refine ⟨col', hcol, hcn, hpts, hpl, fun k hk => ?_⟩
  have hlt : col'.points.getD k 0 < col'.points.getD (k + 1) 0 := by
    rw [getD_of_lt _ _ (by omega), getD_of_lt _ _ (by omega)]
    exact List.pairwise_iff_getElem.1 hinc k (k + 1) (by omega) (by omega) (by omega)
  constructor
  · have h1 := hJ 1 (by
      rw [degree_one]
      exact_mod_cast (show 0 < col'.points.length by omega)) k (by omega)
    have : integral (1 : ℝ[X]) (col'.points.getD k 0) (col'.points.getD (k + 1) 0) = col'.points.getD (k + 1) 0 - col'.points.getD k 0 := by simp [integral]
    rw [← this, ← h1, hpl]
    refine Finset.sum_le_sum fun i _ => ?_
    rw [eval_one, mul_one]
    exact le_abs_self _
  · obtain ⟨m, hm⟩ : ∃ m, col'.n = m + 1 := ⟨col'.n - 1, by omega⟩
    obtain ⟨q, hq, hqv⟩ := exists_interp col'.points hnd (hpl.trans hm) fun i => SignType.sign ((col'.J.getD k []).getD i 0)
    have hqd : q.natDegree ≤ col'.n - 1 :=
       natDegree_le_iff_coeff_eq_zero.2 fun j hj => (degree_lt_iff_coeff_zero _ _).1 hq j (by omega)
    have hval : ∀ i < col'.n, q.eval (col'.points.getD i 0) = (SignType.sign ((col'.J.getD k []).getD i 0) : ℝ) := fun i hi => hqv ⟨i, by omega⟩
    have hI := hJ q (by rw [hpl, hm]; exact hq) k (by omega)
    rw [hpl] at hI
    have habs : ∑ i ∈ Finset.range col'.n, |(col'.J.getD k []).getD i 0| = integral q (col'.points.getD k 0) (col'.points.getD (k + 1) 0) := by
      rw [← hI]
      refine Finset.sum_congr rfl fun i hi => ?_
      rw [hval i (Finset.mem_range.1 hi), ← self_mul_sign]
    rw [habs]
    refine Real.le_sqrt_of_sq_le ((integral_sq_le q (hrange k (by omega)).1 hlt.le (hrange (k + 1) (by omega)).2).trans ?_)
    have hone : integral (q ^ 2) 0 1 ≤ 1 := by
      refine (hsq q hqd).trans ?_
      rw [← hsum]
      obtain ⟨col'', hc2, -, hpos, -⟩ := C63_weights n hn
      obtain rfl : col'' = col' := Except.ok.inj (hc2.symm.trans hcol)
      refine Finset.sum_le_sum fun i hi => ?_
      have hi' := Finset.mem_range.1 hi
      rw [hval i hi']
      have : ((SignType.sign ((col''.J.getD k []).getD i 0) : ℝ)) ^ 2 ≤ 1 := by
        rcases SignType.trichotomy (SignType.sign ((col''.J.getD k []).getD i 0)) with h | h | h <;> rw [h] <;> norm_num
      nlinarith [hpos i hi']
    nlinarith

/-- All rows, counting missing ones as zero. -/
theorem lgl_abs_le_one (n : Int) (hn : 2 ≤ n) : ∃ col, lglCollocation n = .ok col ∧ (col.n : Int) = n ∧
    ∀ k, ∑ i ∈ Finset.range col.n, |(col.J.getD k []).getD i 0| ≤ 1 := by
  obtain ⟨col, hcol, hcn, hpts, hpl, h⟩ := C114_rows n hn
  obtain ⟨hlen, p0, p1, hne, hrange⟩ := lgl_points_facts n hn _ hpts
  refine ⟨col, hcol, hcn, fun k => ?_⟩
  by_cases hk : k < col.n - 1
  · refine (h k hk).2.trans (Real.sqrt_le_one.2 ?_)
    linarith [(hrange k (by omega)).1, (hrange (k + 1) (by omega)).2]
  · have hnd : col.points.Nodup := by
      refine List.nodup_iff_injective_get.2 fun i j hij => ?_
      by_contra hne'
      refine hne i j i.2 j.2 (fun e => hne' (Fin.ext e)) ?_
      rw [getD_of_lt _ _ i.2, getD_of_lt _ _ j.2]
      exact hij
    obtain ⟨col', hc', hJl, -⟩ := C24_exact col.points hnd (by omega)
    have hcc : collocation col.points = .ok col := by
      have := hcol
      rw [lglCollocation, hpts, py_bind_ok] at this
      exact this
    obtain rfl : col' = col := Except.ok.inj (hc'.symm.trans hcc)
    have : col'.J.getD k [] = [] := by
      rw [List.getD_eq_getElem?_getD, List.getElem?_eq_none (by omega)]
      rfl
    rw [this]
    simp

/-- What the defects take for the integral of values between `-M` and `M` over an interval between two points is at most `M` times the
square root of its length, hence at most `M`, whatever the order of the method. -/
theorem C114_integral (n : Int) (hn : 2 ≤ n) :
    ∃ col, lglCollocation n = .ok col ∧ (col.n : Int) = n ∧ lglPoints n = .ok col.points ∧
      ∀ (v : Nat → ℝ) (M : ℝ), (∀ i < col.n, |v i| ≤ M) → ∀ k < col.n - 1,
        |∑ i ∈ Finset.range col.n, (col.J.getD k []).getD i 0 * v i| ≤ M * √(col.points.getD (k + 1) 0 - col.points.getD k 0) ∧
        |∑ i ∈ Finset.range col.n, (col.J.getD k []).getD i 0 * v i| ≤ M := by
  obtain ⟨col, hcol, hcn, hpts, hpl, h⟩ := C114_rows n hn
  obtain ⟨-, p0, p1, hne, hrange⟩ := lgl_points_facts n hn _ hpts
  refine ⟨col, hcol, hcn, hpts, fun v M hv k hk => ?_⟩
  have hM : 0 ≤ M := (abs_nonneg _).trans (hv 0 (by omega))
  have h1 : |∑ i ∈ Finset.range col.n, (col.J.getD k []).getD i 0 * v i| ≤ M * √(col.points.getD (k + 1) 0 - col.points.getD k 0) := by
    refine (Finset.abs_sum_le_sum_abs _ _).trans ?_
    refine le_trans ?_ (mul_le_mul_of_nonneg_left (h k hk).2 hM)
    rw [Finset.mul_sum]
    refine Finset.sum_le_sum fun i hi => ?_
    rw [abs_mul, mul_comm]
    exact mul_le_mul_of_nonneg_right (hv i (Finset.mem_range.1 hi)) (abs_nonneg _)
  refine ⟨h1, h1.trans (mul_le_of_le_one_right hM (Real.sqrt_le_one.2 ?_))⟩
  linarith [(hrange k (by omega)).1, (hrange (k + 1) (by omega)).2]

/-- The same for the quadrature over the whole piece, where the weights are positive. -/
theorem C114_quadrature (n : Int) (hn : 2 ≤ n) :
    ∃ col, lglCollocation n = .ok col ∧ (col.n : Int) = n ∧
      ∀ (v : Nat → ℝ) (M : ℝ), (∀ i < col.n, |v i| ≤ M) → |∑ i ∈ Finset.range col.n, col.K.getD i 0 * v i| ≤ M := by
  obtain ⟨col, hcol, hcn, -⟩ := C25_exact n hn
  obtain ⟨col', hcol', -, hpos, hsum⟩ := C63_weights n hn
  obtain rfl : col = col' := Except.ok.inj (hcol.symm.trans hcol')
  refine ⟨col, hcol, hcn, fun v M hv => (Finset.abs_sum_le_sum_abs _ _).trans ?_⟩
  rw [← one_mul M, ← hsum, Finset.sum_mul]
  refine Finset.sum_le_sum fun i hi => ?_
  rw [abs_mul, abs_of_pos (hpos i (Finset.mem_range.1 hi))]
  exact mul_le_mul_of_nonneg_left (hv i (Finset.mem_range.1 hi)) (hpos i (Finset.mem_range.1 hi)).le

/-- Order two: the trapezoidal rule overestimates the integral of the square of `x`, a third, by a sixth. -/
example : integral (X ^ 2 : ℝ[X]) 0 1 < ∑ i ∈ Finset.range 2, ([1 / 2, 1 / 2] : List ℝ).getD i 0 * ((X : ℝ[X]).eval (([0, 1] : List ℝ).getD i 0)) ^ 2 := by
  have : integral (X ^ 2 : ℝ[X]) 0 1 = 1 / 3 := by
    simp only [integral, eval_pow, eval_X, integral_pow]
    norm_num
  rw [this]
  norm_num [Finset.sum_range_succ]

/-- The hypothesis is met by values of both signs, such as the alternating ones, for order 5. -/
example : ∃ col, lglCollocation 5 = .ok col ∧ |∑ i ∈ Finset.range col.n, (col.J.getD 2 []).getD i 0 * (-1) ^ i| ≤ 1 := by
  obtain ⟨col, h1, h2, -, h3⟩ := C114_integral 5 (by norm_num)
  exact ⟨col, h1, (h3 (fun i => (-1) ^ i) 1 (fun i _ => by simp [abs_pow]) 2 (by omega)).2⟩

end Ceacoest.RK
