import Mathlib.MeasureTheory.Integral.IntervalIntegral.Basic
import Verif.Lemmas.Legendre
import Verif.Props.RK

/-! # C25, C26, C63: Legendre–Gauss–Lobatto points and quadrature -/

namespace Ceacoest.RK
open Polynomial Spec

/-- Orders below 2 raise ValueError; otherwise there are `n` points, increasing strictly from 0 to 1, and the interior ones are
exactly the zeros of the derivative of the Legendre polynomial of degree `n - 1` on `[0, 1]`. -/
theorem C26_points (n : Int) :
    (n < 2 → lglPoints n = .error .valueError) ∧
    (2 ≤ n → ∃ interior : List ℝ, lglPoints n = .ok (0 :: interior ++ [1]) ∧ ((0 :: interior ++ [1]).length : Int) = n ∧
      (0 :: interior ++ [1]).Pairwise (· < ·) ∧
      ∀ x, x ∈ interior ↔ (derivative (legendre01 (n - 1).toNat)).eval x = 0) := by
  constructor
  · intro h
    rw [lglPoints, if_pos h]
  · intro h
    obtain ⟨m, hm⟩ : ∃ m, (n - 1).toNat = m + 1 := ⟨(n - 1).toNat - 1, by omega⟩
    obtain ⟨hl, hs, hb, hr, -⟩ := legDerivRoots_spec m
    refine ⟨legDerivRoots (m + 1), by rw [lglPoints, if_neg (by omega), hm], ?_, ?_, ?_⟩
    · simp only [List.length_append, List.length_cons, List.length_nil, hl]
      omega
    · rw [List.cons_append, List.pairwise_cons, List.pairwise_append]
      refine ⟨?_, hs, by simp, ?_⟩
      · intro x hx
        rcases List.mem_append.1 hx with hx | hx
        · exact (hb x hx).1
        · simp at hx; simp [hx]
      · intro x hx y hy
        simp at hy
        subst hy
        exact (hb x hx).2
    · intro x
      rw [hm, ← Multiset.mem_coe, ← hr, mem_roots (derivative_shiftedLeg_ne m), IsRoot, derivative_legendre01, eval_mul, eval_C]
      simp

/-- Node polynomial of the points. -/
theorem nodal_eq_lobatto (m : Nat) :
    ∃ c : ℝ, c ≠ 0 ∧ X * (X - 1) * derivative (shiftedLeg (m + 1)) =
      C c * ((0 :: legDerivRoots (m + 1) ++ [1]).map fun r => X - C r).prod := by
  obtain ⟨hl, hs, hb, hr, hd⟩ := legDerivRoots_spec m
  refine ⟨(derivative (shiftedLeg (m + 1))).leadingCoeff, ?_, ?_⟩
  · rw [Ne, leadingCoeff_eq_zero]
    exact derivative_shiftedLeg_ne m
  · have h := C_leadingCoeff_mul_prod_multiset_X_sub_C (p := derivative (shiftedLeg (m + 1))) (by rw [hr, Multiset.coe_card, hl, hd])
    rw [hr, Multiset.map_coe, Multiset.prod_coe] at h
    conv_lhs => rw [← h]
    rw [List.cons_append, List.map_cons, List.map_append, List.prod_cons, List.prod_append]
    simp
    ring

/-- The quadrature of the order `n` method integrates every polynomial of degree at most `2 n - 3` exactly over `[0, 1]`. -/
theorem C25_exact (n : Int) (hn : 2 ≤ n) :
    ∃ col, lglCollocation n = .ok col ∧ (col.n : Int) = n ∧ lglPoints n = .ok col.points ∧ col.points.length = col.n ∧ col.K.length = col.n ∧
      ∀ p : ℝ[X], p.natDegree ≤ 2 * col.n - 3 →
        ∑ i ∈ Finset.range col.n, col.K.getD i 0 * p.eval (col.points.getD i 0) = integral p 0 1 := by
  obtain ⟨m, hm⟩ : ∃ m, (n - 1).toNat = m + 1 := ⟨(n - 1).toNat - 1, by omega⟩
  obtain ⟨interior, hpts, hlen, hinc, hroot⟩ := (C26_points n).2 hn
  have hpts' : lglPoints n = .ok (0 :: legDerivRoots (m + 1) ++ [1]) := by rw [lglPoints, if_neg (by omega), hm]
  have hint : interior = legDerivRoots (m + 1) := by
    rw [hpts] at hpts'
    simpa using hpts'
  subst hint
  set points : List ℝ := 0 :: legDerivRoots (m + 1) ++ [1] with hpoints
  have hl2 : 2 ≤ points.length := by omega
  have hnd : points.Nodup := hinc.imp fun h => h.ne
  obtain ⟨l, hll, hl, -⟩ := C23_basis points hnd hl2
  obtain ⟨col, hcol, hcn, hcp, -⟩ := collocation_ok points hnd hl2 l hl
  obtain ⟨col', hcol', -, -, hKl, -, -, hK, -⟩ := C24_exact points hnd hl2
  rw [hcol] at hcol'
  cases hcol'
  have hp0 : points.getD 0 0 = 0 := rfl
  have hp1 : points.getD (points.length - 1) 0 = 1 := by
    rw [getD_of_lt _ _ (by omega)]
    simp [hpoints]
  refine ⟨col, by rw [lglCollocation, hpts]; exact hcol, by rw [hcn]; exact hlen, by rw [hcp]; exact hpts, by rw [hcp, hcn], by rw [hcn]; exact hKl, ?_⟩
  intro p hp
  rw [hcn] at hp ⊢
  rw [hcp]
  obtain ⟨c, hc, hnod⟩ := nodal_eq_lobatto m
  rw [← hpoints] at hnod
  set w : ℝ[X] := (points.map fun r => X - C r).prod with hw
  have hmon : w.Monic := by
    rw [hw, ← Multiset.prod_coe, ← Multiset.map_coe]
    exact monic_multiset_prod_of_monic _ _ fun r _ => monic_X_sub_C r
  have hwdeg : w.natDegree = points.length := by
    rw [hw, ← Multiset.prod_coe, ← Multiset.map_coe, natDegree_multiset_prod_X_sub_C_eq_card, Multiset.coe_card]
  have hwz : ∀ i < points.length, w.eval (points.getD i 0) = 0 := by
    intro i hi
    rw [hw, eval_list_prod, List.map_map, List.prod_eq_zero_iff, List.mem_map]
    refine ⟨points.getD i 0, ?_, by simp⟩
    rw [getD_of_lt _ _ hi]
    exact List.getElem_mem hi
  have hdiv := modByMonic_add_div p w
  have hr := hK (p %ₘ w) (by
    have := degree_modByMonic_lt p hmon
    rwa [degree_eq_natDegree hmon.ne_zero, hwdeg] at this)
  have hval : ∀ i < points.length, p.eval (points.getD i 0) = (p %ₘ w).eval (points.getD i 0) := by
    intro i hi
    conv_lhs => rw [← hdiv]
    rw [eval_add, eval_mul, hwz i hi, zero_mul, add_zero]
  rw [Finset.sum_congr rfl fun i hi => by rw [hval i (Finset.mem_range.1 hi)], hr, hp0, hp1]
  conv_rhs => rw [← hdiv]
  rw [integral_add, left_eq_add]
  by_cases hq : p /ₘ w = 0
  · rw [hq, mul_zero, integral_zero]
  · have hqd : (p /ₘ w).natDegree + 2 ≤ m + 1 := by
      have h1 := natDegree_divByMonic p hmon
      have h2 : w.natDegree ≤ p.natDegree := by
        by_contra hlt
        refine hq ((divByMonic_eq_zero_iff hmon).2 ?_)
        exact degree_lt_degree (by omega)
      rw [hwdeg] at h1 h2
      omega
    have h0 := lobatto_orth (m + 1) (p /ₘ w) hqd
    rw [hnod, mul_assoc, integral_C_mul] at h0
    rcases mul_eq_zero.1 h0 with h | h
    · exact absurd h hc
    · exact h

theorem integral_pos_of (p : ℝ[X]) (h : ∀ x, 0 ≤ x → x ≤ 1 → 0 ≤ p.eval x) (c : ℝ) (h0 : 0 ≤ c) (h1 : c ≤ 1) (hc : 0 < p.eval c) :
    0 < integral p 0 1 :=
  intervalIntegral.integral_pos (by norm_num) p.continuous.continuousOn (fun x hx => h x hx.1.le hx.2) ⟨c, ⟨h0, h1⟩, hc⟩

/-- A polynomial that is non-negative on `[0, 1]` and vanishes at all points but one. -/
noncomputable def bumpAt (points : List ℝ) (n i : Nat) : ℝ[X] :=
  (if i = 0 then 1 else X) * (if i = n - 1 then 1 else 1 - X) *
    ∏ j ∈ (Finset.range n).filter (fun j => j ≠ 0 ∧ j ≠ n - 1 ∧ j ≠ i), (X - C (points.getD j 0)) ^ 2

theorem natDegree_one_sub_X : (1 - X : ℝ[X]).natDegree ≤ 1 := by
  refine (natDegree_sub_le _ _).trans ?_
  simp

theorem natDegree_bumpAt (points : List ℝ) (n i : Nat) (hn : 2 ≤ n) (hi : i ≤ n) :
    (bumpAt points n i).natDegree ≤ if i = n then 2 * n - 2 else 2 * n - 3 := by
  have hprod : ∀ s : Finset Nat, (∏ j ∈ s, (X - C (points.getD j 0)) ^ 2).natDegree ≤ 2 * s.card := by
    intro s
    refine (natDegree_prod_le _ _).trans ?_
    rw [mul_comm, ← smul_eq_mul, ← Finset.sum_const]
    refine Finset.sum_le_sum fun j _ => ?_
    rw [natDegree_pow, natDegree_X_sub_C]
  have h1 : (if i = 0 then 1 else X : ℝ[X]).natDegree ≤ if i = 0 then 0 else 1 := by split <;> simp
  have h2 : (if i = n - 1 then 1 else 1 - X : ℝ[X]).natDegree ≤ if i = n - 1 then 0 else 1 := by
    split
    · simp
    · exact natDegree_one_sub_X
  have hcard : ((Finset.range n).filter fun j => j ≠ 0 ∧ j ≠ n - 1 ∧ j ≠ i).card =
      if i = 0 ∨ i = n - 1 ∨ i = n then n - 2 else n - 3 := by
    have he : (Finset.range n).filter (fun j => j ≠ 0 ∧ j ≠ n - 1 ∧ j ≠ i) = ((Finset.Ico 1 (n - 1)).erase i) := by
      ext j
      simp only [Finset.mem_filter, Finset.mem_range, Finset.mem_erase, Finset.mem_Ico]
      omega
    rw [he]
    split
    · rw [Finset.erase_eq_of_notMem (by simp only [Finset.mem_Ico]; omega), Nat.card_Ico]
      omega
    · rw [Finset.card_erase_of_mem (by simp only [Finset.mem_Ico]; omega), Nat.card_Ico]
      omega
  refine (natDegree_mul_le).trans ((Nat.add_le_add (natDegree_mul_le.trans (Nat.add_le_add h1 h2)) (hprod _)).trans ?_)
  rw [hcard]
  split_ifs <;> omega

theorem eval_bumpAt (points : List ℝ) (n i : Nat) (x : ℝ) : (bumpAt points n i).eval x =
    (if i = 0 then 1 else x) * (if i = n - 1 then 1 else 1 - x) *
    ∏ j ∈ (Finset.range n).filter (fun j => j ≠ 0 ∧ j ≠ n - 1 ∧ j ≠ i), (x - points.getD j 0) ^ 2 := by
  unfold bumpAt
  rw [eval_mul, eval_mul, eval_prod]
  congr 1
  · congr 1 <;> split <;> simp
  · simp

theorem lgl_points_facts (n : Int) (hn : 2 ≤ n) (points : List ℝ) (h : lglPoints n = .ok points) :
    (points.length : Int) = n ∧ points.getD 0 0 = 0 ∧ points.getD (points.length - 1) 0 = 1 ∧
    (∀ i j, i < points.length → j < points.length → i ≠ j → points.getD i 0 ≠ points.getD j 0) ∧
    (∀ i < points.length, 0 ≤ points.getD i 0 ∧ points.getD i 0 ≤ 1) := by
  obtain ⟨interior, hpts, hlen, hinc, -⟩ := (C26_points n).2 hn
  rw [h] at hpts
  obtain rfl : points = 0 :: interior ++ [1] := by simpa using hpts
  set points : List ℝ := 0 :: interior ++ [1] with hp
  have h0 : points.getD 0 0 = 0 := rfl
  have h1 : points.getD (points.length - 1) 0 = 1 := by
    rw [getD_of_lt _ _ (by omega)]
    simp [hp]
  have hlt : ∀ i j, i < j → j < points.length → points.getD i 0 < points.getD j 0 := by
    intro i j hij hj
    rw [getD_of_lt _ _ (by omega), getD_of_lt _ _ hj]
    exact List.pairwise_iff_getElem.1 hinc i j (by omega) hj hij
  refine ⟨hlen, h0, h1, ?_, ?_⟩
  · intro i j hi hj hij
    rcases Nat.lt_or_gt_of_ne hij with h | h
    · exact (hlt i j h hj).ne
    · exact (hlt j i h hi).ne'
  · intro i hi
    constructor
    · rcases Nat.eq_zero_or_pos i with rfl | hp
      · exact h0.ge
      · rw [← h0]; exact (hlt 0 i hp hi).le
    · rcases Nat.lt_or_ge i (points.length - 1) with h | h
      · rw [← h1]; exact (hlt i _ h (by omega)).le
      · rw [show i = points.length - 1 by omega, h1]

/-- All the weights are positive, and they add up to one. -/
theorem C63_weights (n : Int) (hn : 2 ≤ n) :
    ∃ col, lglCollocation n = .ok col ∧ (col.K.length : Int) = n ∧ (∀ i < col.n, 0 < col.K.getD i 0) ∧
      ∑ i ∈ Finset.range col.n, col.K.getD i 0 = 1 := by
  obtain ⟨col, hcol, hcn, hpts, hpl, hKl, hK⟩ := C25_exact n hn
  obtain ⟨-, p0, p1, hne, hrange⟩ := lgl_points_facts n hn _ hpts
  refine ⟨col, hcol, by omega, ?_, ?_⟩
  · intro i hi
    have h2 : 2 ≤ col.n := by omega
    have hdeg := natDegree_bumpAt col.points col.n i h2 hi.le
    rw [if_neg (by omega)] at hdeg
    have hq := hK _ hdeg
    have hother : ∀ j ∈ Finset.range col.n, j ≠ i → col.K.getD j 0 * (bumpAt col.points col.n i).eval (col.points.getD j 0) = 0 := by
      intro j hj hji
      have hj' := Finset.mem_range.1 hj
      rw [eval_bumpAt]
      by_cases hj0 : j = 0
      · subst hj0
        rw [if_neg (Ne.symm hji), p0]
        simp
      · by_cases hjl : j = col.n - 1
        · rw [hjl, ← hpl, p1]
          rw [if_neg (by omega : ¬ i = col.points.length - 1)]
          simp
        · rw [Finset.prod_eq_zero (i := j) (by simp only [Finset.mem_filter, Finset.mem_range]; omega) (by simp)]
          simp
    rw [Finset.sum_eq_single i hother (fun h => absurd (Finset.mem_range.2 hi) h)] at hq
    have hpos : 0 < (bumpAt col.points col.n i).eval (col.points.getD i 0) := by
      rw [eval_bumpAt]
      have hr := hrange i (by omega)
      refine mul_pos (mul_pos ?_ ?_) (Finset.prod_pos fun j hj => ?_)
      · split
        · norm_num
        · have := hne i 0 (by omega) (by omega) (by assumption)
          rw [p0] at this
          exact lt_of_le_of_ne hr.1 (Ne.symm this)
      · split
        · norm_num
        · have := hne i (col.points.length - 1) (by omega) (by omega) (by omega)
          rw [p1] at this
          linarith [lt_of_le_of_ne hr.2 this]
      · simp only [Finset.mem_filter, Finset.mem_range] at hj
        exact sq_pos_of_ne_zero (sub_ne_zero.2 (hne i j (by omega) (by omega) (Ne.symm hj.2.2.2)))
    have hI := integral_pos_of (bumpAt col.points col.n i) (fun x h0 h1 => by
      rw [eval_bumpAt]
      refine mul_nonneg (mul_nonneg ?_ ?_) (Finset.prod_nonneg fun j _ => sq_nonneg _)
      · split <;> linarith
      · split <;> linarith) _ (hrange i (by omega)).1 (hrange i (by omega)).2 hpos
    rw [← hq] at hI
    exact pos_of_mul_pos_left hI hpos.le
  · have h := hK 1 (by simp)
    simpa [integral] using h

/-- The degree `2 n - 3` cannot be improved: some polynomial of degree at most `2 n - 2` is not integrated exactly. -/
theorem C63_sharp (n : Int) (hn : 2 ≤ n) :
    ∃ col, lglCollocation n = .ok col ∧ (col.n : Int) = n ∧ ∃ p : ℝ[X], p.natDegree ≤ 2 * col.n - 2 ∧
      ∑ i ∈ Finset.range col.n, col.K.getD i 0 * p.eval (col.points.getD i 0) < integral p 0 1 := by
  obtain ⟨col, hcol, hcn, hpts, hpl, hKl, hK⟩ := C25_exact n hn
  obtain ⟨-, p0, p1, hne, hrange⟩ := lgl_points_facts n hn _ hpts
  have h2 : 2 ≤ col.n := by omega
  have hdeg := natDegree_bumpAt col.points col.n col.n h2 le_rfl
  rw [if_pos rfl] at hdeg
  refine ⟨col, hcol, hcn, _, hdeg, ?_⟩
  rw [Finset.sum_eq_zero]
  · -- a point of `[0, 1]` where the polynomial is not zero
    have hfin := Set.Infinite.exists_notMem_finset (Set.Ioo_infinite (show (0 : ℝ) < 1 by norm_num)) col.points.toFinset
    obtain ⟨c, hc, hcn'⟩ := hfin
    refine integral_pos_of _ (fun x h0 h1 => ?_) c hc.1.le hc.2.le ?_
    · rw [eval_bumpAt]
      refine mul_nonneg (mul_nonneg ?_ ?_) (Finset.prod_nonneg fun j _ => sq_nonneg _)
      · split <;> linarith
      · split <;> linarith
    · rw [eval_bumpAt, if_neg (by omega), if_neg (by omega)]
      refine mul_pos (mul_pos hc.1 (by linarith [hc.2])) (Finset.prod_pos fun j hj => ?_)
      simp only [Finset.mem_filter, Finset.mem_range] at hj
      refine sq_pos_of_ne_zero (sub_ne_zero.2 fun h => hcn' ?_)
      rw [List.mem_toFinset, h, getD_of_lt _ _ (by omega)]
      exact List.getElem_mem _
  · intro j hj
    have hj' := Finset.mem_range.1 hj
    rw [eval_bumpAt, if_neg (by omega), if_neg (by omega)]
    by_cases hj0 : j = 0
    · subst hj0
      rw [p0]
      simp
    · by_cases hjl : j = col.n - 1
      · rw [hjl, ← hpl, p1]
        simp
      · rw [Finset.prod_eq_zero (i := j) (by simp only [Finset.mem_filter, Finset.mem_range]; omega) (by simp)]
        simp

end Ceacoest.RK
