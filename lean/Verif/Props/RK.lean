import Verif.Lemmas.RK
import Mathlib.Tactic.Linarith

/-! # C22 – C24: Lagrange basis, integration matrices, collocation grid -/

namespace Ceacoest.RK
open Polynomial Spec

variable {F : Type} [Field F] [DecidableEq F]

/-- For distinct points `lagrange_basis` returns the cardinal basis. -/
theorem C23_basis (points : List F) (hn : points.Nodup) (h2 : 2 ≤ points.length) :
    ∃ (l : List (List F)) (hl : l.length = points.length), lagrangeBasis points = .ok l ∧
      (∀ i j (hi : i < points.length) (hj : j < points.length),
        polyval l[i] points[j] = if i = j then 1 else 0) ∧
      (∀ i (hi : i < points.length), (toPoly l[i]).degree < points.length) ∧
      (∑ i : Fin points.length, toPoly l[i] = 1) ∧
      (∀ p : F[X], p.degree < points.length → ∑ i : Fin points.length, C (p.eval points[i]) * toPoly l[i] = p) := by
  have hok : ∃ l, lagrangeBasis points = .ok l := by
    have : ∀ pi ∈ points.zipIdx, ∃ c, basisPoly points pi.1 pi.2 = .ok c := by
      rintro ⟨x, i⟩ hm
      obtain ⟨hi, hx⟩ := List.mem_zipIdx' hm
      obtain ⟨c, hc, -⟩ := basisPoly_ok points hn h2 i hi
      exact ⟨c, by rw [hx]; exact hc⟩
    choose! g hg using this
    exact ⟨points.zipIdx.map g, mapM_ok fun pi hm => hg pi hm⟩
  obtain ⟨l, hl⟩ := hok
  obtain ⟨hlen, hget⟩ := mapM_getElem _ _ _ hl
  rw [List.length_zipIdx] at hlen
  have hb : ∀ i (hi : i < points.length), basisPoly points points[i] i = .ok l[i] := by
    intro i hi
    have := hget i (by rw [List.length_zipIdx]; exact hi)
    simpa using this
  have hev : ∀ i j (hi : i < points.length) (hj : j < points.length), (toPoly l[i]).eval points[j] = if i = j then 1 else 0 :=
    fun i j hi hj => basisPoly_eval points hn h2 i hi _ (hb i hi) j hj
  have hdeg : ∀ i (hi : i < points.length), (toPoly l[i]).degree < points.length := by
    intro i hi
    obtain ⟨c, hc, hcl, -⟩ := basisPoly_ok points hn h2 i hi
    rw [hb i hi] at hc
    cases hc
    rcases degree_toPoly l[i] with h | h
    · rwa [hcl] at h
    · rw [h] at hcl; simp at hcl; omega
  have hint : ∀ p : F[X], p.degree < points.length → ∑ i : Fin points.length, C (p.eval points[i]) * toPoly l[i] = p := by
    intro p hp
    have hinj : Set.InjOn (fun i : Fin points.length => points[i]) (Finset.univ : Finset (Fin points.length)) := by
      intro i _ j _ h
      exact Fin.ext ((hn.getElem_inj_iff).1 h)
    refine eq_of_degrees_lt_of_eval_index_eq Finset.univ hinj ?_ ?_ ?_
    · rw [Finset.card_univ, Fintype.card_fin]
      refine lt_of_le_of_lt (degree_sum_le _ _) ?_
      rw [Finset.sup_lt_iff (by exact WithBot.bot_lt_coe _)]
      intro i _
      refine lt_of_le_of_lt ((degree_mul_le _ _).trans (add_le_add degree_C_le le_rfl)) ?_
      rw [zero_add]
      exact hdeg i i.2
    · rw [Finset.card_univ, Fintype.card_fin]
      exact hp
    · intro j _
      rw [eval_finset_sum, Finset.sum_eq_single j]
      · rw [eval_mul, eval_C]
        have := hev j j j.2 j.2
        simp only [Fin.getElem_fin] at this ⊢
        rw [this, if_pos trivial, mul_one]
      · intro i _ hij
        rw [eval_mul, eval_C]
        have := hev i j i.2 j.2
        simp only [Fin.getElem_fin] at this ⊢
        rw [this, if_neg (fun h => hij (Fin.ext h)), mul_zero]
      · simp
  refine ⟨l, hlen, hl, ?_, hdeg, ?_, hint⟩
  · intro i j hi hj
    rw [← eval_toPoly]
    exact hev i j hi hj
  · have := hint 1 (by
      rw [degree_one]
      exact_mod_cast (by omega : 0 < points.length))
    simpa using this

/-- One point gives ValueError (there are no roots), repeated points give ZeroDivisionError. -/
theorem C23_errors (points : List F) :
    (points.length = 1 → lagrangeBasis points = .error .valueError) ∧
    (2 ≤ points.length → ¬points.Nodup → lagrangeBasis points = .error .zeroDivisionError) := by
  constructor
  · intro h
    match points, h with
    | [x], _ => rfl
  · intro h2 hn
    have hb : ∀ i (hi : i < points.length), (∃ c, basisPoly points points[i] i = .ok c) ∨
        basisPoly points points[i] i = .error .zeroDivisionError := by
      intro i hi
      have hne : others points i ≠ [] := by
        intro h
        have := length_others points i hi
        rw [h] at this
        simp at this
        omega
      simp only [basisPoly, fromroots, if_neg hne]
      show (∃ c, divScalar _ _ = _) ∨ divScalar _ _ = _
      unfold divScalar
      split
      · exact .inr rfl
      · exact .inl ⟨_, rfl⟩
    have hbad : ∃ i, ∃ hi : i < points.length, basisPoly points points[i] i = .error .zeroDivisionError := by
      rw [List.nodup_iff_injective_get] at hn
      obtain ⟨i, j, hij, hne⟩ : ∃ i j, points.get i = points.get j ∧ i ≠ j := by
        by_contra hcon
        refine hn fun i j h => ?_
        by_contra hne
        exact hcon ⟨i, j, h, hne⟩
      refine ⟨i, i.2, ?_⟩
      have hmem : points[i] ∈ others points i := by
        rw [mem_others]
        refine ⟨j, fun h => hne (Fin.ext h.symm), ?_⟩
        rw [List.getElem?_eq_getElem j.2]
        exact congrArg some hij.symm
      have h0 : ((others points i).map (points[i] - ·)).prod = 0 := by
        rw [List.prod_eq_zero_iff, List.mem_map]
        exact ⟨_, hmem, sub_self _⟩
      have hne' : others points i ≠ [] := List.ne_nil_of_mem hmem
      simp only [basisPoly, fromroots, if_neg hne']
      show divScalar _ _ = _
      rw [foldl_mul_eq_prod, one_mul, divScalar]
      exact if_pos h0
    have gen : ∀ (l : List (F × Nat)), (∀ a ∈ l, (∃ c, basisPoly points a.1 a.2 = .ok c) ∨
        basisPoly points a.1 a.2 = .error .zeroDivisionError) → (∃ a ∈ l, basisPoly points a.1 a.2 = .error .zeroDivisionError) →
        l.mapM (fun pi => basisPoly points pi.1 pi.2) = .error .zeroDivisionError := by
      intro l
      induction l with
      | nil => rintro - ⟨a, ha, -⟩; simp at ha
      | cons a l ih =>
        intro hall hex
        rw [List.mapM_cons]
        rcases hall a (by simp) with ⟨c, hc⟩ | he
        · rw [hc, py_bind_ok, ih (fun b hb => hall b (by simp [hb])) ?_]
          · rfl
          · obtain ⟨b, hb, hbe⟩ := hex
            rcases List.mem_cons.1 hb with rfl | hb
            · rw [hc] at hbe; cases hbe
            · exact ⟨b, hb, hbe⟩
        · rw [he]; rfl
    refine gen _ ?_ ?_
    · rintro ⟨x, i⟩ hm
      obtain ⟨hi, hx⟩ := List.mem_zipIdx' hm
      rw [show ((x, i) : F × Nat).1 = points[i] from hx]
      exact hb i hi
    · obtain ⟨i, hi, he⟩ := hbad
      refine ⟨(points[i], i), ?_, he⟩
      rw [List.mem_iff_getElem]
      exact ⟨i, by rw [List.length_zipIdx]; exact hi, by simp⟩

/-- Three rational points. -/
example : lagrangeBasis ([0, 1 / 2, 1] : List ℚ) = .ok [[1, -3, 2], [0, 4, -4], [0, -1, 2]] := by
  decide +kernel

/-! ## C24 -/

theorem foldl_zipWith_add (rows : List (List F)) (n : Nat) (acc : List F) (hacc : acc.length = n) (h : ∀ r ∈ rows, r.length = n) :
    (rows.foldl (List.zipWith (· + ·)) acc).length = n ∧ ∀ i < n, (rows.foldl (List.zipWith (· + ·)) acc).getD i 0 =
      acc.getD i 0 + ((rows.map fun r => r.getD i 0).sum) := by
  induction rows generalizing acc with
  | nil => exact ⟨hacc, fun i _ => by simp⟩
  | cons r rows ih =>
    have hr := h r (by simp)
    obtain ⟨h1, h2⟩ := ih (List.zipWith (· + ·) acc r) (by simp [hacc, hr]) (fun r hr => h r (by simp [hr]))
    refine ⟨h1, fun i hi => ?_⟩
    rw [List.foldl_cons, h2 i hi, List.map_cons, List.sum_cons, ← add_assoc]
    congr 1
    rw [getD_of_lt _ _ (by simp [hacc, hr, hi]), List.getElem_zipWith, getD_of_lt _ _ (by omega),
      getD_of_lt _ _ (by omega)]

/-- What the constructor computes, in any field. -/
theorem collocation_ok (points : List F) (hn : points.Nodup) (h2 : 2 ≤ points.length) (l : List (List F))
    (hl : lagrangeBasis points = .ok l) :
    ∃ col, collocation points = .ok col ∧ col.n = points.length ∧ col.points = points ∧ col.ninterv = points.length - 1 ∧
      col.J = (List.range (points.length - 1)).map (fun k => l.map fun c =>
        polyval (integ1 (points.getD k 0) c) (points.getD (k + 1) 0)) ∧
      col.K.length = points.length ∧
      ∀ i < points.length, col.K.getD i 0 = ∑ k ∈ Finset.range (points.length - 1), (col.J.getD k []).getD i 0 := by
  obtain ⟨l', hlen, hl', -⟩ := C23_basis points hn h2
  rw [hl] at hl'
  cases hl'
  have hJ : (List.range (points.length - 1)).mapM (fun i => pdintegs l ((points.drop i).take 2) 1) =
      .ok ((List.range (points.length - 1)).map (fun k => l.map fun c =>
        polyval (integ1 (points.getD k 0) c) (points.getD (k + 1) 0))) := by
    refine mapM_ok fun k hk => ?_
    rw [List.mem_range] at hk
    unfold pdintegs
    refine mapM_ok fun c _ => ?_
    have e : (points.drop k).take 2 = [points.getD k 0, points.getD (k + 1) 0] := by
      rw [List.drop_eq_getElem_cons (by omega), List.drop_eq_getElem_cons (by omega), getD_of_lt _ _ (by omega),
        getD_of_lt _ _ (by omega)]
      rfl
    rw [e]
    rfl
  refine ⟨_, by simp only [collocation, hl, py_bind_ok, hJ, py_pure]; rfl, rfl, rfl, rfl, rfl, ?_, ?_⟩
  · exact (foldl_zipWith_add _ _ _ (by simp) (by simp [hlen])).1
  · intro i hi
    rw [(foldl_zipWith_add _ points.length _ (by simp) (by simp [hlen])).2 i hi]
    rw [getD_of_lt _ _ (by simpa using hi), List.getElem_replicate, zero_add, List.map_map, sum_map_range]
    refine Finset.sum_congr rfl fun k hk => ?_
    rw [getD_map_range [] _ (Finset.mem_range.1 hk)]
    rfl

/-- For distinct real points, row `k` of `J` integrates the interpolant over interval `k` and `K` over the whole piece. -/
theorem C24_exact (points : List ℝ) (hn : points.Nodup) (h2 : 2 ≤ points.length) :
    ∃ col, collocation points = .ok col ∧ col.J.length = points.length - 1 ∧ (∀ r ∈ col.J, r.length = points.length) ∧
      col.K.length = points.length ∧
      (∀ p : ℝ[X], p.degree < points.length → ∀ k < points.length - 1,
        ∑ i ∈ Finset.range points.length, (col.J.getD k []).getD i 0 * p.eval (points.getD i 0) =
          integral p (points.getD k 0) (points.getD (k + 1) 0)) ∧
      (∀ i < points.length, col.K.getD i 0 = ∑ k ∈ Finset.range (points.length - 1), (col.J.getD k []).getD i 0) ∧
      (∀ p : ℝ[X], p.degree < points.length →
        ∑ i ∈ Finset.range points.length, col.K.getD i 0 * p.eval (points.getD i 0) =
          integral p (points.getD 0 0) (points.getD (points.length - 1) 0)) ∧
      col.K.sum = points.getD (points.length - 1) 0 - points.getD 0 0 := by
  obtain ⟨l, hlen, hl, -, -, -, hint⟩ := C23_basis points hn h2
  obtain ⟨col, hcol, -, -, -, hJ, hKl, hK⟩ := collocation_ok points hn h2 l hl
  have hrow : ∀ p : ℝ[X], p.degree < points.length → ∀ k < points.length - 1,
        ∑ i ∈ Finset.range points.length, (col.J.getD k []).getD i 0 * p.eval (points.getD i 0) =
          integral p (points.getD k 0) (points.getD (k + 1) 0) := by
    intro p hp k hk
    conv_rhs => rw [← hint p hp]
    rw [integral_sum, Finset.sum_range]
    refine Finset.sum_congr rfl fun i _ => ?_
    rw [hJ, getD_map_range [] _ hk, getD_of_lt _ _ (by rw [List.length_map, hlen]; exact i.2), List.getElem_map, integ1_integral,
      integral_C_mul, mul_comm, getD_of_lt points 0 i.2]
    rfl
  have hsum : ∀ p : ℝ[X], p.degree < points.length →
        ∑ i ∈ Finset.range points.length, col.K.getD i 0 * p.eval (points.getD i 0) =
          integral p (points.getD 0 0) (points.getD (points.length - 1) 0) := by
    intro p hp
    rw [Finset.sum_congr rfl fun i hi => by rw [hK i (Finset.mem_range.1 hi), Finset.sum_mul], Finset.sum_comm,
      Finset.sum_congr rfl fun k hk => hrow p hp k (Finset.mem_range.1 hk)]
    generalize points.length - 1 = m
    induction m with
    | zero => simp [integral]
    | succ m ih => rw [Finset.sum_range_succ, ih, integral_add_interval]
  refine ⟨col, hcol, by simp [hJ], by simp [hJ, hlen], hKl, hrow, hK, hsum, ?_⟩
  have h1 := hsum 1 (by rw [degree_one]; exact_mod_cast (by omega : 0 < points.length))
  have e : integral 1 (points.getD 0 0) (points.getD (points.length - 1) 0) = points.getD (points.length - 1) 0 - points.getD 0 0 := by
    simp [integral]
  rw [← e, ← h1, ← sum_map_range]
  conv_lhs => rw [eq_map_range_getD 0 col.K hKl]
  simp

/-- Simpson's rule: both rows of `J` and the quadrature of the three-point method. -/
example : (collocation ([0, 1 / 2, 1] : List ℚ)).toOption.map (fun c => (c.J, c.K)) =
    some ([[5 / 24, 1 / 3, -1 / 24], [-1 / 24, 1 / 3, 5 / 24]], [1 / 6, 2 / 3, 1 / 6]) := by
  decide +kernel

/-! ## C22 -/

omit [DecidableEq F] in
theorem diff_length (t : List F) : (diff t).length = t.length - 1 := by simp [diff]

/-- The grid as a function of the index: piece `k / m`, point `k % m`, then the final time. -/
theorem grid_eq (points t : List F) (h : t ≠ []) :
    grid points t = .ok ((List.range ((t.length - 1) * (points.length - 1))).map (fun k =>
        t.getD (k / (points.length - 1)) 0 + (t.getD (k / (points.length - 1) + 1) 0 - t.getD (k / (points.length - 1)) 0) *
          points.getD (k % (points.length - 1)) 0) ++ [t.getD (t.length - 1) 0]) := by
  have hpos : 0 < t.length := List.length_pos_iff.2 h
  have hlast : t.getLast? = some (t.getD (t.length - 1) 0) := by
    rw [List.getLast?_eq_getLast_of_ne_nil h, List.getLast_eq_getElem, getD_of_lt _ _ (by omega)]
  simp only [grid, hlast, py_bind_ok, py_pure]
  congr 2
  have e : List.zipWith (fun a row => row.map (a + ·)) t.dropLast ((diff t).map fun d => points.dropLast.map (d * ·)) =
      (List.range (t.length - 1)).map fun k => (List.range (points.length - 1)).map fun i =>
        t.getD k 0 + (t.getD (k + 1) 0 - t.getD k 0) * points.getD i 0 := by
    refine List.ext_getElem (by simp [diff_length]) fun k h1 h2 => ?_
    have hk : k < t.length - 1 := by simpa using h2
    rw [List.getElem_zipWith, List.getElem_map, List.getElem_map, List.map_map, List.getElem_range]
    refine List.ext_getElem (by simp) fun i h3 h4 => ?_
    have hi : i < points.length - 1 := by simpa using h4
    simp only [List.getElem_map, List.getElem_range, Function.comp_apply, List.getElem_dropLast, diff, List.getElem_zipWith,
      List.getElem_tail]
    rw [getD_of_lt _ _ (by omega), getD_of_lt _ _ (by omega), getD_of_lt _ _ (by omega)]
  rw [e]
  exact range_flatMap_map _ _ fun k i => t.getD k 0 + (t.getD (k + 1) 0 - t.getD k 0) * points.getD i 0

/-- The collocation grid: length, position of every point, end points and the coarse grid inside it. -/
theorem C22_grid (points t : List F) (hp : 2 ≤ points.length) (h0 : points.getD 0 0 = 0) (h : t ≠ []) :
    ∃ g, grid points t = .ok g ∧ g.length = (t.length - 1) * (points.length - 1) + 1 ∧
      (∀ k < t.length - 1, ∀ i < points.length - 1, g.getD (k * (points.length - 1) + i) 0 =
        t.getD k 0 + (t.getD (k + 1) 0 - t.getD k 0) * points.getD i 0) ∧
      (∀ k < t.length, g.getD (k * (points.length - 1)) 0 = t.getD k 0) ∧
      g.head? = t.head? ∧ g.getLast? = t.getLast? := by
  have hpos : 0 < t.length := List.length_pos_iff.2 h
  set m := points.length - 1 with hm
  have hm0 : 0 < m := by omega
  obtain ⟨g, hg⟩ : ∃ g, g = (List.range ((t.length - 1) * m)).map (fun k =>
        t.getD (k / m) 0 + (t.getD (k / m + 1) 0 - t.getD (k / m) 0) * points.getD (k % m) 0) ++ [t.getD (t.length - 1) 0] := ⟨_, rfl⟩
  have hin : ∀ k < t.length - 1, ∀ i < m, g.getD (k * m + i) 0 =
        t.getD k 0 + (t.getD (k + 1) 0 - t.getD k 0) * points.getD i 0 := by
    intro k hk i hi
    have hlt : k * m + i < (t.length - 1) * m := by
      calc k * m + i < k * m + m := by omega
        _ = (k + 1) * m := by ring
        _ ≤ _ := Nat.mul_le_mul_right _ (by omega)
    rw [getD_of_lt _ _ (by rw [hg]; simp; omega)]
    simp only [hg]
    rw [List.getElem_append_left (by simpa using hlt), List.getElem_map, List.getElem_range]
    rw [Nat.add_comm (k * m) i, Nat.add_mul_div_right _ _ hm0, Nat.div_eq_of_lt hi, Nat.add_mul_mod_self_right, Nat.mod_eq_of_lt hi,
      Nat.zero_add]
  have hco : ∀ k < t.length, g.getD (k * m) 0 = t.getD k 0 := by
    intro k hk
    by_cases hk' : k < t.length - 1
    · have := hin k hk' 0 hm0
      rw [Nat.add_zero, h0, mul_zero, add_zero] at this
      exact this
    · have e : k = t.length - 1 := by omega
      subst e
      rw [getD_of_lt _ _ (by rw [hg]; simp)]
      simp only [hg]
      rw [List.getElem_append_right (by simp)]
      simp
  have hgl : g.length = (t.length - 1) * m + 1 := by simp [hg]
  refine ⟨g, ?_, hgl, hin, hco, ?_, ?_⟩
  · rw [grid_eq points t h, hg]
  · have := hco 0 hpos
    rw [Nat.zero_mul, getD_of_lt _ _ (by omega), getD_of_lt _ _ hpos] at this
    rw [List.head?_eq_getElem?, List.head?_eq_getElem?, List.getElem?_eq_getElem (by omega), List.getElem?_eq_getElem hpos, this]
  · rw [hg, List.getLast?_append, List.getLast?_singleton, List.getLast?_eq_getLast_of_ne_nil h, List.getLast_eq_getElem,
      getD_of_lt _ _ (by omega)]
    rfl

/-- An empty coarse grid raises IndexError. -/
theorem C22_empty (points : List F) : grid points [] = .error .indexError := rfl

/-- The grid is strictly increasing when the coarse grid is and the points increase strictly from 0 to 1. -/
theorem C22_increasing {F : Type} [Field F] [LinearOrder F] [IsStrictOrderedRing F] (points t : List F)
    (hp : 2 ≤ points.length) (h0 : points.getD 0 0 = 0) (h1 : points.getD (points.length - 1) 0 = 1)
    (hinc : points.Pairwise (· < ·)) (h : t ≠ []) (ht : t.Pairwise (· < ·)) :
    ∃ g, grid points t = .ok g ∧ g.Pairwise (· < ·) := by
  obtain ⟨g, hg, hgl, hin, hco, -⟩ := C22_grid points t hp h0 h
  refine ⟨g, hg, ?_⟩
  have hpos : 0 < t.length := List.length_pos_iff.2 h
  set m := points.length - 1 with hm
  have hm0 : 0 < m := by omega
  have hpi : ∀ i, i + 1 < points.length → points.getD i 0 < points.getD (i + 1) 0 := fun i hi => by
    rw [getD_of_lt _ _ (by omega), getD_of_lt _ _ hi]
    exact List.pairwise_iff_getElem.1 hinc i (i + 1) _ _ (by omega)
  have hti : ∀ i, i + 1 < t.length → t.getD i 0 < t.getD (i + 1) 0 := fun i hi => by
    rw [getD_of_lt _ _ (by omega), getD_of_lt _ _ hi]
    exact List.pairwise_iff_getElem.1 ht i (i + 1) _ _ (by omega)
  have hstep : ∀ k, k + 1 < g.length → g.getD k 0 < g.getD (k + 1) 0 := by
    intro k hk
    rw [hgl] at hk
    have hk' : k < (t.length - 1) * m := by omega
    have hq : k / m < t.length - 1 := (Nat.div_lt_iff_lt_mul hm0).2 hk'
    have hr : k % m < m := Nat.mod_lt _ hm0
    have hd : 0 < t.getD (k / m + 1) 0 - t.getD (k / m) 0 := sub_pos.2 (hti _ (by omega))
    have e1 : g.getD k 0 = t.getD (k / m) 0 + (t.getD (k / m + 1) 0 - t.getD (k / m) 0) * points.getD (k % m) 0 := by
      rw [← hin _ hq _ hr, Nat.div_add_mod']
    by_cases hlast : k % m + 1 < m
    · have e2 : g.getD (k + 1) 0 = t.getD (k / m) 0 + (t.getD (k / m + 1) 0 - t.getD (k / m) 0) * points.getD (k % m + 1) 0 := by
        rw [← hin _ hq _ hlast, ← Nat.add_assoc, Nat.div_add_mod']
      rw [e1, e2]
      exact add_lt_add_right (mul_lt_mul_of_pos_left (hpi _ (by omega)) hd) _
    · have hmm : k % m + 1 = m := by omega
      have e2 : g.getD (k + 1) 0 = t.getD (k / m + 1) 0 := by
        rw [← hco (k / m + 1) (by omega)]
        congr 1
        have := Nat.div_add_mod' k m
        rw [Nat.add_mul, Nat.one_mul]
        omega
      rw [e1, e2]
      have hlt : points.getD (k % m) 0 < 1 := by
        have := hpi (k % m) (by omega)
        rwa [hmm, h1] at this
      have := mul_lt_mul_of_pos_left hlt hd
      rw [mul_one] at this
      linarith
  have hlt : ∀ d k, k + (d + 1) < g.length → g.getD k 0 < g.getD (k + (d + 1)) 0 := by
    intro d
    induction d with
    | zero => exact fun k hk => hstep k hk
    | succ d ih => exact fun k hk => (ih k (by omega)).trans (hstep _ (by omega))
  rw [List.pairwise_iff_getElem]
  intro a b ha hb hab
  have := hlt (b - a - 1) a (by omega)
  rw [show a + (b - a - 1 + 1) = b by omega, getD_of_lt _ _ ha, getD_of_lt _ _ hb] at this
  exact this

example : grid ([0, 1 / 4, 1] : List ℚ) [1, 3, 4] = .ok [1, 3 / 2, 3, 13 / 4, 4] := by decide +kernel

end Ceacoest.RK
