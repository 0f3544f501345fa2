import Verif.Lemmas.TimeReversal
import Verif.Props.ConvergenceOEM
import Verif.Props.TranscriptionOCExpr

/-! # C91: the transcription does not prefer a direction of time -/

namespace Ceacoest
open Polynomial Spec RK
variable {X : Type}

theorem lgl_sorted {N : Nat} (hN : 1 ≤ N) {n : Int} (hn : (N : Int) + 1 = n) {col : Collocation ℝ} (h : lglCollocation n = .ok col) :
    col.points.Pairwise (· < ·) := by
  obtain ⟨col', hcol', -, hpts, -⟩ := C25_exact n (by omega)
  obtain rfl : col = col' := Except.ok.inj (h.symm.trans hcol')
  obtain ⟨interior, hp, -, hinc, -⟩ := (C26_points n).2 (by omega)
  rw [Except.ok.inj (hpts.symm.trans hp)]
  exact hinc

/-- **C91.** The points, the weights and the integration matrix of the collocation method are the same when seen from the end of the piece. -/
theorem C91_points {n : Int} (hn : 2 ≤ n) : ∃ (col : Collocation ℝ) (N : Nat), lglCollocation n = .ok col ∧ (N : Int) + 1 = n ∧ col.points.length = N + 1 ∧
    (∀ l ≤ N, col.points.getD (N - l) 0 = 1 - col.points.getD l 0) ∧ (∀ l ≤ N, col.K.getD (N - l) 0 = col.K.getD l 0) ∧
    ∀ k < N, ∀ l ≤ N, (col.J.getD (N - 1 - k) []).getD (N - l) 0 = (col.J.getD k []).getD l 0 := by
  obtain ⟨col, hcol, -⟩ := C25_exact n hn
  have hN : ((n - 1).toNat : Int) + 1 = n := by omega
  have hN1 : 1 ≤ (n - 1).toNat := by omega
  obtain ⟨hpo, hK⟩ := lgl_points_ok hN1 hN hcol
  have hs : ∀ l ≤ (n - 1).toNat, col.points.getD ((n - 1).toNat - l) 0 = 1 - col.points.getD l 0 := fun l hl => by
    have h := points_symm hpo hK (lgl_sorted hN1 hN hcol)
    have h2 := reversedTimes_getD (T := 1) hpo.len hl
    rw [h] at h2
    linarith
  exact ⟨col, _, hcol, hN, hpo.len, hs, fun l hl => K_symm hpo hK hs hl, fun k hk l hl => J_symm hpo hs hk hl⟩

/-- **C91**: the weights in closed form, those of Gauss–Lobatto quadrature. -/
theorem C91_weights {n : Int} (hn : 2 ≤ n) : ∃ (col : Collocation ℝ) (N : Nat), lglCollocation n = .ok col ∧ (N : Int) + 1 = n ∧
    ∀ l ≤ N, (legendre01 N).eval (col.points.getD l 0) ≠ 0 ∧
      col.K.getD l 0 = 1 / (N * (N + 1) * (legendre01 N).eval (col.points.getD l 0) ^ 2) := by
  obtain ⟨col, hcol, -⟩ := C25_exact n hn
  have hN : ((n - 1).toNat : Int) + 1 = n := by omega
  have hN1 : 1 ≤ (n - 1).toNat := by omega
  obtain ⟨hpo, hK⟩ := lgl_points_ok hN1 hN hcol
  refine ⟨col, _, hcol, hN, fun l hl => ?_⟩
  have h := K_closed hpo hK hl
  have e : (legendre01 (n - 1).toNat).eval (col.points.getD l 0) ^ 2 = (shiftedLeg (n - 1).toNat).eval (col.points.getD l 0) ^ 2 := by
    rw [legendre01_eq, eval_mul, eval_C, mul_pow, ← pow_mul, mul_comm _ 2, pow_mul]
    norm_num
  rw [← e] at h
  exact ⟨fun e0 => by rw [e0] at h; norm_num at h, eq_one_div_of_mul_eq_one_left h⟩

/-- For three points, these are the weights of Simpson's rule. -/
example : ∃ col : Collocation ℝ, lglCollocation 3 = .ok col ∧ col.K.getD 0 0 = 1 / 6 ∧ col.K.getD 1 0 = 2 / 3 ∧ col.K.getD 2 0 = 1 / 6 := by
  obtain ⟨col, N, h1, h2, h3⟩ := C91_weights (n := 3) (by norm_num)
  obtain ⟨col', N', h1', h2', hl, hs, hk, -⟩ := C91_points (n := 3) (by norm_num)
  obtain rfl : col' = col := Except.ok.inj (h1'.symm.trans h1)
  obtain rfl : N = 2 := by omega
  obtain rfl : N' = 2 := by omega
  obtain ⟨hpo, hK⟩ := lgl_points_ok (N := 2) (by norm_num) (n := 3) (by norm_num) h1
  have hm := hs 1 (by norm_num)
  have hm : col'.points.getD 1 0 = 1 / 2 := by simp only [Nat.reduceSub] at hm; linarith
  have hP : ∀ x, (shiftedLeg 2).eval x = 1 - 6 * x + 6 * x ^ 2 := fun x => by
    rw [eval_eq_sum_range, natDegree_shiftedLeg]
    simp only [coeff_shiftedLeg, Finset.sum_range_succ, Finset.sum_range_zero, ← choose_mul_choose]
    norm_num [Nat.choose]
    ring
  have e0 := (h3 0 (by norm_num)).2
  have e1 := (h3 1 (by norm_num)).2
  have e2 := (h3 2 (by norm_num)).2
  rw [legendre01_eq, eval_mul, eval_C, hP] at e0 e1 e2
  rw [hpo.first] at e0
  rw [hm] at e1
  rw [hpo.last] at e2
  exact ⟨col', h1, by rw [e0]; norm_num, by rw [e1]; norm_num, by rw [e2]; norm_num⟩

/-- **C91**: the grid for the reversed times is the reversed grid. -/
theorem C91_grid {n : Int} (hn : 2 ≤ n) : ∃ col : Collocation ℝ, lglCollocation n = .ok col ∧ ∀ (T : ℝ) (t : List ℝ), t ≠ [] →
    ∃ g, grid col.points t = .ok g ∧ grid col.points (reversedTimes T t) = .ok (reversedTimes T g) := by
  obtain ⟨col, N, hcol, hN, hl, hs, -⟩ := C91_points hn
  have hN1 : 1 ≤ N := by omega
  obtain ⟨hpo, -⟩ := lgl_points_ok hN1 hN hcol
  refine ⟨col, hcol, fun T t ht => ?_⟩
  obtain ⟨P, hP⟩ : ∃ P, t.length = P + 1 := ⟨t.length - 1, by have := List.length_pos_iff.2 ht; omega⟩
  have hP' : (reversedTimes T t).length = P + 1 := by simp [reversedTimes, hP]
  obtain ⟨g, g1, -, -, g4, -⟩ := C22_grid col.points t (by omega) hpo.first ht
  obtain ⟨g', g1', -, -, g4', -⟩ := C22_grid col.points (reversedTimes T t) (by omega) hpo.first (by intro e; simp [e] at hP')
  obtain ⟨a1, a2⟩ := grid_pointTime hl hN1 hpo.first hpo.last hP g1
  obtain ⟨b1, b2⟩ := grid_pointTime hl hN1 hpo.first hpo.last hP' g1'
  refine ⟨g, g1, ?_⟩
  rw [g1']
  congr 1
  refine List.ext_getElem (by simp [reversedTimes, a1, b1]) fun r h1 h2 => ?_
  rw [← getD_of_lt _ 0 h1, ← getD_of_lt _ 0 h2, reversedTimes_getD a1 (by omega)]
  rcases Nat.eq_zero_or_pos P with rfl | hP0
  · obtain rfl : r = 0 := by omega
    have e1 := g4 0 (by omega)
    have e2 := g4' 0 (by omega)
    simp only [Nat.zero_mul] at e1 e2
    rw [e2, reversedTimes_getD hP (by omega)]
    simp only [Nat.zero_mul, Nat.sub_zero]
    rw [e1]
  -- the piece and the point within
  obtain ⟨i, l, hi, hlN, rfl⟩ : ∃ i l, i < P ∧ l ≤ N ∧ r = i * N + l := by
    rcases Nat.lt_or_ge r (P * N) with h | h
    · exact ⟨r / N, r % N, Nat.div_lt_of_lt_mul (by rwa [Nat.mul_comm]), (Nat.mod_lt _ hN1).le, (Nat.div_add_mod' r N).symm⟩
    · refine ⟨P - 1, N, by omega, le_rfl, ?_⟩
      have : P * N = (P - 1) * N + N := by rw [← Nat.succ_mul]; congr 1; omega
      omega
  have e : P * N - (i * N + l) = (P - 1 - i) * N + (N - l) := by
    have : P * N = (P - 1 - i) * N + i * N + N := by rw [← Nat.add_mul, ← Nat.succ_mul]; congr 1; omega
    omega
  rw [b2 i hi l hlN, e, a2 (P - 1 - i) (by omega) (N - l) (by omega), pointTime, pointTime, hs l hlN, reversedTimes_getD hP (by omega), reversedTimes_getD hP (by omega),
    show P - 1 - i + 1 = P - i by omega, show P - (i + 1) = P - 1 - i by omega]
  ring

/-! ### The nonlinear program -/

theorem defects_getD (J : List (List ℝ)) (rhs x : Nat → List ℝ) {N nx k j : Nat} (s : Nat) (len : ℝ) (hk : k < N) (hj : j < nx) :
    (defects J rhs x N nx s len).getD (k * nx + j) 0 = (x (s + k + 1)).getD j 0 - (x (s + k)).getD j 0 -
      (∑ l ∈ Finset.range (N + 1), (J.getD k []).getD l 0 * (rhs (s + l)).getD j 0) * len := by
  unfold defects
  rw [List.getD_eq_getElem?_getD, (flatMap_getElem? (n := nx) N fun k _ => by simp).2 k hk j hj, List.getElem?_map, List.getElem?_range hj]
  rfl

theorem getD_map_neg (l : List ℝ) (j : Nat) : (l.map (- ·)).getD j 0 = -l.getD j 0 := by
  simp only [List.getD_eq_getElem?_getD, List.getElem?_map]
  cases l[j]? <;> simp

/-- The rows of the reversed vector. -/
theorem ocReversed_rows {P N nx nu np : Nat} (d : List ℝ) :
    (ocReversed P N nx nu np d).length = (P * N + 1) * (nx + nu) + np ∧ (∀ r ≤ P * N, ocX nx (ocReversed P N nx nu np d) r = ocX nx d (P * N - r)) ∧
      (∀ r ≤ P * N, ocU P N nx nu (ocReversed P N nx nu np d) r = ocU P N nx nu d (P * N - r)) ∧
      ocP P N nx nu np (ocReversed P N nx nu np d) = ocP P N nx nu np d := by
  have e : ocReversed P N nx nu np d = samples ((List.range (P * N + 1)).map fun r : Nat => (r : ℝ)) (fun s => ocX nx d (P * N - ⌊s⌋₊))
      (fun s => ocU P N nx nu d (P * N - ⌊s⌋₊)) (ocP P N nx nu np d) := by
    simp only [samples, List.flatMap_map, Nat.floor_natCast, ocReversed]
  obtain ⟨h1, h2, h3, h4⟩ := samples_rows (tc := (List.range (P * N + 1)).map fun r : Nat => (r : ℝ)) (z := fun s => ocX nx d (P * N - ⌊s⌋₊))
    (v := fun s => ocU P N nx nu d (P * N - ⌊s⌋₊)) (p := ocP P N nx nu np d)
    (P := P) (N := N) (nx := nx) (nu := nu) (np := np) (by simp) (fun s => rowAt_length ..) (fun s => rowAt_length ..) (rowAt_length ..)
  rw [← e] at h1 h2 h3 h4
  have e : ∀ r < P * N + 1, ⌊((List.range (P * N + 1)).map fun r : Nat => (r : ℝ)).getD r 0⌋₊ = r := fun r hr => by
    rw [getD_of_lt _ _ (by simpa using hr), List.getElem_map, List.getElem_range, Nat.floor_natCast]
  exact ⟨h1, fun r hr => by rw [h2 r (by omega), e r (by omega)], fun r hr => by rw [h3 r (by omega), e r (by omega)], h4⟩

theorem swapEnds_append {nx : Nat} {a b : List ℝ} (h : a.length = nx) : swapEnds nx (a ++ b) = b ++ a := by
  subst h
  simp [swapEnds]

/-- The cost of the reversed vector. -/
theorem ocCost_reversed (F : OCFunctions) {K t : List ℝ} {P N nx nu np : Nat} (T : ℝ) (hl : t.length = P + 1) (hK : ∀ l ≤ N, K.getD (N - l) 0 = K.getD l 0) (d : List ℝ) :
    ocCost (F.reversed nx) K (diff (reversedTimes T t)) P N nx nu np (ocReversed P N nx nu np d) = ocCost F K (diff t) P N nx nu np d := by
  obtain ⟨-, hx, hu, hp⟩ := ocReversed_rows (P := P) (N := N) (nx := nx) (nu := nu) (np := np) d
  have hl' : (reversedTimes T t).length = P + 1 := by simp [reversedTimes, hl]
  unfold ocCost
  rw [hp, hx 0 (by omega), hx (P * N) le_rfl, Nat.sub_zero, Nat.sub_self]
  congr 1
  · rw [← Finset.sum_range_reflect]
    refine Finset.sum_congr rfl fun i hi => ?_
    have hi := Finset.mem_range.1 hi
    have hbl : ∀ l ≤ N, (P - 1 - i) * N + l ≤ P * N ∧ P * N - ((P - 1 - i) * N + l) = i * N + (N - l) := fun l hlN => by
      have : P * N = (P - 1 - i) * N + i * N + N := by rw [← Nat.add_mul, ← Nat.succ_mul]; congr 1; omega
      omega
    congr 1
    · rw [← sum_flip (fun l => F.L (ocX nx d (i * N + l)) (ocU P N nx nu d (i * N + l)) (ocP P N nx nu np d) * K.getD l 0)]
      refine Finset.sum_congr rfl fun l hlN => ?_
      have hlN : l ≤ N := by have := Finset.mem_range.1 hlN; omega
      rw [hx _ (hbl l hlN).1, hu _ (hbl l hlN).1, (hbl l hlN).2, hK l hlN]
      rfl
    · rw [diff_getD (by omega), diff_getD (by omega), reversedTimes_getD hl (by omega), reversedTimes_getD hl (by omega), show P - (P - 1 - i + 1) = i by omega,
        show P - (P - 1 - i) = i + 1 by omega]
      ring
  · change F.M (swapEnds nx _) _ = _
    rw [swapEnds_append (ocX_length ..)]

/-- A defect of the reversed vector. -/
theorem ocDefect_reversed (F : OCFunctions) {J : List (List ℝ)} {t : List ℝ} {P N nx nu np : Nat} (T : ℝ) (hl : t.length = P + 1)
    (hJ : ∀ k < N, ∀ l ≤ N, (J.getD (N - 1 - k) []).getD (N - l) 0 = (J.getD k []).getD l 0) (d : List ℝ) {i k j : Nat} (hi : i < P) (hk : k < N) (hj : j < nx) :
    (defects J (fun r => (F.reversed nx).f (ocX nx (ocReversed P N nx nu np d) r) (ocU P N nx nu (ocReversed P N nx nu np d) r) (ocP P N nx nu np (ocReversed P N nx nu np d)))
      (ocX nx (ocReversed P N nx nu np d)) N nx (i * N) ((diff (reversedTimes T t)).getD i 0)).getD (k * nx + j) 0 =
    -(defects J (fun r => F.f (ocX nx d r) (ocU P N nx nu d r) (ocP P N nx nu np d)) (ocX nx d) N nx ((P - 1 - i) * N) ((diff t).getD (P - 1 - i) 0)).getD
      ((N - 1 - k) * nx + j) 0 := by
  obtain ⟨-, hx, hu, hp⟩ := ocReversed_rows (P := P) (N := N) (nx := nx) (nu := nu) (np := np) d
  have hl' : (reversedTimes T t).length = P + 1 := by simp [reversedTimes, hl]
  have hbl : ∀ l ≤ N, i * N + l ≤ P * N ∧ P * N - (i * N + l) = (P - 1 - i) * N + (N - l) := fun l hlN => by
    have : P * N = (P - 1 - i) * N + i * N + N := by rw [← Nat.add_mul, ← Nat.succ_mul]; congr 1; omega
    omega
  rw [defects_getD _ _ _ _ _ hk hj, defects_getD _ _ _ _ _ (by omega) hj, Nat.add_assoc (i * N), hx _ (hbl (k + 1) hk).1, hx _ (hbl k hk.le).1, (hbl (k + 1) hk).2,
    (hbl k hk.le).2, show (P - 1 - i) * N + (N - 1 - k) + 1 = (P - 1 - i) * N + (N - k) by omega, show N - (k + 1) = N - 1 - k by omega,
    ← sum_flip (fun l => ((J.getD (N - 1 - k) []).getD l 0 * (F.f (ocX nx d ((P - 1 - i) * N + l)) (ocU P N nx nu d ((P - 1 - i) * N + l)) (ocP P N nx nu np d)).getD j 0))]
  have es : ∀ l ∈ Finset.range (N + 1), (J.getD k []).getD l 0 * ((F.reversed nx).f (ocX nx (ocReversed P N nx nu np d) (i * N + l))
      (ocU P N nx nu (ocReversed P N nx nu np d) (i * N + l)) (ocP P N nx nu np (ocReversed P N nx nu np d))).getD j 0 =
      -((J.getD (N - 1 - k) []).getD (N - l) 0 * (F.f (ocX nx d ((P - 1 - i) * N + (N - l))) (ocU P N nx nu d ((P - 1 - i) * N + (N - l))) (ocP P N nx nu np d)).getD j 0) := by
    intro l hlN
    have hlN : l ≤ N := by have := Finset.mem_range.1 hlN; omega
    rw [hx _ (hbl l hlN).1, hu _ (hbl l hlN).1, (hbl l hlN).2, hp, hJ k hk l hlN]
    change _ * ((F.f _ _ _).map (- ·)).getD j 0 = _
    rw [getD_map_neg]
    ring
  rw [Finset.sum_congr rfl es, Finset.sum_neg_distrib, diff_getD (by omega), diff_getD (by omega), reversedTimes_getD hl (by omega), reversedTimes_getD hl (by omega),
    show P - 1 - i + 1 = P - i by omega, show P - (i + 1) = P - 1 - i by omega]
  ring

/-- The numbers that the user's functions return. -/
theorem oc_lengths {A : SymArith X} {ev : X → Env → ℝ} (hA : ArithOK A ev) {U : OCUser X} {F : OCFunctions} {nx nu np ng nh : Nat}
    (hU : OCDenotes ev U F nx nu np ng nh) : (∀ x u p, x.length = nx → u.length = nu → p.length = np → (F.g x u p).length = ng) ∧
      ∀ xe p, xe.length = 2 * nx → p.length = np → (F.h xe p).length = nh := by
  have e : ∀ l : List ℝ, (l.map A.num).map (ev · fun _ _ => 0) = l := fun l => by
    rw [List.map_map]
    conv_rhs => rw [← List.map_id l]
    exact List.map_congr_left fun a _ => hA.num a _
  constructor
  · intro x u p hx hu hp
    have h := hU.g (x.map A.num) (u.map A.num) (p.map A.num) (fun _ _ => 0) (by simpa using hx) (by simpa using hu) (by simpa using hp)
    rw [e, e, e] at h
    rw [← h, List.length_map]
    exact hU.leng _ _ _ (by simpa using hx) (by simpa using hu) (by simpa using hp)
  · intro x p hx hp
    have h := hU.h (x.map A.num) (p.map A.num) (fun _ _ => 0) (by simpa using hx) (by simpa using hp)
    rw [e, e] at h
    rw [← h, List.length_map]
    exact hU.lenh _ _ (by simpa using hx) (by simpa using hp)

/-- The parts of the constraints. -/
theorem ocConstraints_parts {F : OCFunctions} {J : List (List ℝ)} {len : List ℝ} {P N nx nu np ng nh : Nat} {d : List ℝ}
    (hg : ∀ x u p, x.length = nx → u.length = nu → p.length = np → (F.g x u p).length = ng) (hh : ∀ xe p, xe.length = 2 * nx → p.length = np → (F.h xe p).length = nh) :
    (ocConstraints F J len P N nx nu np d).length = P * N * nx + (P * N + 1) * ng + nh ∧
    (∀ i < P, ∀ k < N, ∀ j < nx, (ocConstraints F J len P N nx nu np d).getD ((i * N + k) * nx + j) 0 =
      (defects J (fun r => F.f (ocX nx d r) (ocU P N nx nu d r) (ocP P N nx nu np d)) (ocX nx d) N nx (i * N) (len.getD i 0)).getD (k * nx + j) 0) ∧
    (∀ r ≤ P * N, ∀ j < ng, (ocConstraints F J len P N nx nu np d).getD (P * N * nx + r * ng + j) 0 =
      (F.g (ocX nx d r) (ocU P N nx nu d r) (ocP P N nx nu np d)).getD j 0) ∧
    ∀ j < nh, (ocConstraints F J len P N nx nu np d).getD (P * N * nx + (P * N + 1) * ng + j) 0 =
      (F.h (ocX nx d 0 ++ ocX nx d (P * N)) (ocP P N nx nu np d)).getD j 0 := by
  unfold ocConstraints
  set D := (List.range P).flatMap fun i => defects J (fun r => F.f (ocX nx d r) (ocU P N nx nu d r) (ocP P N nx nu np d)) (ocX nx d) N nx (i * N) (len.getD i 0) with hD
  set G := (List.range (P * N + 1)).flatMap fun r => F.g (ocX nx d r) (ocU P N nx nu d r) (ocP P N nx nu np d) with hG
  obtain ⟨D1, D2⟩ := flatMap_getElem? (n := N * nx) P (g := fun i => defects J (fun r => F.f (ocX nx d r) (ocU P N nx nu d r) (ocP P N nx nu np d)) (ocX nx d) N nx (i * N)
    (len.getD i 0)) fun i _ => defects_length ..
  obtain ⟨G1, G2⟩ := flatMap_getElem? (n := ng) (P * N + 1) (g := fun r => F.g (ocX nx d r) (ocU P N nx nu d r) (ocP P N nx nu np d)) fun r _ =>
    hg _ _ _ (rowAt_length ..) (rowAt_length ..) (rowAt_length ..)
  rw [← hD] at D1 D2
  rw [← hG] at G1 G2
  have hH : (F.h (ocX nx d 0 ++ ocX nx d (P * N)) (ocP P N nx nu np d)).length = nh :=
    hh _ _ (by rw [List.length_append]; simp only [ocX, rowAt_length]; omega) (rowAt_length ..)
  rw [← Nat.mul_assoc] at D1
  refine ⟨by simp only [List.length_append, D1, G1, hH], fun i hi k hk j hj => ?_, fun r hr j hj => ?_, fun j hj => ?_⟩
  · have hkj := mul_add_lt hk hj
    have := mul_add_lt hi hkj
    have e : (i * N + k) * nx + j = i * (N * nx) + (k * nx + j) := by ring
    rw [List.getD_eq_getElem?_getD, List.append_assoc, List.getElem?_append_left (by rw [D1, e, Nat.mul_assoc]; omega), e, D2 i hi _ hkj, ← List.getD_eq_getElem?_getD]
  · have hrj : r * ng + j < (P * N + 1) * ng := mul_add_lt (by omega) hj
    rw [List.getD_eq_getElem?_getD, List.append_assoc, List.getElem?_append_right (by omega), List.getElem?_append_left (by rw [G1, D1]; omega),
      show P * N * nx + r * ng + j - D.length = r * ng + j by omega, G2 r (by omega) j hj, List.getD_eq_getElem?_getD]
  · rw [List.getD_eq_getElem?_getD, List.getElem?_append_right (by rw [List.length_append]; omega), List.length_append,
      show P * N * nx + (P * N + 1) * ng + j - (D.length + G.length) = j by omega, List.getD_eq_getElem?_getD]

/-- **C91.** An optimal control model, and the one with time running backwards: with the times `T - t`, a decision vector with all states and inputs in reverse order has the
cost of the original one, its path constraints in reverse order, its end constraints, and minus its defects, in reverse order. -/
theorem C91_oc {A : SymArith X} {ev : X → Env → ℝ} (hA : ArithOK A ev) (U U' : OCUser X) (F : OCFunctions) {xn un pn : List String} {ng nh N : Nat}
    (hU : OCDenotes ev U F xn.length un.length pn.length ng nh) (hU' : OCDenotes ev U' (F.reversed xn.length) xn.length un.length pn.length ng nh)
    (hN : (N : Int) + 1 = U.order) (ho : U'.order = U.order) (hN1 : 1 ≤ N) {vars : Dict String SymVar} (hv : ColVars vars xn un pn) {decision : List String}
    (hd : DecisionOK vars ["x", "u", "p", "xp", "up", "xe"] ["piece_len"] decision) {iter : String → List String} (hi : OrdersOK iter ocWrt) :
    ∃ c c', symocInit A U iter vars decision = .ok c ∧ symocInit A U' iter vars decision = .ok c' ∧
      ∀ codegen codegen' : SymFn X → List (NDArray ℝ) → NDArray ℝ,
      (∀ name g, Dict.get? c.model.funcs name = some g → CodegenOK ev (shapeOf c.vars) codegen g) →
      (∀ name g, Dict.get? c'.model.funcs name = some g → CodegenOK ev (shapeOf c'.vars) codegen' g) →
      ∃ m m', symocGen codegen U c = .ok m ∧ symocGen codegen' U' c' = .ok m' ∧
      ∀ (T : ℝ) (t : NDArray ℝ) (P : Nat), 1 ≤ P → t.shape = [P + 1] → t.WF → t.data.Pairwise (· < ·) →
      ∃ q q', ocProblem m t = .ok q ∧ ocProblem m' ⟨t.shape, reversedTimes T t.data⟩ = .ok q' ∧ q.prob.ndec = (P * N + 1) * (xn.length + un.length) + pn.length ∧ q'.prob.ndec = q.prob.ndec ∧
      ∀ d : List ℝ, d.length = q.prob.ndec → (ocReversed P N xn.length un.length pn.length d).length = q'.prob.ndec ∧
        ∃ cost cv cv', q.prob.obj d = .ok cost ∧ q'.prob.obj (ocReversed P N xn.length un.length pn.length d) = .ok cost ∧
          q.prob.constr d = .ok cv ∧ q'.prob.constr (ocReversed P N xn.length un.length pn.length d) = .ok cv' ∧
          cv.length = P * N * xn.length + (P * N + 1) * ng + nh ∧ cv'.length = cv.length ∧
          (∀ r < P * N, ∀ j < xn.length, cv'.getD (r * xn.length + j) 0 = -cv.getD ((P * N - 1 - r) * xn.length + j) 0) ∧
          (∀ r ≤ P * N, ∀ j < ng, cv'.getD (P * N * xn.length + r * ng + j) 0 = cv.getD (P * N * xn.length + (P * N - r) * ng + j) 0) ∧
          ∀ j < nh, cv'.getD (P * N * xn.length + (P * N + 1) * ng + j) 0 = cv.getD (P * N * xn.length + (P * N + 1) * ng + j) 0 := by
  obtain ⟨c, h1, h2, h3⟩ := C70_oc hA U F hU hN hN1 hv hd hi
  obtain ⟨c', h1', h2', h3'⟩ := C70_oc hA U' (F.reversed xn.length) hU' (by rw [ho]; exact hN) hN1 hv hd hi
  rw [ho] at h2'
  have hcol : c'.col = c.col := Except.ok.inj (h2'.symm.trans h2)
  refine ⟨c, c', h1, h1', fun codegen codegen' hcg hcg' => ?_⟩
  obtain ⟨m, s, g1, -, -, -, -, -, h4⟩ := h3 codegen hcg
  obtain ⟨m', s', g1', -, -, -, -, -, h4'⟩ := h3' codegen' hcg'
  refine ⟨m, m', g1, g1', fun T t P hP hs hw hinc => ?_⟩
  have hl : t.data.length = P + 1 := by rw [hw, hs]; simp
  obtain ⟨q, q1, q2, q3⟩ := h4 t P hP hs hw hinc
  obtain ⟨q', q1', q2', q3'⟩ := h4' ⟨t.shape, reversedTimes T t.data⟩ P hP hs (by
    change (reversedTimes T t.data).length = t.shape.prod
    rw [← hw]; simp [reversedTimes]) (by
    change (reversedTimes T t.data).Pairwise (· < ·)
    rw [reversedTimes, List.pairwise_reverse, List.pairwise_map]
    exact hinc.imp fun h => by linarith)
  obtain ⟨col, N', hcol', hN', -, -, hK, hJ⟩ := C91_points (n := U.order) (by omega)
  obtain rfl : N' = N := by omega
  obtain rfl : col = c.col := Except.ok.inj (hcol'.symm.trans h2)
  refine ⟨q, q', q1, q1', q2, by rw [q2, q2'], fun d hdl => ?_⟩
  obtain ⟨r1, rx, ru, rp⟩ := ocReversed_rows (P := P) (N := N') (nx := xn.length) (nu := un.length) (np := pn.length) d
  have hdl' : (ocReversed P N' xn.length un.length pn.length d).length = q'.prob.ndec := by rw [r1, q2']
  obtain ⟨o1, k1, -⟩ := q3 d hdl
  obtain ⟨o1', k1', -⟩ := q3' _ hdl'
  rw [hcol, ocCost_reversed F T hl hK] at o1'
  rw [hcol] at k1'
  obtain ⟨lg, lh⟩ := oc_lengths hA hU
  obtain ⟨lg', lh'⟩ := oc_lengths hA hU'
  obtain ⟨p1, p2, p3, p4⟩ := ocConstraints_parts (F := F) (J := c.col.J) (len := diff t.data) (P := P) (N := N') (d := d) lg lh
  obtain ⟨p1', p2', p3', p4'⟩ := ocConstraints_parts (F := F.reversed xn.length) (J := c.col.J) (len := diff (reversedTimes T t.data)) (P := P) (N := N')
    (d := ocReversed P N' xn.length un.length pn.length d) lg' lh'
  refine ⟨hdl', _, _, _, o1, o1', k1, k1', p1, by rw [p1, p1'], fun r hr j hj => ?_, fun r hr j hj => ?_, fun j hj => ?_⟩
  · obtain ⟨i, k, hiP, hk, rfl⟩ : ∃ i k, i < P ∧ k < N' ∧ r = i * N' + k :=
      ⟨r / N', r % N', Nat.div_lt_of_lt_mul (by rwa [Nat.mul_comm]), Nat.mod_lt _ hN1, (Nat.div_add_mod' r N').symm⟩
    have e : P * N' - 1 - (i * N' + k) = (P - 1 - i) * N' + (N' - 1 - k) := by
      have : P * N' = (P - 1 - i) * N' + i * N' + N' := by rw [← Nat.add_mul, ← Nat.succ_mul]; congr 1; omega
      omega
    rw [p2' i hiP k hk j hj, e, p2 _ (by omega) _ (by omega) j hj]
    exact ocDefect_reversed F T hl hJ d hiP hk hj
  · rw [p3' r hr j hj, p3 _ (by omega) j hj, rx r hr, ru r hr, rp]
    rfl
  · rw [p4' j hj, p4 j hj, rp, rx 0 (by omega), rx (P * N') le_rfl, Nat.sub_zero, Nat.sub_self]
    change (F.h (swapEnds _ _) _).getD _ _ = _
    rw [swapEnds_append (ocX_length ..)]

/-! ### The pendulum, backwards -/

namespace Pendulum
open SExpr

noncomputable def backUser : OCUser SExpr where
  order := 3
  f x u p := (user.f x u p).map (mul (const (-1)))
  L := user.L
  M xe p := user.M (xe.drop 2 ++ xe.take 2) p
  g := user.g
  h xe p := user.h (xe.drop 2 ++ xe.take 2) p

theorem back_denotes : OCDenotes ev backUser (functions.reversed 2) 2 1 1 1 3 where
  lenf := fun _ _ _ _ _ _ => rfl
  leng := fun _ _ _ _ _ _ => rfl
  lenh := fun _ _ _ _ => rfl
  f := fun x u p env hx hu hp => by
    change ((user.f x u p).map (mul (const (-1)))).map (ev · env) = (functions.f _ _ _).map (- ·)
    rw [← denotes.f x u p env hx hu hp, List.map_map, List.map_map]
    exact List.map_congr_left fun a _ => by simp [ev]
  L := denotes.L
  M := fun xe p env hx hp => by
    have := denotes.M (xe.drop 2 ++ xe.take 2) p env (by simp; omega) hp
    rwa [List.map_append, List.map_drop, List.map_take] at this
  g := denotes.g
  h := fun xe p env hx hp => by
    have := denotes.h (xe.drop 2 ++ xe.take 2) p env (by simp; omega) hp
    rwa [List.map_append, List.map_drop, List.map_take] at this

/-- All hypotheses hold; a feasible swing-up becomes a feasible motion of the reversed pendulum at the same cost. -/
example : ∃ c c', symocInit SExpr.arith user iter vars ["xe", "y"] = .ok c ∧ symocInit SExpr.arith backUser iter vars ["xe", "y"] = .ok c' ∧
    ∃ m m', symocGen (exprCode (shapeOf c.vars)) user c = .ok m ∧ symocGen (exprCode (shapeOf c'.vars)) backUser c' = .ok m' ∧
    ∃ q q', ocProblem m ⟨[3], [0, 1, 3]⟩ = .ok q ∧ ocProblem m' ⟨[3], [0, 2, 3]⟩ = .ok q' ∧
      ∀ d : List ℝ, d.length = 16 → q'.prob.obj (ocReversed 2 2 2 1 1 d) = q.prob.obj d := by
  obtain ⟨c, c', h1, h1', h2⟩ := C91_oc arith_ok user backUser functions (xn := ["angle", "speed"]) (un := ["torque"]) (pn := ["friction"]) (N := 2) denotes back_denotes
    rfl rfl (by decide) vars_ok (decision := ["xe", "y"]) (by unfold DecisionOK; decide) iter_ok
  obtain ⟨m, m', h3, h3', h4⟩ := h2 (exprCode (shapeOf c.vars)) (exprCode (shapeOf c'.vars)) (fun _ g _ => C66_expr_code _ g) fun _ g _ => C66_expr_code _ g
  obtain ⟨q, q', q1, q1', q2, -, q3⟩ := h4 3 ⟨[3], [0, 1, 3]⟩ 2 (by decide) rfl rfl (by simp)
  have e : reversedTimes 3 [0, 1, 3] = [0, 2, 3] := by norm_num [reversedTimes]
  rw [e] at q1'
  refine ⟨c, c', h1, h1', m, m', h3, h3', q, q', q1, q1', fun d hd => ?_⟩
  obtain ⟨-, cost, cv, cv', o1, o1', -⟩ := q3 d (by rw [q2]; exact hd)
  exact o1'.trans o1.symm

end Pendulum
end Ceacoest
