import Verif.Spec.Collocation
import Verif.Props.SymCol

/-! # Lemmas for C72: collocation defects and piecewise polynomial paths -/

namespace Ceacoest
open Polynomial Spec RK

/-- Antiderivatives of polynomials. -/
theorem exists_antideriv (q : ℝ[X]) : ∃ Q : ℝ[X], derivative Q = q ∧ Q.natDegree ≤ q.natDegree + 1 := by
  refine ⟨∑ k ∈ Finset.range (q.natDegree + 1), C (q.coeff k / (k + 1)) * X ^ (k + 1), ?_, ?_⟩
  · rw [derivative_sum]
    conv_rhs => rw [q.as_sum_range_C_mul_X_pow]
    refine Finset.sum_congr rfl fun k _ => ?_
    rw [derivative_C_mul_X_pow]
    push_cast
    rw [div_mul_cancel₀ _ (by positivity)]
  · refine natDegree_sum_le_of_forall_le _ _ fun k hk => ?_
    refine (natDegree_C_mul_X_pow_le _ _).trans ?_
    have := Finset.mem_range.1 hk
    omega

theorem pointTime_mem {t c : List ℝ} {i l : Nat} (ht : t.getD i 0 < t.getD (i + 1) 0) (hc : 0 ≤ c.getD l 0 ∧ c.getD l 0 ≤ 1) :
    pointTime t c i l ∈ pieceOf t i := by
  unfold pointTime pieceOf
  constructor
  · nlinarith [hc.1]
  · nlinarith [hc.2]

/-- What the points of a method have to be. -/
structure PointsOK (c : List ℝ) (J : List (List ℝ)) (N : Nat) : Prop where
  pos : 1 ≤ N
  len : c.length = N + 1
  first : c.getD 0 0 = 0
  last : c.getD N 0 = 1
  mem : ∀ l ≤ N, 0 ≤ c.getD l 0 ∧ c.getD l 0 ≤ 1
  nodup : c.Nodup
  exact : ∀ q : ℝ[X], q.degree < (N + 1 : Nat) → ∀ k < N,
    ∑ l ∈ Finset.range (N + 1), (J.getD k []).getD l 0 * q.eval (c.getD l 0) = integral q (c.getD k 0) (c.getD (k + 1) 0)

/-- One component on one piece: zero defects mean a polynomial of degree at most `N + 1` with the given values and slopes. -/
theorem defect_iff {c : List ℝ} {J : List (List ℝ)} {N : Nat} (h : PointsOK c J N) (t0 len : ℝ) (hlen : 0 < len) (x r : Nat → ℝ) :
    (∀ k < N, x (k + 1) - x k - (∑ l ∈ Finset.range (N + 1), (J.getD k []).getD l 0 * r l) * len = 0) ↔
      ∃ y : ℝ[X], y.natDegree ≤ N + 1 ∧ (∀ l ≤ N, y.eval (t0 + len * c.getD l 0) = x l) ∧
        ∀ l ≤ N, (derivative y).eval (t0 + len * c.getD l 0) = r l := by
  have lin : ∀ a b : ℝ, (C a + C b * X : ℝ[X]).natDegree ≤ 1 := fun a b => by
    refine (natDegree_add_le _ _).trans ?_
    simp only [natDegree_C, Nat.max_le, Nat.zero_le, true_and]
    exact natDegree_C_mul_le _ _ |>.trans natDegree_X_le
  constructor
  · intro hd
    obtain ⟨q, hq, hv⟩ := exists_interp (m := N) c h.nodup h.len fun i => r i
    obtain ⟨Q, hQ, hQd⟩ := exists_antideriv q
    have hqd : q.natDegree ≤ N := by
      by_cases h0 : q = 0
      · simp [h0]
      · rw [degree_eq_natDegree h0] at hq
        have : q.natDegree < N + 1 := by exact_mod_cast hq
        omega
    -- the path in normalised time
    let w : ℝ[X] := C (x 0 - len * Q.eval 0) + C len * Q
    have hw : ∀ l ≤ N, w.eval (c.getD l 0) = x l := by
      intro l
      induction l with
      | zero => intro _; rw [h.first]; simp [w]
      | succ k ih =>
        intro hk
        have e := hd k (by omega)
        have e2 := h.exact q hq k (by omega)
        rw [← hQ, integral_derivative, hQ] at e2
        have e3 : ∑ l ∈ Finset.range (N + 1), (J.getD k []).getD l 0 * r l = Q.eval (c.getD (k + 1) 0) - Q.eval (c.getD k 0) := by
          rw [← e2]
          refine Finset.sum_congr rfl fun l hl => ?_
          rw [← hv ⟨l, Finset.mem_range.1 hl⟩]
        have ih := ih (by omega)
        simp only [w, eval_add, eval_C, eval_mul] at ih ⊢
        rw [e3] at e
        linarith
    refine ⟨w.comp (C (-t0 / len) + C (1 / len) * X), ?_, fun l hl => ?_, fun l hl => ?_⟩
    · refine natDegree_comp_le.trans ?_
      have : w.natDegree ≤ N + 1 := by
        refine (natDegree_add_le _ _).trans ?_
        simp only [natDegree_C, Nat.max_le, Nat.zero_le, true_and]
        exact (natDegree_C_mul_le _ _).trans (by omega)
      calc _ ≤ (N + 1) * 1 := Nat.mul_le_mul this (lin _ _)
        _ = _ := mul_one _
    · rw [eval_comp, ← hw l hl]
      congr 1
      simp only [eval_add, eval_C, eval_mul, eval_X]
      field_simp
      ring
    · have harg : (C (-t0 / len) + C (1 / len) * X : ℝ[X]).eval (t0 + len * c.getD l 0) = c.getD l 0 := by
        simp only [eval_add, eval_C, eval_mul, eval_X]
        field_simp
        ring
      rw [derivative_comp, eval_mul, eval_comp, harg]
      have : derivative w = C len * q := by simp [w, hQ]
      rw [this]
      simp only [derivative_add, derivative_C, zero_add, derivative_C_mul, derivative_X, mul_one, eval_C, eval_mul]
      rw [hv ⟨l, by omega⟩]
      field_simp
  · rintro ⟨y, hy, hx, hr⟩ k hk
    set w : ℝ[X] := y.comp (C t0 + C len * X) with hw
    have hwv : ∀ s, w.eval s = y.eval (t0 + len * s) := fun s => by simp [hw, eval_comp]
    have hwd : derivative w = C len * (derivative y).comp (C t0 + C len * X) := by rw [hw, derivative_comp]; simp
    have hdeg : (derivative w).degree < (N + 1 : Nat) := by
      by_cases h0 : derivative w = 0
      · rw [h0, degree_zero]; exact WithBot.bot_lt_coe _
      rw [degree_eq_natDegree h0]
      have h1 := natDegree_derivative_le w
      have h2 : w.natDegree ≤ N + 1 := by
        refine natDegree_comp_le.trans ?_
        calc _ ≤ (N + 1) * 1 := Nat.mul_le_mul hy (lin _ _)
          _ = _ := mul_one _
      exact_mod_cast (by omega : (derivative w).natDegree < N + 1)
    have hint := h.exact _ hdeg k hk
    rw [integral_derivative, hwv, hwv, hx k (by omega), hx (k + 1) (by omega)] at hint
    rw [← hint, Finset.sum_mul, sub_eq_zero]
    refine Finset.sum_congr rfl fun l hl => ?_
    rw [hwd, eval_mul, eval_comp, eval_C]
    simp only [eval_add, eval_C, eval_mul, eval_X]
    rw [hr l (by have := Finset.mem_range.1 hl; omega)]
    ring

/-- The derivative of a function that is a polynomial on an interval. -/
theorem poly_deriv_within {a b s v : ℝ} (hab : a < b) (hs : s ∈ Set.Icc a b) {z : ℝ → ℝ} {y : ℝ[X]} (h : ∀ s ∈ Set.Icc a b, z s = y.eval s) :
    HasDerivWithinAt z v (Set.Icc a b) s ↔ (derivative y).eval s = v := by
  have hy : HasDerivWithinAt z ((derivative y).eval s) (Set.Icc a b) s :=
    (y.hasDerivAt s).hasDerivWithinAt.congr (fun s hs => h s hs) (h s hs)
  constructor
  · intro h'
    exact (uniqueDiffOn_Icc hab s hs).eq_deriv _ hy h'
  · rintro rfl
    exact hy

/-- Polynomials that agree at the inner times are pieces of one continuous path. -/
theorem glue {t : List ℝ} {P : Nat} (hP : 1 ≤ P) (ht : ∀ i < P, t.getD i 0 < t.getD (i + 1) 0) (y : Nat → ℝ[X])
    (hy : ∀ i, i + 1 < P → (y i).eval (t.getD (i + 1) 0) = (y (i + 1)).eval (t.getD (i + 1) 0)) :
    ∃ z : ℝ → ℝ, Continuous z ∧ ∀ i < P, ∀ s ∈ pieceOf t i, z s = (y i).eval s := by
  induction P with
  | zero => omega
  | succ P ih =>
    rcases Nat.eq_zero_or_pos P with rfl | hpos
    · refine ⟨fun s => (y 0).eval s, (y 0).continuous, fun i hi s _ => ?_⟩
      rw [show i = 0 by omega]
    · obtain ⟨z, hz, hz'⟩ := ih hpos (fun i hi => ht i (by omega)) fun i hi => hy i (by omega)
      have hmono : ∀ i ≤ P, t.getD i 0 ≤ t.getD P 0 := by
        intro i hi
        induction hi using Nat.decreasingInduction with
        | self => exact le_rfl
        | of_succ k hk ih' => exact (ht k (by omega)).le.trans ih'
      have hagree : z (t.getD P 0) = (y P).eval (t.getD P 0) := by
        obtain ⟨k, rfl⟩ : ∃ k, P = k + 1 := ⟨P - 1, by omega⟩
        rw [hz' k (by omega) _ ⟨(ht k (by omega)).le, le_rfl⟩]
        exact hy k (by omega)
      refine ⟨fun s => if s ≤ t.getD P 0 then z s else (y P).eval s, ?_, fun i hi s hs => ?_⟩
      · refine Continuous.if_le hz (y P).continuous continuous_id continuous_const ?_
        intro s hs
        obtain rfl : s = t.getD P 0 := hs
        exact hagree
      · rcases Nat.lt_succ_iff_lt_or_eq.1 hi with hi | rfl
        · have : s ≤ t.getD P 0 := hs.2.trans (hmono (i + 1) (by omega))
          simp only [this, if_true]
          exact hz' i hi s hs
        · by_cases hle : s ≤ t.getD i 0
          · obtain rfl : s = t.getD i 0 := le_antisymm hle hs.1
            simp only [le_refl, if_true]
            exact hagree
          · simp only [hle, if_false]

theorem defects_zero_iff {J : List (List ℝ)} {rhs x : Nat → List ℝ} {N nx s : Nat} {len : ℝ} :
    (∀ a ∈ defects J rhs x N nx s len, a = 0) ↔ ∀ j < nx, ∀ k < N, (x (s + k + 1)).getD j 0 - (x (s + k)).getD j 0 -
      (∑ l ∈ Finset.range (N + 1), (J.getD k []).getD l 0 * (rhs (s + l)).getD j 0) * len = 0 := by
  unfold defects
  simp only [List.mem_flatMap, List.mem_map, List.mem_range]
  constructor
  · intro h j hj k hk
    exact h _ ⟨k, hk, j, hj, rfl⟩
  · rintro h a ⟨k, hk, j, hj, rfl⟩
    exact h j hj k hk

/-- Zero defects of all pieces mean that there is a collocation path. -/
theorem defects_path {c : List ℝ} {J : List (List ℝ)} {N : Nat} (h : PointsOK c J N) {t : List ℝ} {P nx : Nat} (hP : 1 ≤ P)
    (ht : ∀ i < P, t.getD i 0 < t.getD (i + 1) 0) (rhs x : Nat → Nat → List ℝ) (hx : ∀ i, i + 1 < P → x i N = x (i + 1) 0) :
    (∀ i < P, ∀ a ∈ defects J (rhs i) (x i) N nx 0 (t.getD (i + 1) 0 - t.getD i 0), a = 0) ↔
      ∃ z, CollocationPath t c rhs x P N nx z := by
  have e0 : ∀ i, pointTime t c i 0 = t.getD i 0 := fun i => by rw [pointTime, h.first]; ring
  have eN : ∀ i, pointTime t c i N = t.getD (i + 1) 0 := fun i => by rw [pointTime, h.last]; ring
  simp only [defects_zero_iff, Nat.zero_add]
  constructor
  · intro hd
    have : ∀ j, ∃ z : ℝ → ℝ, j < nx → Continuous z ∧ ∀ i < P, ∃ y : ℝ[X], y.natDegree ≤ N + 1 ∧ (∀ s ∈ pieceOf t i, z s = y.eval s) ∧
        (∀ l ≤ N, y.eval (pointTime t c i l) = (x i l).getD j 0) ∧ ∀ l ≤ N, (derivative y).eval (pointTime t c i l) = (rhs i l).getD j 0 := by
      intro j
      by_cases hj : j < nx
      · have hy : ∀ i, ∃ y : ℝ[X], i < P → y.natDegree ≤ N + 1 ∧ (∀ l ≤ N, y.eval (pointTime t c i l) = (x i l).getD j 0) ∧
            ∀ l ≤ N, (derivative y).eval (pointTime t c i l) = (rhs i l).getD j 0 := by
          intro i
          by_cases hi : i < P
          · obtain ⟨y, hy⟩ := (defect_iff h (t.getD i 0) (t.getD (i + 1) 0 - t.getD i 0) (sub_pos.2 (ht i hi)) (fun l => (x i l).getD j 0)
              fun l => (rhs i l).getD j 0).1 (hd i hi j hj)
            exact ⟨y, fun _ => hy⟩
          · exact ⟨0, fun h => absurd h hi⟩
        choose y hy using hy
        obtain ⟨z, hz, hz'⟩ := glue hP ht y fun i hi => by
          rw [← eN i, (hy i (by omega)).2.1 N le_rfl, eN, ← e0 (i + 1), (hy (i + 1) hi).2.1 0 (by omega), hx i hi]
        exact ⟨z, fun _ => ⟨hz, fun i hi => ⟨y i, (hy i hi).1, hz' i hi, (hy i hi).2⟩⟩⟩
      · exact ⟨0, fun h => absurd h hj⟩
    choose z hz using this
    refine ⟨z, fun j hj => (hz j hj).1, fun i hi j hj => ?_, fun i hi l hl j hj => ?_, fun i hi l hl j hj => ?_⟩
    · obtain ⟨y, h1, h2, -⟩ := (hz j hj).2 i hi
      exact ⟨y, h1, h2⟩
    · obtain ⟨y, h1, h2, h3, -⟩ := (hz j hj).2 i hi
      rw [h2 _ (pointTime_mem (ht i hi) (h.mem l hl)), h3 l hl]
    · obtain ⟨y, h1, h2, h3, h4⟩ := (hz j hj).2 i hi
      exact (poly_deriv_within (ht i hi) (pointTime_mem (ht i hi) (h.mem l hl)) h2).2 (h4 l hl)
  · rintro ⟨z, hz⟩ i hi j hj
    obtain ⟨y, h1, h2⟩ := hz.poly i hi j hj
    refine (defect_iff h (t.getD i 0) (t.getD (i + 1) 0 - t.getD i 0) (sub_pos.2 (ht i hi)) (fun l => (x i l).getD j 0)
      fun l => (rhs i l).getD j 0).2 ⟨y, h1, fun l hl => ?_, fun l hl => ?_⟩
    · exact (h2 _ (pointTime_mem (ht i hi) (h.mem l hl))).symm.trans (hz.value i hi l hl j hj)
    · exact (poly_deriv_within (ht i hi) (pointTime_mem (ht i hi) (h.mem l hl)) h2).1 (hz.ode i hi l hl j hj)

/-- The quadrature of a polynomial over a piece is its integral. -/
theorem quad_piece {c K : List ℝ} {N M : Nat}
    (hK : ∀ q : ℝ[X], q.natDegree ≤ M → ∑ l ∈ Finset.range (N + 1), K.getD l 0 * q.eval (c.getD l 0) = integral q 0 1) {q : ℝ[X]}
    (hq : q.natDegree ≤ M) (t0 len : ℝ) :
    (∑ l ∈ Finset.range (N + 1), q.eval (t0 + len * c.getD l 0) * K.getD l 0) * len = integral q t0 (t0 + len) := by
  have hd : (q.comp (C t0 + C len * X)).natDegree ≤ M := by
    refine natDegree_comp_le.trans ?_
    have : (C t0 + C len * X : ℝ[X]).natDegree ≤ 1 := by
      refine (natDegree_add_le _ _).trans ?_
      simp only [natDegree_C, Nat.max_le, Nat.zero_le, true_and]
      exact natDegree_C_mul_le _ _ |>.trans natDegree_X_le
    nlinarith
  have hq := hK _ hd
  simp only [eval_comp, eval_add, eval_mul, eval_C, eval_X] at hq
  rw [Finset.sum_congr rfl fun l _ => mul_comm _ _, hq, integral, mul_comm]
  simp only [eval_comp, eval_add, eval_mul, eval_C, eval_X]
  rw [← smul_eq_mul, intervalIntegral.smul_integral_comp_add_mul (f := fun s => q.eval s), integral]
  congr 1 <;> ring

end Ceacoest
