import Verif.Props.Collocation
import Verif.Props.SymCol

/-! # The kernel of `J` and the energy of noise -/

namespace Ceacoest
open Polynomial Spec Matrix RK

variable {m : Nat}

theorem exists_antideriv_zero (E : ℝ[X]) : ∃ Z : ℝ[X], derivative Z = E ∧ Z.eval 0 = 0 ∧ Z.natDegree ≤ E.natDegree + 1 := by
  refine ⟨∑ i ∈ Finset.range (E.natDegree + 1), C (E.coeff i / (i + 1)) * X ^ (i + 1), ?_, ?_, ?_⟩
  · conv_rhs => rw [E.as_sum_range_C_mul_X_pow]
    rw [derivative_sum]
    refine Finset.sum_congr rfl fun i _ => ?_
    rw [derivative_C_mul_X_pow]
    congr 2
    push_cast
    field_simp
  · simp [eval_finset_sum]
  · refine natDegree_sum_le_of_forall_le _ _ fun i hi => ?_
    refine (natDegree_C_mul_X_pow_le _ _).trans ?_
    have := Finset.mem_range.1 hi
    omega

theorem natDegree_le_of_lt {q : ℝ[X]} {n : Nat} (h : q.degree < (n + 1 : Nat)) : q.natDegree ≤ n := by
  by_cases h0 : q = 0
  · simp [h0]
  · exact Nat.lt_succ_iff.1 ((natDegree_lt_iff_degree_lt h0).2 h)

/-- What is known about a collocation method of order `m + 1`. -/
structure ColOK (col : Collocation ℝ) (m : Nat) : Prop where
  pos : 1 ≤ m
  len : col.points.length = m + 1
  first : col.points.getD 0 0 = 0
  last : col.points.getD m 0 = 1
  nodup : col.points.Nodup
  J : ∀ q : ℝ[X], q.natDegree ≤ m → ∀ k : Fin m,
    ∑ i, col.Jm m k i * q.eval (col.points.getD i 0) = integral q (col.points.getD k 0) (col.points.getD (k + 1) 0)
  K : ∀ q : ℝ[X], q.natDegree ≤ 2 * m - 1 → ∑ i, col.Kv m i * q.eval (col.points.getD i 0) = integral q 0 1
  Kpos : ∀ i, 0 < col.Kv m i

theorem lgl_colOK (hm : 1 ≤ m) {n : Int} (hn : (m : Int) + 1 = n) {col : Collocation ℝ} (h : lglCollocation n = .ok col) : ColOK col m := by
  obtain ⟨hpo, hK⟩ := lgl_points_ok hm hn h
  obtain ⟨col', e1, -, hpos, -⟩ := C63_weights n (by omega)
  obtain rfl : col = col' := Except.ok.inj (h.symm.trans e1)
  obtain ⟨col', e1, e2, -⟩ := C25_exact n (by omega)
  obtain rfl : col = col' := Except.ok.inj (h.symm.trans e1)
  refine ⟨hm, hpo.len, hpo.first, hpo.last, hpo.nodup, fun q hq k => ?_, fun q hq => ?_, fun i => hpos i (by omega)⟩
  · have := hpo.exact q (degree_le_natDegree.trans_lt (by exact_mod_cast Nat.lt_succ_of_le hq)) k k.2
    rw [Finset.sum_range] at this
    exact this
  · have := hK q hq
    rw [Finset.sum_range] at this
    exact this

variable {col : Collocation ℝ}

/-- Samples without increments are those of the derivative of a polynomial that vanishes at all points. -/
theorem ColOK.kernel (h : ColOK col m) {e : Fin (m + 1) → ℝ} (he : col.Jm m *ᵥ e = 0) :
    ∃ Z : ℝ[X], Z.natDegree ≤ m + 1 ∧ (∀ i : Fin (m + 1), Z.eval (col.points.getD i 0) = 0) ∧
      ∀ i : Fin (m + 1), (derivative Z).eval (col.points.getD i 0) = e i := by
  obtain ⟨E, hE, hv⟩ := exists_interp col.points h.nodup h.len e
  have hEd := natDegree_le_of_lt hE
  obtain ⟨Z, hZ, hZ0, hZd⟩ := exists_antideriv_zero E
  refine ⟨Z, by omega, ?_, fun i => by rw [hZ, hv]⟩
  have : ∀ k ≤ m, Z.eval (col.points.getD k 0) = 0 := by
    intro k
    induction k with
    | zero => intro _; rw [h.first, hZ0]
    | succ k ih =>
      intro hk
      have h1 := h.J E hEd ⟨k, by omega⟩
      rw [← hZ, integral_derivative] at h1
      have h2 := congrFun he ⟨k, by omega⟩
      rw [hZ] at h1
      simp only [hv] at h1
      have h3 : (col.Jm m *ᵥ e) ⟨k, by omega⟩ = ∑ i, col.Jm m ⟨k, by omega⟩ i * e i := rfl
      rw [h3, h1, ih (by omega)] at h2
      simpa using h2
  exact fun i => this i (by omega)

/-- The polynomial with the points as simple zeros. -/
noncomputable def nodal (points : List ℝ) : ℝ[X] := (points.map fun r => X - C r).prod

theorem nodal_eval {points : List ℝ} {x : ℝ} (h : x ∈ points) : (nodal points).eval x = 0 := by
  rw [nodal, eval_list_prod, List.map_map, List.prod_eq_zero_iff, List.mem_map]
  exact ⟨x, h, by simp⟩

theorem ColOK.mem (h : ColOK col m) (i : Fin (m + 1)) : col.points.getD i 0 ∈ col.points := by
  have : i.1 < col.points.length := by rw [h.len]; exact i.2
  rw [getD_of_lt _ _ this]
  exact List.getElem_mem _

/-- The samples of polynomials of degree less than `m` are orthogonal to samples without increments, with the weights of the quadrature. -/
theorem ColOK.orth (h : ColOK col m) {e : Fin (m + 1) → ℝ} (he : col.Jm m *ᵥ e = 0) {q : ℝ[X]} (hq : q.natDegree < m) :
    ∑ i, col.Kv m i * (q.eval (col.points.getD i 0) * e i) = 0 := by
  obtain ⟨Z, hZd, hZ, hE⟩ := h.kernel he
  have hd : (derivative Z).natDegree ≤ m := (natDegree_derivative_le Z).trans (by omega)
  have h1 := h.K (q * derivative Z) (natDegree_mul_le.trans (by omega))
  simp only [eval_mul, hE] at h1
  rw [h1]
  have h0 : Z.eval 0 = 0 := by have := hZ 0; rwa [Fin.val_zero, h.first] at this
  have h2 : Z.eval 1 = 0 := by have := hZ (Fin.last m); rwa [Fin.val_last, h.last] at this
  have h3 := integral_derivative (q * Z) 0 1
  rw [derivative_mul, integral_add, eval_mul, eval_mul, h0, h2, mul_zero, mul_zero, sub_zero] at h3
  have h4 : integral (derivative q * Z) 0 1 = 0 := by
    by_cases hz : q.natDegree = 0
    · rw [derivative_of_natDegree_zero hz, zero_mul, integral_zero]
    · rw [← h.K _ (natDegree_mul_le.trans (by have := natDegree_derivative_le q; omega))]
      simp only [eval_mul, hZ, mul_zero, Finset.sum_const_zero]
  linarith

/-- The energy of noise with the given values at the points. -/
noncomputable def energy (K w : Fin (m + 1) → ℝ) : ℝ := ∑ i, K i * w i ^ 2

/-- Every noise has the increments of a polynomial of degree less than `m`. -/
theorem ColOK.exists_poly (h : ColOK col m) (w : Fin (m + 1) → ℝ) :
    ∃ q : ℝ[X], q.natDegree < m ∧ (col.Jm m *ᵥ fun i => q.eval (col.points.getD i 0)) = col.Jm m *ᵥ w := by
  obtain ⟨E, hE, hv⟩ := exists_interp col.points h.nodup h.len w
  obtain ⟨Z, hZ, -⟩ := exists_antideriv_zero E
  obtain ⟨I, hI, hIv⟩ := exists_interp col.points h.nodup h.len fun i => Z.eval (col.points.getD i 0)
  have hId := natDegree_le_of_lt hI
  refine ⟨derivative I, ?_, ?_⟩
  · have := natDegree_derivative_le I
    have := h.pos
    omega
  · funext k
    have h1 := h.J (derivative I) ((natDegree_derivative_le I).trans (by omega)) k
    have h2 := h.J E (natDegree_le_of_lt hE) k
    rw [integral_derivative] at h1
    rw [← hZ, integral_derivative] at h2
    have e1 : col.points.getD (k + 1) 0 = col.points.getD (k.succ : Fin (m + 1)) 0 := by simp
    have e2 : col.points.getD k 0 = col.points.getD (k.castSucc : Fin (m + 1)) 0 := by simp
    rw [e1, e2, hIv, hIv, ← e1, ← e2, ← h2, hZ] at h1
    simp only [hv] at h1
    exact h1

/-- The energy of noise with the increments of a polynomial. -/
theorem ColOK.pythagoras (h : ColOK col m) {q : ℝ[X]} (hq : q.natDegree < m) {w : Fin (m + 1) → ℝ}
    (hw : col.Jm m *ᵥ w = col.Jm m *ᵥ fun i => q.eval (col.points.getD i 0)) :
    energy (col.Kv m) w = energy (col.Kv m) (fun i => q.eval (col.points.getD i 0)) +
      energy (col.Kv m) fun i => w i - q.eval (col.points.getD i 0) := by
  have he : col.Jm m *ᵥ (fun i => w i - q.eval (col.points.getD i 0)) = 0 := by
    have := mulVec_sub (col.Jm m) w fun i => q.eval (col.points.getD i 0)
    rw [hw, sub_self] at this
    exact this
  have := h.orth he hq
  have key : energy (col.Kv m) w - (energy (col.Kv m) (fun i => q.eval (col.points.getD i 0)) +
      energy (col.Kv m) fun i => w i - q.eval (col.points.getD i 0)) =
      2 * ∑ i, col.Kv m i * (q.eval (col.points.getD i 0) * (w i - q.eval (col.points.getD i 0))) := by
    unfold energy
    rw [← Finset.sum_add_distrib, ← Finset.sum_sub_distrib, Finset.mul_sum]
    exact Finset.sum_congr rfl fun i _ => by ring
  rw [this] at key
  linarith

theorem energy_nonneg {K : Fin (m + 1) → ℝ} (hK : ∀ i, 0 < K i) (w : Fin (m + 1) → ℝ) : 0 ≤ energy K w :=
  Finset.sum_nonneg fun i _ => mul_nonneg (hK i).le (sq_nonneg _)

theorem energy_eq_zero {K : Fin (m + 1) → ℝ} (hK : ∀ i, 0 < K i) {w : Fin (m + 1) → ℝ} (h : energy K w = 0) : w = 0 := by
  funext i
  have := (Finset.sum_eq_zero_iff_of_nonneg fun i _ => mul_nonneg (hK i).le (sq_nonneg _)).1 h i (Finset.mem_univ i)
  rcases mul_eq_zero.1 this with h | h
  · exact absurd h (hK i).ne'
  · exact pow_eq_zero_iff two_ne_zero |>.1 h

/-- The first weight. -/
theorem first_weight (hm : 1 ≤ m) {n : Int} (hn : (m : Int) + 1 = n) (h : lglCollocation n = .ok col) :
    col.Kv m 0 = 1 / (m * (m + 1)) := by
  have hc := lgl_colOK hm hn h
  have h0 : (shiftedLeg m).eval 0 = 1 := by
    rw [← coeff_zero_eq_eval_zero, coeff_shiftedLeg]
    simp [legCoef]
  have h1 : (derivative (shiftedLeg m)).eval 0 = -(m * (m + 1)) := by
    rw [← coeff_zero_eq_eval_zero, coeff_derivative, coeff_shiftedLeg]
    have : legCoef m (0 + 1) = (m + 1) * m := by
      rw [legCoef, show Nat.centralBinom (0 + 1) = 2 from rfl, Nat.zero_add, Nat.mul_one, Nat.choose_two_right,
        Nat.div_two_mul_two_of_even (Nat.even_mul_pred_self _), Nat.add_sub_cancel]
    rw [this]
    push_cast
    ring
  obtain ⟨col', e1, -, e2, -⟩ := C25_exact n (by omega)
  obtain rfl : col = col' := Except.ok.inj (h.symm.trans e1)
  obtain ⟨k, rfl⟩ : ∃ k, m = k + 1 := ⟨m - 1, by omega⟩
  have hpts : col.points = 0 :: legDerivRoots (k + 1) ++ [1] := by
    rw [lglPoints, if_neg (by omega), show (n - 1).toNat = k + 1 by omega] at e2
    exact (Except.ok.inj e2).symm
  obtain ⟨c, hc0, hnod⟩ := nodal_eq_lobatto k
  rw [← hpts] at hnod
  change _ = C c * nodal col.points at hnod
  have hz : ∀ i : Fin (k + 1 + 1), i ≠ 0 → ((1 - X) * derivative (shiftedLeg (k + 1))).eval (col.points.getD i 0) = 0 := by
    intro i hi
    have h2 := congrArg (eval (col.points.getD i 0)) hnod
    rw [eval_mul, eval_mul, eval_mul, show eval (col.points.getD i 0) (nodal col.points) = 0 from nodal_eval (hc.mem i), mul_zero,
      eval_X, eval_sub, eval_X, eval_one] at h2
    have h3 : col.points.getD i 0 ≠ 0 := by
      intro e
      exact hi (points_inj col.points hc.nodup hc.len (Finset.mem_univ i) (Finset.mem_univ 0) (e.trans hc.first.symm))
    rw [mul_assoc, mul_eq_zero, or_iff_right h3] at h2
    rw [eval_mul, eval_sub, eval_X, eval_one, ← neg_sub, neg_mul, h2, neg_zero]
  have hK := hc.K ((1 - X) * derivative (shiftedLeg (k + 1))) (natDegree_mul_le.trans (by
    have a1 := natDegree_derivative_le (shiftedLeg (k + 1))
    have a2 := natDegree_one_sub_X
    rw [natDegree_shiftedLeg] at a1
    omega))
  rw [Finset.sum_eq_single 0 (fun i _ hi => by rw [hz i hi, mul_zero]) (by simp)] at hK
  rw [Fin.val_zero, hc.first, eval_mul, h1] at hK
  have hint := integral_derivative ((1 - X) * shiftedLeg (k + 1)) 0 1
  rw [derivative_mul, integral_add, eval_mul, eval_mul, h0] at hint
  have hS := shiftedLeg_orth (k + 1) (-1) (by simp)
  have : derivative (1 - X : ℝ[X]) * shiftedLeg (k + 1) = shiftedLeg (k + 1) * -1 := by simp
  rw [this, hS] at hint
  simp only [eval_sub, eval_one, eval_X] at hint hK
  rw [eq_div_iff (by positivity)]
  linarith

/-- Noise without increments that is nowhere zero, and unique up to a factor. -/
theorem ColOK.kernel_spec (h : ColOK col m) : ∃ e : Fin (m + 1) → ℝ, col.Jm m *ᵥ e = 0 ∧ (∀ i, e i ≠ 0) ∧
    ∀ e', col.Jm m *ᵥ e' = 0 → ∃ c : ℝ, ∀ i, e' i = c * e i := by
  have hdeg : (nodal col.points).natDegree = m + 1 := by
    rw [nodal, ← Multiset.prod_coe, ← Multiset.map_coe, natDegree_multiset_prod_X_sub_C_eq_card, Multiset.coe_card, h.len]
  have hmon : (nodal col.points).Monic := by
    rw [nodal, ← Multiset.prod_coe, ← Multiset.map_coe]
    exact monic_multiset_prod_of_monic _ _ fun r _ => monic_X_sub_C r
  have hroots : (nodal col.points).roots = (col.points : Multiset ℝ) := by
    rw [nodal, ← Multiset.prod_coe, ← Multiset.map_coe, roots_multiset_prod_X_sub_C]
  refine ⟨fun i => (derivative (nodal col.points)).eval (col.points.getD i 0), ?_, ?_, ?_⟩
  · funext k
    have h1 := h.J (derivative (nodal col.points)) ((natDegree_derivative_le _).trans (by omega)) k
    have e1 : col.points.getD (k + 1) 0 = col.points.getD (k.succ : Fin (m + 1)) 0 := by simp
    have e2 : col.points.getD k 0 = col.points.getD (k.castSucc : Fin (m + 1)) 0 := by simp
    rw [integral_derivative, e1, e2, nodal_eval (h.mem _), nodal_eval (h.mem _), sub_zero] at h1
    exact h1
  · intro i h0
    have hd : ¬1 < rootMultiplicity (col.points.getD i 0) (nodal col.points) := by
      rw [← count_roots, hroots, Multiset.coe_count, not_lt]
      exact List.nodup_iff_count_le_one.1 h.nodup _
    exact hd ((one_lt_rootMultiplicity_iff_isRoot hmon.ne_zero).2 ⟨nodal_eval (h.mem i), h0⟩)
  · intro e' he'
    obtain ⟨Z, hZd, hZ, hE⟩ := h.kernel he'
    have hdvd : nodal col.points ∣ Z := by
      by_cases hZ0 : Z = 0
      · rw [hZ0]; exact dvd_zero _
      have hle : (col.points : Multiset ℝ) ≤ Z.roots := by
        rw [Multiset.le_iff_subset (by rw [Multiset.coe_nodup]; exact h.nodup)]
        intro x hx
        rw [mem_roots hZ0]
        obtain ⟨i, hi, rfl⟩ := List.getElem_of_mem (Multiset.mem_coe.1 hx)
        have := hZ ⟨i, by rw [← h.len]; exact hi⟩
        rwa [getD_of_lt _ _ hi] at this
      have := (Multiset.prod_X_sub_C_dvd_iff_le_roots hZ0 (col.points : Multiset ℝ)).2 hle
      rwa [Multiset.map_coe, Multiset.prod_coe] at this
    obtain ⟨w, hw⟩ := hdvd
    have hwd : w.natDegree = 0 := by
      by_cases h0 : w = 0
      · simp [h0]
      rw [hw, hmon.natDegree_mul' h0, hdeg] at hZd
      omega
    rw [eq_C_of_natDegree_eq_zero hwd] at hw
    refine ⟨w.coeff 0, fun i => ?_⟩
    rw [← hE, hw, derivative_mul, derivative_C, mul_zero, add_zero, eval_mul, eval_C, mul_comm]

end Ceacoest
