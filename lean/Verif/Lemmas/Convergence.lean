import Verif.Lemmas.Collocation
import Verif.Spec.Convergence
import Mathlib.Analysis.Calculus.MeanValue
import Mathlib.Analysis.Calculus.Taylor
import Mathlib.Topology.MetricSpace.Contracting

/-! # Stability and consistency of the collocation equations -/

namespace Ceacoest
open Polynomial Spec RK

theorem jnorm_nonneg (J : List (List ℝ)) (N : Nat) : 0 ≤ jnorm J N := Finset.sum_nonneg fun _ _ => Finset.sum_nonneg fun _ _ => abs_nonneg _

/-- The defects of a function whose slope is almost a polynomial. -/
theorem truncation {c : List ℝ} {J : List (List ℝ)} {N : Nat} (h : PointsOK c J N) {t0 len : ℝ} (hlen : 0 < len) {z w : ℝ → ℝ}
    (hz : ∀ s ∈ Set.Icc t0 (t0 + len), HasDerivWithinAt z (w s) (Set.Icc t0 (t0 + len)) s) {T : ℝ[X]} (hT : T.natDegree ≤ N) {δ : ℝ}
    (hδ : ∀ s ∈ Set.Icc t0 (t0 + len), |w s - T.eval s| ≤ δ) {k : Nat} (hk : k < N) :
    |z (t0 + len * c.getD (k + 1) 0) - z (t0 + len * c.getD k 0) -
      (∑ l ∈ Finset.range (N + 1), (J.getD k []).getD l 0 * w (t0 + len * c.getD l 0)) * len| ≤
      δ * len * (1 + ∑ l ∈ Finset.range (N + 1), |(J.getD k []).getD l 0|) := by
  obtain ⟨Y, hY, hYd⟩ := exists_antideriv T
  have hmem : ∀ l ≤ N, t0 + len * c.getD l 0 ∈ Set.Icc t0 (t0 + len) := by
    intro l hl
    obtain ⟨h1, h2⟩ := h.mem l hl
    constructor <;> nlinarith
  have hδ0 : 0 ≤ δ := (abs_nonneg _).trans (hδ _ (hmem 0 (by omega)))
  have hD := (defect_iff h t0 len hlen (fun l => Y.eval (t0 + len * c.getD l 0)) (fun l => T.eval (t0 + len * c.getD l 0))).2
    ⟨Y, hYd.trans (by omega), fun _ _ => rfl, fun _ _ => by rw [hY]⟩ k hk
  have hdiff : ∀ s ∈ Set.Icc t0 (t0 + len), HasDerivWithinAt (fun s => z s - Y.eval s) (w s - T.eval s) (Set.Icc t0 (t0 + len)) s := by
    intro s hs
    have := Y.hasDerivAt s
    rw [hY] at this
    exact (hz s hs).sub this.hasDerivWithinAt
  have hmv := (convex_Icc t0 (t0 + len)).norm_image_sub_le_of_norm_hasDerivWithin_le hdiff hδ (hmem k (by omega)) (hmem (k + 1) (by omega))
  have hc : ‖t0 + len * c.getD (k + 1) 0 - (t0 + len * c.getD k 0)‖ ≤ len := by
    obtain ⟨h1, h2⟩ := h.mem k (by omega)
    obtain ⟨h3, h4⟩ := h.mem (k + 1) (by omega)
    rw [Real.norm_eq_abs, abs_le]
    constructor <;> nlinarith
  have h1 := hmv.trans (mul_le_mul_of_nonneg_left hc hδ0)
  rw [Real.norm_eq_abs] at h1
  have h2 : |∑ l ∈ Finset.range (N + 1), (J.getD k []).getD l 0 * (w (t0 + len * c.getD l 0) - T.eval (t0 + len * c.getD l 0))| ≤
      (∑ l ∈ Finset.range (N + 1), |(J.getD k []).getD l 0|) * δ := by
    rw [Finset.sum_mul]
    refine (Finset.abs_sum_le_sum_abs _ _).trans (Finset.sum_le_sum fun l hl => ?_)
    rw [abs_mul]
    exact mul_le_mul_of_nonneg_left (hδ _ (hmem l (by have := Finset.mem_range.1 hl; omega))) (abs_nonneg _)
  have e : z (t0 + len * c.getD (k + 1) 0) - z (t0 + len * c.getD k 0) -
      (∑ l ∈ Finset.range (N + 1), (J.getD k []).getD l 0 * w (t0 + len * c.getD l 0)) * len =
      (z (t0 + len * c.getD (k + 1) 0) - Y.eval (t0 + len * c.getD (k + 1) 0) - (z (t0 + len * c.getD k 0) - Y.eval (t0 + len * c.getD k 0))) -
      (∑ l ∈ Finset.range (N + 1), (J.getD k []).getD l 0 * (w (t0 + len * c.getD l 0) - T.eval (t0 + len * c.getD l 0))) * len := by
    simp only [mul_sub, Finset.sum_sub_distrib]
    linear_combination hD
  rw [e]
  refine (abs_sub _ _).trans ?_
  rw [abs_mul, abs_of_pos hlen]
  nlinarith [mul_le_mul_of_nonneg_right h2 hlen.le]

/-- The slope of smooth functions is almost a polynomial. -/
theorem smooth_almost_poly {w : ℝ → ℝ} {a b B : ℝ} (hab : a ≤ b) {N : Nat} (hw : ContDiffOn ℝ (N + 1) w (Set.Icc a b))
    (hB : ∀ s ∈ Set.Icc a b, |iteratedDerivWithin (N + 1) w (Set.Icc a b) s| ≤ B) :
    ∃ T : ℝ[X], T.natDegree ≤ N ∧ ∀ s ∈ Set.Icc a b, |w s - T.eval s| ≤ B * (b - a) ^ (N + 1) / (N.factorial : ℝ) := by
  refine ⟨∑ k ∈ Finset.range (N + 1), C ((k.factorial : ℝ)⁻¹ * iteratedDerivWithin k w (Set.Icc a b) a) * (X - C a) ^ k, ?_, fun s hs => ?_⟩
  · refine natDegree_sum_le_of_forall_le _ _ fun k hk => ?_
    have hk := Finset.mem_range.1 hk
    refine (natDegree_C_mul_le _ _).trans ((natDegree_pow_le).trans ?_)
    rw [natDegree_X_sub_C]
    omega
  · have h := taylor_mean_remainder_bound hab hw hs hB
    have e : taylorWithinEval w N (Set.Icc a b) a s =
        (∑ k ∈ Finset.range (N + 1), C ((k.factorial : ℝ)⁻¹ * iteratedDerivWithin k w (Set.Icc a b) a) * (X - C a) ^ k : ℝ[X]).eval s := by
      rw [taylor_within_apply, eval_finset_sum]
      refine Finset.sum_congr rfl fun k _ => ?_
      simp only [eval_mul, eval_C, eval_pow, eval_sub, eval_X, smul_eq_mul]
      ring
    rw [← e]
    refine h.trans ?_
    have hB0 : 0 ≤ B := (abs_nonneg _).trans (hB s hs)
    have : (s - a) ^ (N + 1) ≤ (b - a) ^ (N + 1) := pow_le_pow_left₀ (by linarith [hs.1]) (by linarith [hs.2]) _
    gcongr

/-- Errors inside a piece. -/
theorem piece_error {c : List ℝ} {J : List (List ℝ)} {N : Nat} (h : PointsOK c J N) {t0 len : ℝ} (hlen : 0 < len) {nx : Nat} {x r : Nat → Nat → ℝ}
    {z w : Nat → ℝ → ℝ} (hd : ∀ k < N, ∀ j < nx, x (k + 1) j - x k j - (∑ l ∈ Finset.range (N + 1), (J.getD k []).getD l 0 * r l j) * len = 0)
    (hz : ∀ j < nx, ∀ s ∈ Set.Icc t0 (t0 + len), HasDerivWithinAt (z j) (w j s) (Set.Icc t0 (t0 + len)) s) {δ : ℝ}
    (hδ : ∀ j < nx, ∃ T : ℝ[X], T.natDegree ≤ N ∧ ∀ s ∈ Set.Icc t0 (t0 + len), |w j s - T.eval s| ≤ δ) {Lip E : ℝ}
    (hr : ∀ l ≤ N, ∀ j < nx, |r l j - w j (t0 + len * c.getD l 0)| ≤ Lip * E) {e0 : ℝ} (he : ∀ j < nx, |x 0 j - z j t0| ≤ e0) :
    ∀ l ≤ N, ∀ j < nx, |x l j - z j (t0 + len * c.getD l 0)| ≤ e0 + len * jnorm J N * (Lip * E) + δ * len * (N + jnorm J N) := by
  intro l hl j hj
  obtain ⟨T, hT, hTδ⟩ := hδ j hj
  have hδ0 : 0 ≤ δ := (abs_nonneg _).trans (hTδ t0 ⟨le_rfl, by linarith⟩)
  have hLE : 0 ≤ Lip * E := (abs_nonneg _).trans (hr 0 (by omega) j hj)
  have key : ∀ l ≤ N, |x l j - z j (t0 + len * c.getD l 0)| ≤ e0 + ∑ k ∈ Finset.range l,
      (len * (∑ m ∈ Finset.range (N + 1), |(J.getD k []).getD m 0|) * (Lip * E) +
        δ * len * (1 + ∑ m ∈ Finset.range (N + 1), |(J.getD k []).getD m 0|)) := by
    intro l
    induction l with
    | zero => intro _; rw [h.first, mul_zero, add_zero, Finset.sum_range_zero, add_zero]; exact he j hj
    | succ k ih =>
      intro hk
      rw [Finset.sum_range_succ]
      have h1 := ih (by omega)
      have h2 := truncation h hlen (hz j hj) hT hTδ (k := k) (by omega)
      have h3 := hd k (by omega) j hj
      have h4 : |∑ m ∈ Finset.range (N + 1), (J.getD k []).getD m 0 * (r m j - w j (t0 + len * c.getD m 0))| ≤
          (∑ m ∈ Finset.range (N + 1), |(J.getD k []).getD m 0|) * (Lip * E) := by
        rw [Finset.sum_mul]
        refine (Finset.abs_sum_le_sum_abs _ _).trans (Finset.sum_le_sum fun m hm => ?_)
        rw [abs_mul]
        exact mul_le_mul_of_nonneg_left (hr m (by have := Finset.mem_range.1 hm; omega) j hj) (abs_nonneg _)
      have e : x (k + 1) j - z j (t0 + len * c.getD (k + 1) 0) = (x k j - z j (t0 + len * c.getD k 0)) +
          (∑ m ∈ Finset.range (N + 1), (J.getD k []).getD m 0 * (r m j - w j (t0 + len * c.getD m 0))) * len -
          (z j (t0 + len * c.getD (k + 1) 0) - z j (t0 + len * c.getD k 0) -
            (∑ m ∈ Finset.range (N + 1), (J.getD k []).getD m 0 * w j (t0 + len * c.getD m 0)) * len) := by
        simp only [mul_sub, Finset.sum_sub_distrib]
        linear_combination h3
      rw [e]
      have h5 := mul_le_mul_of_nonneg_right h4 (abs_nonneg len)
      rw [← abs_mul] at h5
      refine (abs_sub _ _).trans ((add_le_add ((abs_add_le _ _).trans (add_le_add h1 h5)) h2).trans ?_)
      rw [abs_of_pos hlen]
      linarith
  refine (key l hl).trans ?_
  have hsum : ∑ k ∈ Finset.range l, (len * (∑ m ∈ Finset.range (N + 1), |(J.getD k []).getD m 0|) * (Lip * E) +
        δ * len * (1 + ∑ m ∈ Finset.range (N + 1), |(J.getD k []).getD m 0|)) ≤
      ∑ k ∈ Finset.range N, (len * (∑ m ∈ Finset.range (N + 1), |(J.getD k []).getD m 0|) * (Lip * E) +
        δ * len * (1 + ∑ m ∈ Finset.range (N + 1), |(J.getD k []).getD m 0|)) := by
    refine Finset.sum_le_sum_of_subset_of_nonneg (Finset.range_mono hl) fun k _ _ => ?_
    have : 0 ≤ ∑ m ∈ Finset.range (N + 1), |(J.getD k []).getD m 0| := Finset.sum_nonneg fun _ _ => abs_nonneg _
    positivity
  have hev : ∑ k ∈ Finset.range N, (len * (∑ m ∈ Finset.range (N + 1), |(J.getD k []).getD m 0|) * (Lip * E) +
        δ * len * (1 + ∑ m ∈ Finset.range (N + 1), |(J.getD k []).getD m 0|)) =
      len * jnorm J N * (Lip * E) + δ * len * (N + jnorm J N) := by
    rw [Finset.sum_add_distrib, ← Finset.sum_mul, ← Finset.mul_sum, ← Finset.mul_sum, Finset.sum_add_distrib]
    simp [jnorm]
  linarith

theorem inv_one_sub_le_exp {q : ℝ} (h0 : 0 ≤ q) (h : q ≤ 1 / 2) {E a : ℝ} (ha : 0 ≤ a) (hE : E ≤ a + q * E) : E ≤ Real.exp (2 * q) * a := by
  have h1 : 1 + 2 * q ≤ Real.exp (2 * q) := by linarith [Real.add_one_le_exp (2 * q)]
  have h2 : E * (1 - q) ≤ a := by linarith
  have h3 : E ≤ (1 + 2 * q) * a := by
    by_contra hc
    push Not at hc
    have : (1 + 2 * q) * a * (1 - q) < E * (1 - q) := mul_lt_mul_of_pos_right hc (by linarith)
    nlinarith [mul_nonneg ha (mul_nonneg h0 (by linarith : (0:ℝ) ≤ 1 - 2 * q))]
  exact h3.trans (mul_le_mul_of_nonneg_right h1 ha)

/-- The error of one piece, from the error at its start. -/
theorem piece_bound {c : List ℝ} {J : List (List ℝ)} {N : Nat} (h : PointsOK c J N) {t0 len : ℝ} (hlen : 0 < len) {nx : Nat} {x r : Nat → Nat → ℝ}
    {z w : Nat → ℝ → ℝ} (hd : ∀ k < N, ∀ j < nx, x (k + 1) j - x k j - (∑ l ∈ Finset.range (N + 1), (J.getD k []).getD l 0 * r l j) * len = 0)
    (hz : ∀ j < nx, ∀ s ∈ Set.Icc t0 (t0 + len), HasDerivWithinAt (z j) (w j s) (Set.Icc t0 (t0 + len)) s) {δ : ℝ}
    (hδ : ∀ j < nx, ∃ T : ℝ[X], T.natDegree ≤ N ∧ ∀ s ∈ Set.Icc t0 (t0 + len), |w j s - T.eval s| ≤ δ) {Lip : ℝ} (hLip : 0 ≤ Lip)
    (hq : len * jnorm J N * Lip ≤ 1 / 2)
    (hr : ∀ l ≤ N, ∀ E, (∀ j < nx, |x l j - z j (t0 + len * c.getD l 0)| ≤ E) → ∀ j < nx, |r l j - w j (t0 + len * c.getD l 0)| ≤ Lip * E)
    {e0 : ℝ} (he : ∀ j < nx, |x 0 j - z j t0| ≤ e0) :
    ∀ l ≤ N, ∀ j < nx, |x l j - z j (t0 + len * c.getD l 0)| ≤ Real.exp (2 * (len * jnorm J N * Lip)) * (e0 + δ * len * (N + jnorm J N)) := by
  intro l hl j hj
  obtain ⟨⟨l', j'⟩, hmem, hmax⟩ := Finset.exists_max_image (Finset.range (N + 1) ×ˢ Finset.range nx)
    (fun lj => |x lj.1 lj.2 - z lj.2 (t0 + len * c.getD lj.1 0)|) ⟨(l, j), by simp; omega⟩
  simp only [Finset.mem_product, Finset.mem_range] at hmem
  set E := |x l' j' - z j' (t0 + len * c.getD l' 0)| with hE
  have hall : ∀ l ≤ N, ∀ j < nx, |x l j - z j (t0 + len * c.getD l 0)| ≤ E := fun l hl j hj => hmax (l, j) (by simp; omega)
  have hb := piece_error h hlen hd hz hδ (fun l hl j hj => hr l hl E (hall l hl) j hj) he l' (by omega) j' hmem.2
  refine (hall l hl j hj).trans ?_
  have hδ0 : 0 ≤ δ := by
    obtain ⟨T, -, hT⟩ := hδ j hj
    exact (abs_nonneg _).trans (hT t0 ⟨le_rfl, by linarith⟩)
  have he0 : 0 ≤ e0 := (abs_nonneg _).trans (he j hj)
  have hJ := jnorm_nonneg J N
  refine inv_one_sub_le_exp (by positivity) hq (by positivity) ?_
  rw [← hE] at hb
  linarith

/-- All pieces. -/
theorem pieces_bound {c : List ℝ} {J : List (List ℝ)} {N : Nat} (h : PointsOK c J N) {t : List ℝ} {P : Nat}
    (ht : ∀ i < P, t.getD i 0 < t.getD (i + 1) 0) {nx : Nat} {x r : Nat → Nat → Nat → ℝ} {z : Nat → ℝ → ℝ} {w : Nat → Nat → ℝ → ℝ}
    (hd : ∀ i < P, ∀ k < N, ∀ j < nx, x i (k + 1) j - x i k j -
      (∑ l ∈ Finset.range (N + 1), (J.getD k []).getD l 0 * r i l j) * (t.getD (i + 1) 0 - t.getD i 0) = 0)
    (hx : ∀ i, i + 1 < P → ∀ j < nx, x (i + 1) 0 j = x i N j)
    (hz : ∀ i < P, ∀ j < nx, ∀ s ∈ pieceOf t i, HasDerivWithinAt (z j) (w i j s) (pieceOf t i) s) {δ : Nat → ℝ}
    (hδ : ∀ i < P, ∀ j < nx, ∃ T : ℝ[X], T.natDegree ≤ N ∧ ∀ s ∈ pieceOf t i, |w i j s - T.eval s| ≤ δ i) {Lip : ℝ} (hLip : 0 ≤ Lip)
    (hq : ∀ i < P, (t.getD (i + 1) 0 - t.getD i 0) * jnorm J N * Lip ≤ 1 / 2)
    (hr : ∀ i < P, ∀ l ≤ N, ∀ E, (∀ j < nx, |x i l j - z j (pointTime t c i l)| ≤ E) → ∀ j < nx, |r i l j - w i j (pointTime t c i l)| ≤ Lip * E)
    {e0 : ℝ} (he : ∀ j < nx, |x 0 0 j - z j (t.getD 0 0)| ≤ e0) :
    ∀ i < P, ∀ l ≤ N, ∀ j < nx, |x i l j - z j (pointTime t c i l)| ≤
      Real.exp (2 * jnorm J N * Lip * (t.getD (i + 1) 0 - t.getD 0 0)) *
        (e0 + (N + jnorm J N) * ∑ m ∈ Finset.range (i + 1), δ m * (t.getD (m + 1) 0 - t.getD m 0)) := by
  have hJ := jnorm_nonneg J N
  intro i
  induction i with
  | zero =>
    intro hi l hl j hj
    have e : t.getD 0 0 + (t.getD (0 + 1) 0 - t.getD 0 0) = t.getD (0 + 1) 0 := by ring
    have hb := piece_bound h (t0 := t.getD 0 0) (len := t.getD (0 + 1) 0 - t.getD 0 0) (by linarith [ht 0 hi]) (x := x 0) (r := r 0) (hd 0 hi)
      (by rw [e]; exact hz 0 hi) (by rw [e]; exact hδ 0 hi) hLip (hq 0 hi) (hr 0 hi) he l hl j hj
    refine hb.trans (le_of_eq ?_)
    rw [Finset.sum_range_one]
    ring_nf
  | succ i ih =>
    intro hi l hl j hj
    have ih' := ih (by omega)
    set Ei := Real.exp (2 * jnorm J N * Lip * (t.getD (i + 1) 0 - t.getD 0 0)) *
        (e0 + (N + jnorm J N) * ∑ m ∈ Finset.range (i + 1), δ m * (t.getD (m + 1) 0 - t.getD m 0)) with hEi
    have e : t.getD (i + 1) 0 + (t.getD (i + 1 + 1) 0 - t.getD (i + 1) 0) = t.getD (i + 1 + 1) 0 := by ring
    have hstart : ∀ j < nx, |x (i + 1) 0 j - z j (t.getD (i + 1) 0)| ≤ Ei := by
      intro j hj
      have := ih' N le_rfl j hj
      rw [hx i hi j hj]
      have e : pointTime t c i N = t.getD (i + 1) 0 := by unfold pointTime; rw [h.last]; ring
      rwa [e] at this
    have hb := piece_bound h (t0 := t.getD (i + 1) 0) (len := t.getD (i + 1 + 1) 0 - t.getD (i + 1) 0) (by linarith [ht (i + 1) hi]) (x := x (i + 1))
      (r := r (i + 1)) (hd (i + 1) hi) (by rw [e]; exact hz (i + 1) hi) (by rw [e]; exact hδ (i + 1) hi) hLip (hq (i + 1) hi) (hr (i + 1) hi)
      hstart l hl j hj
    refine hb.trans ?_
    have hδ0 : ∀ m ≤ i + 1, 0 ≤ δ m := fun m hm => by
      obtain ⟨T, -, hT⟩ := hδ m (by omega) j hj
      exact (abs_nonneg _).trans (hT (t.getD m 0) ⟨le_rfl, (ht m (by omega)).le⟩)
    have hmono : ∀ m ≤ i + 1, t.getD 0 0 ≤ t.getD m 0 := by
      intro m
      induction m with
      | zero => intro _; exact le_rfl
      | succ m ihm => intro hm; exact (ihm (by omega)).trans (ht m (by omega)).le
    have he0 : 0 ≤ e0 := (abs_nonneg _).trans (he j hj)
    have hexp : 1 ≤ Real.exp (2 * jnorm J N * Lip * (t.getD (i + 1) 0 - t.getD 0 0)) := by
      apply Real.one_le_exp
      have := hmono (i + 1) le_rfl
      have : 0 ≤ t.getD (i + 1) 0 - t.getD 0 0 := by linarith
      positivity
    have hlen : 0 ≤ t.getD (i + 1 + 1) 0 - t.getD (i + 1) 0 := by linarith [ht (i + 1) hi]
    rw [Finset.sum_range_succ]
    have hsplit : Real.exp (2 * jnorm J N * Lip * (t.getD (i + 1 + 1) 0 - t.getD 0 0)) =
        Real.exp (2 * ((t.getD (i + 1 + 1) 0 - t.getD (i + 1) 0) * jnorm J N * Lip)) *
          Real.exp (2 * jnorm J N * Lip * (t.getD (i + 1) 0 - t.getD 0 0)) := by
      rw [← Real.exp_add]
      ring_nf
    rw [hsplit, mul_assoc (Real.exp _) (Real.exp _)]
    refine mul_le_mul_of_nonneg_left ?_ (Real.exp_pos _).le
    rw [hEi]
    have hnew : 0 ≤ δ (i + 1) * (t.getD (i + 1 + 1) 0 - t.getD (i + 1) 0) * (N + jnorm J N) := by
      have := hδ0 (i + 1) le_rfl
      positivity
    nlinarith [mul_le_mul_of_nonneg_right hexp hnew]

/-! ### Existence -/

/-- The equations of a piece have a solution if the piece is short. -/
theorem piece_solution (J : List (List ℝ)) {N nx : Nat} {len Lip : ℝ} (hlen : 0 < len) (hLip : 0 ≤ Lip) (hq : len * jnorm J N * Lip ≤ 1 / 2)
    (g : Nat → (Fin nx → ℝ) → Fin nx → ℝ) (hg : ∀ l ≤ N, ∀ a b, dist (g l a) (g l b) ≤ Lip * dist a b) (x0 : Fin nx → ℝ) :
    ∃ y : Nat → Fin nx → ℝ, y 0 = x0 ∧
      ∀ k < N, ∀ j, y (k + 1) j - y k j - (∑ l ∈ Finset.range (N + 1), (J.getD k []).getD l 0 * g l (y l) j) * len = 0 := by
  let ext : (Fin N → Fin nx → ℝ) → Nat → Fin nx → ℝ := fun X l => if h : l = 0 ∨ N < l then x0 else X ⟨l - 1, by omega⟩
  let Φ : (Fin N → Fin nx → ℝ) → Fin N → Fin nx → ℝ := fun X k j =>
    x0 j + ∑ m ∈ Finset.range (k.1 + 1), (∑ l ∈ Finset.range (N + 1), (J.getD m []).getD l 0 * g l (ext X l) j) * len
  have hJ := jnorm_nonneg J N
  have hext : ∀ X X' l, dist (ext X l) (ext X' l) ≤ dist X X' := by
    intro X X' l
    simp only [ext]
    split_ifs with h
    · rw [dist_self]; exact dist_nonneg
    · exact dist_le_pi_dist X X' _
  have hΦ : ∀ X X', dist (Φ X) (Φ X') ≤ 1 / 2 * dist X X' := by
    intro X X'
    have hd := dist_nonneg (x := X) (y := X')
    rw [dist_pi_le_iff (by positivity)]
    intro k
    rw [dist_pi_le_iff (by positivity)]
    intro j
    simp only [Φ]
    rw [dist_add_left, Real.dist_eq, ← Finset.sum_sub_distrib]
    have h1 : ∀ m ∈ Finset.range (k.1 + 1), |(∑ l ∈ Finset.range (N + 1), (J.getD m []).getD l 0 * g l (ext X l) j) * len -
        (∑ l ∈ Finset.range (N + 1), (J.getD m []).getD l 0 * g l (ext X' l) j) * len| ≤
        (∑ l ∈ Finset.range (N + 1), |(J.getD m []).getD l 0|) * (Lip * dist X X') * len := by
      intro m _
      rw [← sub_mul, abs_mul, abs_of_pos hlen, ← Finset.sum_sub_distrib]
      refine mul_le_mul_of_nonneg_right ?_ hlen.le
      rw [Finset.sum_mul]
      refine (Finset.abs_sum_le_sum_abs _ _).trans (Finset.sum_le_sum fun l hl => ?_)
      rw [← mul_sub, abs_mul]
      refine mul_le_mul_of_nonneg_left ?_ (abs_nonneg _)
      have h2 := dist_le_pi_dist (g l (ext X l)) (g l (ext X' l)) j
      rw [Real.dist_eq] at h2
      refine h2.trans ((hg l (by have := Finset.mem_range.1 hl; omega) _ _).trans ?_)
      exact mul_le_mul_of_nonneg_left (hext X X' l) hLip
    refine (Finset.abs_sum_le_sum_abs _ _).trans ((Finset.sum_le_sum h1).trans ?_)
    have h2 : ∑ m ∈ Finset.range (k.1 + 1), (∑ l ∈ Finset.range (N + 1), |(J.getD m []).getD l 0|) * (Lip * dist X X') * len ≤
        ∑ m ∈ Finset.range N, (∑ l ∈ Finset.range (N + 1), |(J.getD m []).getD l 0|) * (Lip * dist X X') * len :=
      Finset.sum_le_sum_of_subset_of_nonneg (Finset.range_mono (by omega)) fun m _ _ => by
        have : 0 ≤ ∑ l ∈ Finset.range (N + 1), |(J.getD m []).getD l 0| := Finset.sum_nonneg fun _ _ => abs_nonneg _
        positivity
    refine h2.trans ?_
    rw [← Finset.sum_mul, ← Finset.sum_mul]
    have e : (∑ m ∈ Finset.range N, ∑ l ∈ Finset.range (N + 1), |(J.getD m []).getD l 0|) * (Lip * dist X X') * len =
        (len * jnorm J N * Lip) * dist X X' := by rw [jnorm]; ring
    rw [e]
    exact mul_le_mul_of_nonneg_right hq hd
  have hc : ContractingWith (1 / 2 : NNReal) Φ := ⟨by
    rw [← NNReal.coe_lt_coe]
    norm_num, LipschitzWith.of_dist_le_mul fun X X' => by simpa using hΦ X X'⟩
  set X := hc.fixedPoint with hX
  have hfix : ∀ k j, X k j = x0 j + ∑ m ∈ Finset.range (k.1 + 1), (∑ l ∈ Finset.range (N + 1), (J.getD m []).getD l 0 * g l (ext X l) j) * len :=
    fun k j => (congrFun (congrFun hc.fixedPoint_isFixedPt k) j).symm
  refine ⟨ext X, by simp [ext], fun k hk j => ?_⟩
  have e1 : ext X (k + 1) j = x0 j + ∑ m ∈ Finset.range (k + 1), (∑ l ∈ Finset.range (N + 1), (J.getD m []).getD l 0 * g l (ext X l) j) * len := by
    rw [← hfix ⟨k, hk⟩ j]
    simp only [ext]
    rw [dif_neg (by omega)]
    rfl
  have e0 : ext X k j = x0 j + ∑ m ∈ Finset.range k, (∑ l ∈ Finset.range (N + 1), (J.getD m []).getD l 0 * g l (ext X l) j) * len := by
    cases k with
    | zero => simp [ext]
    | succ k =>
      rw [← hfix ⟨k, by omega⟩ j]
      simp only [ext]
      rw [dif_neg (by omega)]
      rfl
  rw [e1, e0, Finset.sum_range_succ]
  ring

/-- The equations of all pieces have a solution if those of each piece have one for every initial state. -/
theorem glue_pieces (J : List (List ℝ)) {N nx : Nat} {len : Nat → ℝ} (P : Nat) (g : Nat → Nat → (Fin nx → ℝ) → Fin nx → ℝ)
    (h : ∀ i < P, ∀ x0 : Fin nx → ℝ, ∃ y : Nat → Fin nx → ℝ, y 0 = x0 ∧ ∀ k < N, ∀ j, y (k + 1) j - y k j -
      (∑ l ∈ Finset.range (N + 1), (J.getD k []).getD l 0 * g i l (y l) j) * len i = 0) (x0 : Fin nx → ℝ) :
    ∃ y : Nat → Fin nx → ℝ, y 0 = x0 ∧ ∀ i < P, ∀ k < N, ∀ j, y (i * N + k + 1) j - y (i * N + k) j -
      (∑ l ∈ Finset.range (N + 1), (J.getD k []).getD l 0 * g i l (y (i * N + l)) j) * len i = 0 := by
  induction P with
  | zero => exact ⟨fun _ => x0, rfl, fun i hi => absurd hi (by omega)⟩
  | succ P ih =>
    obtain ⟨y, hy0, hy⟩ := ih fun i hi => h i (by omega)
    obtain ⟨y', hy0', hy'⟩ := h P (by omega) (y (P * N))
    refine ⟨fun r => if r ≤ P * N then y r else y' (r - P * N), by simp [hy0], fun i hi k hk j => ?_⟩
    have hnew : ∀ l, (if P * N + l ≤ P * N then y (P * N + l) else y' (P * N + l - P * N)) = y' l := by
      intro l
      split_ifs with h
      · obtain rfl : l = 0 := by omega
        rw [hy0', Nat.add_zero]
      · rw [Nat.add_sub_cancel_left]
    rcases Nat.lt_or_ge i P with hiP | hiP
    · have hle : ∀ l ≤ N, i * N + l ≤ P * N := fun l hl => by
        have : (i + 1) * N ≤ P * N := Nat.mul_le_mul_right _ hiP
        rw [Nat.add_mul] at this
        omega
      have := hy i hiP k hk j
      dsimp only
      rw [if_pos (show i * N + k + 1 ≤ P * N from hle (k + 1) hk), if_pos (hle k hk.le)]
      refine Eq.trans ?_ this
      congr 2
      refine Finset.sum_congr rfl fun l hl => ?_
      rw [if_pos (hle l (by have := Finset.mem_range.1 hl; omega))]
    · obtain rfl : i = P := by omega
      dsimp only
      rw [Nat.add_assoc, hnew (k + 1), hnew k]
      simp only [hnew]
      exact hy' k hk j

/-- The equations of all pieces have a solution. -/
theorem pieces_solution (J : List (List ℝ)) {N nx : Nat} {len : Nat → ℝ} {Lip : ℝ} (P : Nat) (hlen : ∀ i < P, 0 < len i) (hLip : 0 ≤ Lip)
    (hq : ∀ i < P, len i * jnorm J N * Lip ≤ 1 / 2) (g : Nat → Nat → (Fin nx → ℝ) → Fin nx → ℝ)
    (hg : ∀ i < P, ∀ l ≤ N, ∀ a b, dist (g i l a) (g i l b) ≤ Lip * dist a b) (x0 : Fin nx → ℝ) :
    ∃ y : Nat → Fin nx → ℝ, y 0 = x0 ∧ ∀ i < P, ∀ k < N, ∀ j, y (i * N + k + 1) j - y (i * N + k) j -
      (∑ l ∈ Finset.range (N + 1), (J.getD k []).getD l 0 * g i l (y (i * N + l)) j) * len i = 0 := by
  exact glue_pieces J P g (fun i hi => piece_solution J (hlen i hi) hLip (hq i hi) (g i) (hg i hi)) x0

/-! ### Lists of states -/

/-- The error of the states `x` of a feasible point against the path `z`. -/
theorem states_error {c : List ℝ} {J : List (List ℝ)} {N : Nat} (h : PointsOK c J N) {t : List ℝ} {P : Nat}
    (ht : ∀ i < P, t.getD i 0 < t.getD (i + 1) 0) {nx : Nat} {x : Nat → List ℝ} {φ : Nat → Nat → List ℝ → List ℝ}
    (hd : ∀ i < P, ∀ a ∈ defects J (fun l => φ i l (x (i * N + l))) (fun l => x (i * N + l)) N nx 0 (t.getD (i + 1) 0 - t.getD i 0), a = 0)
    {z : ℝ → List ℝ} {w : Nat → Nat → ℝ → ℝ}
    (hz : ∀ i < P, ∀ j < nx, ∀ s ∈ pieceOf t i, HasDerivWithinAt (fun s => (z s).getD j 0) (w i j s) (pieceOf t i) s)
    (hw : ∀ i < P, ∀ l ≤ N, ∀ j < nx, w i j (pointTime t c i l) = (φ i l (z (pointTime t c i l))).getD j 0) {δ : Nat → ℝ}
    (hδ : ∀ i < P, ∀ j < nx, ∃ T : ℝ[X], T.natDegree ≤ N ∧ ∀ s ∈ pieceOf t i, |w i j s - T.eval s| ≤ δ i) {Lip : ℝ} (hLip : 0 ≤ Lip)
    (hq : ∀ i < P, (t.getD (i + 1) 0 - t.getD i 0) * jnorm J N * Lip ≤ 1 / 2) {S : Set (List ℝ)}
    (hL : ∀ i < P, ∀ l ≤ N, LipschitzOn (φ i l) S nx nx Lip) (hxS : ∀ i < P, ∀ l ≤ N, x (i * N + l) ∈ S)
    (hzS : ∀ i < P, ∀ l ≤ N, z (pointTime t c i l) ∈ S) {e0 : ℝ} (he : ∀ j < nx, |(x 0).getD j 0 - (z (t.getD 0 0)).getD j 0| ≤ e0) :
    ∀ i < P, ∀ l ≤ N, ∀ j < nx, |(x (i * N + l)).getD j 0 - (z (pointTime t c i l)).getD j 0| ≤ errorBound J N Lip t δ e0 i := by
  refine pieces_bound h ht (x := fun i l j => (x (i * N + l)).getD j 0) (r := fun i l j => (φ i l (x (i * N + l))).getD j 0)
    (z := fun j s => (z s).getD j 0) (w := w) (fun i hi k hk j hj => ?_) (fun i _ j _ => ?_) hz hδ hLip hq (fun i hi l hl E hE j hj => ?_) (by simpa using he)
  · have := defects_zero_iff.1 (hd i hi) j hj k hk
    simpa only [Nat.zero_add] using this
  · rw [show (i + 1) * N + 0 = i * N + N by ring]
  · rw [hw i hi l hl j hj]
    exact hL i hi l hl _ (hxS i hi l hl) _ (hzS i hi l hl) E hE j hj

theorem nat_piece {P N r : Nat} (hN : 1 ≤ N) (hP : 1 ≤ P) (hr : r ≤ P * N) : ∃ i < P, ∃ l ≤ N, r = i * N + l := by
  rcases Nat.lt_or_ge r (P * N) with h | h
  · exact ⟨r / N, Nat.div_lt_of_lt_mul (by rwa [Nat.mul_comm] at h), r % N, (Nat.mod_lt _ hN).le, (Nat.div_add_mod' r N).symm⟩
  · refine ⟨P - 1, by omega, N, le_rfl, ?_⟩
    rw [← Nat.succ_mul, show (P - 1).succ = P by omega]
    omega

/-- Two feasible points with the same initial state, for the same right hand sides. -/
theorem states_unique {c : List ℝ} {J : List (List ℝ)} {N : Nat} (h : PointsOK c J N) {t : List ℝ} {P : Nat} (hP : 1 ≤ P)
    (ht : ∀ i < P, t.getD i 0 < t.getD (i + 1) 0) {nx : Nat} {x x' : Nat → List ℝ} {φ : Nat → Nat → List ℝ → List ℝ}
    (hd : ∀ i < P, ∀ a ∈ defects J (fun l => φ i l (x (i * N + l))) (fun l => x (i * N + l)) N nx 0 (t.getD (i + 1) 0 - t.getD i 0), a = 0)
    (hd' : ∀ i < P, ∀ a ∈ defects J (fun l => φ i l (x' (i * N + l))) (fun l => x' (i * N + l)) N nx 0 (t.getD (i + 1) 0 - t.getD i 0), a = 0)
    {Lip : ℝ} (hLip : 0 ≤ Lip) (hq : ∀ i < P, (t.getD (i + 1) 0 - t.getD i 0) * jnorm J N * Lip ≤ 1 / 2)
    (hL : ∀ i < P, ∀ l ≤ N, LipschitzOn (φ i l) {x | x.length = nx} nx nx Lip) (hx : ∀ r ≤ P * N, (x r).length = nx)
    (hx' : ∀ r ≤ P * N, (x' r).length = nx) (h0 : x 0 = x' 0) : ∀ r ≤ P * N, x r = x' r := by
  have hle : ∀ i < P, ∀ l ≤ N, i * N + l ≤ P * N := fun i hi l hl => by
    have : (i + 1) * N ≤ P * N := Nat.mul_le_mul_right _ hi
    rw [Nat.add_mul] at this
    omega
  obtain ⟨z, hz⟩ := (defects_path h hP ht (fun i l => φ i l (x' (i * N + l))) (fun i l => x' (i * N + l))
    fun i _ => by rw [Nat.add_mul, Nat.one_mul, Nat.add_zero]).1 hd'
  have hpoly : ∀ i j, ∃ y : ℝ[X], i < P → j < nx → y.natDegree ≤ N + 1 ∧ ∀ s ∈ pieceOf t i, z j s = y.eval s := fun i j => by
    by_cases hi : i < P
    · by_cases hj : j < nx
      · obtain ⟨y, hy⟩ := hz.poly i hi j hj
        exact ⟨y, fun _ _ => hy⟩
      · exact ⟨0, fun _ h => absurd h hj⟩
    · exact ⟨0, fun h => absurd h hi⟩
  choose y hy using hpoly
  let Z : ℝ → List ℝ := fun s => (List.range nx).map fun j => z j s
  have hZ : ∀ s, ∀ j < nx, (Z s).getD j 0 = z j s := fun s j hj => by
    rw [getD_of_lt _ _ (by simpa [Z] using hj)]
    simp [Z]
  have hZx : ∀ i < P, ∀ l ≤ N, Z (pointTime t c i l) = x' (i * N + l) := fun i hi l hl => by
    refine List.ext_getElem (by simp [Z, hx' _ (hle i hi l hl)]) fun j h1 h2 => ?_
    have hj : j < nx := by simpa [Z] using h1
    rw [← getD_of_lt _ 0 h1, ← getD_of_lt _ 0 h2, hZ _ _ hj, hz.value i hi l hl j hj]
  have e0 : pointTime t c 0 0 = t.getD 0 0 := by rw [pointTime, h.first]; ring
  have key := states_error h ht hd (z := Z) (w := fun i j s => (derivative (y i j)).eval s) (fun i hi j hj s hs => ?_)
    (fun i hi l hl j hj => ?_) (δ := fun _ => 0) (fun i hi j hj => ⟨derivative (y i j), ?_, fun s _ => by simp⟩) hLip hq hL
    (fun i hi l hl => hx _ (hle i hi l hl)) (fun i hi l hl => by simp [Z]) (e0 := 0) (fun j hj => ?_)
  · intro r hr
    obtain ⟨i, hi, l, hl, rfl⟩ := nat_piece h.pos hP hr
    refine List.ext_getElem (by rw [hx _ hr, hx' _ hr]) fun j h1 h2 => ?_
    have hj : j < nx := by rwa [hx _ hr] at h1
    have := key i hi l hl j hj
    rw [hZx i hi l hl, errorBound] at this
    simp only [zero_mul, Finset.sum_const_zero, mul_zero, add_zero] at this
    rw [← getD_of_lt _ 0 h1, ← getD_of_lt _ 0 h2]
    exact sub_eq_zero.1 (abs_nonpos_iff.1 this)
  · refine HasDerivWithinAt.congr_of_mem (f := z j) ?_ (fun s _ => hZ s j hj) hs
    exact (poly_deriv_within (ht i hi) hs (hy i j hi hj).2).2 rfl
  · rw [hZx i hi l hl]
    exact (poly_deriv_within (ht i hi) (pointTime_mem (ht i hi) (h.mem l hl)) (hy i j hi hj).2).1 (hz.ode i hi l hl j hj)
  · exact (natDegree_derivative_le _).trans (by have := (hy i j hi hj).1; omega)
  · rw [← e0, hZx 0 (by omega) 0 (Nat.zero_le _), h0, Nat.zero_mul]
    simp

/-- A feasible point with a given initial state, for given right hand sides. -/
theorem states_exist (J : List (List ℝ)) {N : Nat} {t : List ℝ} {P : Nat}
    (ht : ∀ i < P, t.getD i 0 < t.getD (i + 1) 0) {nx : Nat} {φ : Nat → Nat → List ℝ → List ℝ}
    {Lip : ℝ} (hLip : 0 ≤ Lip) (hq : ∀ i < P, (t.getD (i + 1) 0 - t.getD i 0) * jnorm J N * Lip ≤ 1 / 2)
    (hL : ∀ i < P, ∀ l ≤ N, LipschitzOn (φ i l) {x | x.length = nx} nx nx Lip) {x0 : List ℝ} (h0 : x0.length = nx) :
    ∃ x : Nat → List ℝ, (∀ r, (x r).length = nx) ∧ x 0 = x0 ∧
      ∀ i < P, ∀ a ∈ defects J (fun l => φ i l (x (i * N + l))) (fun l => x (i * N + l)) N nx 0 (t.getD (i + 1) 0 - t.getD i 0), a = 0 := by
  have hof : ∀ (a : Fin nx → ℝ) (j : Fin nx), (List.ofFn a).getD j 0 = a j := fun a j => by
    rw [getD_of_lt _ _ (by simp)]
    simp
  obtain ⟨y, y0, hy⟩ := pieces_solution J (N := N) (nx := nx) (len := fun i => t.getD (i + 1) 0 - t.getD i 0) P
    (fun i hi => by linarith [ht i hi]) hLip hq (fun i l a j => (φ i l (List.ofFn a)).getD j 0) (fun i hi l hl a b => by
      rw [dist_pi_le_iff (mul_nonneg hLip dist_nonneg)]
      intro j
      rw [Real.dist_eq]
      refine hL i hi l hl _ (by simp) _ (by simp) _ (fun k hk => ?_) j j.2
      have := dist_le_pi_dist a b ⟨k, hk⟩
      rwa [Real.dist_eq, ← hof a ⟨k, hk⟩, ← hof b ⟨k, hk⟩] at this) (fun j => x0.getD j 0)
  refine ⟨fun r => List.ofFn (y r), fun r => by simp, ?_, fun i hi => ?_⟩
  · refine List.ext_getElem (by simp [h0]) fun j h1 h2 => ?_
    simp only [List.getElem_ofFn, y0]
    exact getD_of_lt _ _ h2
  · rw [defects_zero_iff]
    intro j hj k hk
    have := hy i hi k hk ⟨j, hj⟩
    rw [← hof (y (i * N + k)), ← hof (y (i * N + k + 1))] at this
    simpa only [Nat.zero_add, Nat.add_assoc] using this

/-! ### Quadrature -/

/-- The error of the quadrature. -/
theorem quadrature_error {t c K : List ℝ} {N P : Nat} {w : ℝ → ℝ} (ht : ∀ i < P, t.getD i 0 < t.getD (i + 1) 0)
    (hc : ∀ l ≤ N, 0 ≤ c.getD l 0 ∧ c.getD l 0 ≤ 1)
    (hK : ∀ q : ℝ[X], q.natDegree ≤ 2 * N - 1 →
      ∑ l ∈ Finset.range (N + 1), K.getD l 0 * q.eval (c.getD l 0) = integral q 0 1) (hK0 : ∀ l ≤ N, 0 < K.getD l 0)
    (hK1 : ∑ l ∈ Finset.range (N + 1), K.getD l 0 = 1) {ε : Nat → ℝ} (hw : NearPoly t P (2 * N - 1) ε w)
    (hwc : ∀ i < P, ContinuousOn w (pieceOf t i)) :
    |∑ i ∈ Finset.range P, (∑ l ∈ Finset.range (N + 1), w (pointTime t c i l) * K.getD l 0) * (t.getD (i + 1) 0 - t.getD i 0) -
      ∫ s in t.getD 0 0..t.getD P 0, w s| ≤ 2 * ∑ i ∈ Finset.range P, ε i * (t.getD (i + 1) 0 - t.getD i 0) := by
  have hint : ∀ i < P, IntervalIntegrable w MeasureTheory.volume (t.getD i 0) (t.getD (i + 1) 0) := fun i hi => by
    refine ContinuousOn.intervalIntegrable ?_
    rw [Set.uIcc_of_le (ht i hi).le]
    exact hwc i hi
  rw [← intervalIntegral.sum_integral_adjacent_intervals (a := fun i => t.getD i 0) hint, ← Finset.sum_sub_distrib, Finset.mul_sum]
  refine (Finset.abs_sum_le_sum_abs _ _).trans (Finset.sum_le_sum fun i hi => ?_)
  rw [Finset.mem_range] at hi
  obtain ⟨T, hT, hwT⟩ := hw i hi
  have hlt := ht i hi
  have hp : 0 < t.getD (i + 1) 0 - t.getD i 0 := by linarith
  have e1 := quad_piece hK hT (t.getD i 0) (t.getD (i + 1) 0 - t.getD i 0)
  rw [add_sub_cancel, integral] at e1
  have e2 : |∑ l ∈ Finset.range (N + 1), w (pointTime t c i l) * K.getD l 0 -
      ∑ l ∈ Finset.range (N + 1), T.eval (pointTime t c i l) * K.getD l 0| ≤ ε i := by
    rw [← Finset.sum_sub_distrib]
    refine (Finset.abs_sum_le_sum_abs _ _).trans ?_
    calc _ ≤ ∑ l ∈ Finset.range (N + 1), ε i * K.getD l 0 := Finset.sum_le_sum fun l hl => by
          have hl' : l ≤ N := by simpa [Nat.lt_succ_iff] using hl
          rw [← sub_mul, abs_mul, abs_of_pos (hK0 l hl')]
          exact mul_le_mul_of_nonneg_right (hwT _ (pointTime_mem hlt (hc l hl'))) (hK0 l hl').le
      _ = ε i := by rw [← Finset.mul_sum, hK1, mul_one]
  have e3 : |(∫ s in t.getD i 0..t.getD (i + 1) 0, T.eval s) - ∫ s in t.getD i 0..t.getD (i + 1) 0, w s| ≤
      ε i * (t.getD (i + 1) 0 - t.getD i 0) := by
    rw [← intervalIntegral.integral_sub (T.continuous.intervalIntegrable _ _) (hint i hi), ← abs_of_pos hp, ← Real.norm_eq_abs]
    refine intervalIntegral.norm_integral_le_of_norm_le_const fun s hs => ?_
    rw [Set.uIoc_of_le hlt.le] at hs
    rw [Real.norm_eq_abs, abs_sub_comm]
    exact hwT s ⟨hs.1.le, hs.2⟩
  have e4 : (∑ l ∈ Finset.range (N + 1), w (pointTime t c i l) * K.getD l 0) * (t.getD (i + 1) 0 - t.getD i 0) -
      ∫ s in t.getD i 0..t.getD (i + 1) 0, w s =
      (∑ l ∈ Finset.range (N + 1), w (pointTime t c i l) * K.getD l 0 - ∑ l ∈ Finset.range (N + 1), T.eval (pointTime t c i l) * K.getD l 0) *
        (t.getD (i + 1) 0 - t.getD i 0) +
      ((∫ s in t.getD i 0..t.getD (i + 1) 0, T.eval s) - ∫ s in t.getD i 0..t.getD (i + 1) 0, w s) := by
    rw [← e1]
    unfold pointTime
    ring
  rw [e4]
  refine (abs_add_le _ _).trans ?_
  rw [abs_mul, abs_of_pos hp]
  have := mul_le_mul_of_nonneg_right e2 hp.le
  linarith

end Ceacoest
