import Verif.Lemmas.Collocation
import Verif.Spec.Examples

/-! # Lemmas on the Bryson--Denham example (C73) -/

namespace Ceacoest
open Polynomial Spec RK

/-- Collocated double integrator: the quadrature of the input times a linear function, by parts. -/
theorem adjoint {c K : List ℝ} {J : List (List ℝ)} {N : Nat} (h : PointsOK c J N) (hN : 2 ≤ N)
    (hK : ∀ q : ℝ[X], q.natDegree ≤ 2 * N - 1 → ∑ l ∈ Finset.range (N + 1), K.getD l 0 * q.eval (c.getD l 0) = integral q 0 1)
    (t0 len : ℝ) (hlen : 0 < len) (x1 x2 u : Nat → ℝ)
    (d1 : ∀ k < N, x1 (k + 1) - x1 k - (∑ l ∈ Finset.range (N + 1), (J.getD k []).getD l 0 * x2 l) * len = 0)
    (d2 : ∀ k < N, x2 (k + 1) - x2 k - (∑ l ∈ Finset.range (N + 1), (J.getD k []).getD l 0 * u l) * len = 0)
    {w : ℝ[X]} (hw : w.natDegree ≤ 1) {a : ℝ} (hw' : derivative w = C a) :
    (∑ l ∈ Finset.range (N + 1), (u l * w.eval (t0 + len * c.getD l 0)) * K.getD l 0) * len =
      x2 N * w.eval (t0 + len) - x2 0 * w.eval t0 - a * (x1 N - x1 0) := by
  obtain ⟨y1, g1, v1, e1⟩ := (defect_iff h t0 len hlen x1 x2).1 d1
  obtain ⟨y2, g2, v2, e2⟩ := (defect_iff h t0 len hlen x2 u).1 d2
  have hm : ∀ l ∈ Finset.range (N + 1), l ≤ N := fun l hl => by simpa [Nat.lt_succ_iff] using hl
  have gd1 : (derivative y1).natDegree ≤ N := (natDegree_derivative_le y1).trans (by omega)
  have gd2 : (derivative y2).natDegree ≤ N := (natDegree_derivative_le y2).trans (by omega)
  have i1 : integral (derivative y1) t0 (t0 + len) = integral y2 t0 (t0 + len) := by
    rw [← quad_piece hK (q := derivative y1) (by omega), ← quad_piece hK (q := y2) (by omega)]
    congr 1
    refine Finset.sum_congr rfl fun l hl => ?_
    rw [e1 l (hm l hl), v2 l (hm l hl)]
  have i2 : integral (derivative y2 * w) t0 (t0 + len) + integral (C a * y2) t0 (t0 + len) =
      (y2 * w).eval (t0 + len) - (y2 * w).eval t0 := by
    rw [← integral_add, ← integral_derivative, derivative_mul, hw', mul_comm y2]
  have i3 : integral (C a * y2) t0 (t0 + len) = a * integral y2 t0 (t0 + len) := by
    unfold integral
    simp only [eval_mul, eval_C]
    rw [intervalIntegral.integral_const_mul]
  have p0 : t0 + len * c.getD 0 0 = t0 := by rw [h.first]; ring
  have pN : t0 + len * c.getD N 0 = t0 + len := by rw [h.last]; ring
  have a0 := v1 0 (Nat.zero_le _); have aN := v1 N le_rfl
  have b0 := v2 0 (Nat.zero_le _); have bN := v2 N le_rfl
  rw [p0] at a0 b0; rw [pN] at aN bN
  have : (∑ l ∈ Finset.range (N + 1), (u l * w.eval (t0 + len * c.getD l 0)) * K.getD l 0) * len =
      integral (derivative y2 * w) t0 (t0 + len) := by
    rw [← quad_piece hK (q := derivative y2 * w) (natDegree_mul_le.trans (by omega))]
    congr 1
    refine Finset.sum_congr rfl fun l hl => ?_
    rw [eval_mul, e2 l (hm l hl)]
  rw [this, eq_sub_of_add_eq i2, i3, ← i1, integral_derivative, eval_mul, eval_mul, aN, a0, bN, b0]

/-- A mesh from 0 to 1 which contains the times `α` and `1 - α`. -/
structure ArcMesh (t : List ℝ) (P : Nat) (α : ℝ) (a b : Nat) : Prop where
  length : t.length = P + 1
  inc : ∀ i < P, t.getD i 0 < t.getD (i + 1) 0
  first : t.getD 0 0 = 0
  last : t.getD P 0 = 1
  pos : 0 < α
  le : α ≤ 1 / 3
  ha : a ≤ P
  hb : b ≤ P
  arc1 : t.getD a 0 = α
  arc2 : t.getD b 0 = 1 - α

theorem ArcMesh.mono {t : List ℝ} {P : Nat} {α : ℝ} {a b : Nat} (h : ArcMesh t P α a b) {i j : Nat} (hij : i ≤ j) (hj : j ≤ P) :
    t.getD i 0 ≤ t.getD j 0 := by
  induction j, hij using Nat.le_induction with
  | base => exact le_rfl
  | succ j hj' ih => exact (ih (by omega)).trans (h.inc j (by omega)).le

theorem ArcMesh.lt {t : List ℝ} {P : Nat} {α : ℝ} {a b : Nat} (h : ArcMesh t P α a b) : a < b := by
  by_contra hc
  have := h.mono (Nat.le_of_not_lt hc) h.ha
  rw [h.arc1, h.arc2] at this
  linarith [h.le, h.pos]

/-- The arcs on the pieces, as polynomials. -/
theorem ArcMesh.arcs {t : List ℝ} {P : Nat} {α : ℝ} {a b : Nat} (h : ArcMesh t P α a b) {i : Nat} (hi : i < P) :
    ∃ A B : ℝ[X], A.natDegree ≤ 1 ∧ B.natDegree ≤ 1 ∧ derivative A = C (if i < a then -α⁻¹ else 0) ∧
      derivative B = C (if b ≤ i then α⁻¹ else 0) ∧ (¬ i < a → A = 0) ∧ (¬ b ≤ i → B = 0) ∧
      ∀ s ∈ pieceOf t i, brysonDenhamArc α s = A.eval s ∧ brysonDenhamArc α (1 - s) = B.eval s := by
  have hab := h.lt
  have h0 := h.pos
  have hle := h.le
  have lin : ∀ a b : ℝ, (C a + C b * X : ℝ[X]).natDegree ≤ 1 := fun a b => by
    refine (natDegree_add_le _ _).trans ?_
    simp only [natDegree_C, Nat.max_le, Nat.zero_le, true_and]
    exact natDegree_C_mul_le _ _ |>.trans natDegree_X_le
  refine ⟨if i < a then C 1 + C (-α⁻¹) * X else 0, if b ≤ i then C (1 - α⁻¹) + C α⁻¹ * X else 0, ?_, ?_, ?_, ?_, ?_, ?_, ?_⟩
  · split
    · exact lin _ _
    · simp
  · split
    · exact lin _ _
    · simp
  · split <;> simp
  · split <;> simp
  · intro hh; rw [if_neg hh]
  · intro hh; rw [if_neg hh]
  · intro s hs
    obtain ⟨s1, s2⟩ := hs
    unfold brysonDenhamArc
    constructor
    · split
      · next hia =>
        have : s ≤ α := by rw [← h.arc1]; exact s2.trans (h.mono (by omega) h.ha)
        have h2 : s / α ≤ 1 := by rw [div_le_one h0]; exact this
        rw [max_eq_left (by linarith)]
        simp only [eval_add, eval_mul, eval_C, eval_X]
        ring
      · next hia =>
        have : α ≤ s := by rw [← h.arc1]; exact (h.mono (by omega) (by omega)).trans s1
        have h2 : 1 ≤ s / α := by rw [one_le_div h0]; exact this
        rw [max_eq_right (by linarith)]
        simp
    · split
      · next hib =>
        have : 1 - α ≤ s := by rw [← h.arc2]; exact (h.mono hib (by omega)).trans s1
        have h2 : (1 - s) / α ≤ 1 := by rw [div_le_one h0]; linarith
        rw [max_eq_left (by linarith)]
        simp only [eval_add, eval_mul, eval_C, eval_X]
        ring
      · next hib =>
        have : s ≤ 1 - α := by rw [← h.arc2]; exact s2.trans (h.mono (by omega) h.hb)
        have h2 : 1 ≤ (1 - s) / α := by rw [one_le_div h0]; linarith
        rw [max_eq_right (by linarith)]
        simp

theorem adjoint_sum {c K : List ℝ} {J : List (List ℝ)} {N : Nat} (h : PointsOK c J N) (hN : 2 ≤ N)
    (hK : ∀ q : ℝ[X], q.natDegree ≤ 2 * N - 1 → ∑ l ∈ Finset.range (N + 1), K.getD l 0 * q.eval (c.getD l 0) = integral q 0 1)
    {t : List ℝ} {P : Nat} {α : ℝ} {a b : Nat} (hm : ArcMesh t P α a b) (x1 x2 u : Nat → ℝ)
    (d1 : ∀ i < P, ∀ k < N, x1 (i * N + k + 1) - x1 (i * N + k) -
      (∑ l ∈ Finset.range (N + 1), (J.getD k []).getD l 0 * x2 (i * N + l)) * (t.getD (i + 1) 0 - t.getD i 0) = 0)
    (d2 : ∀ i < P, ∀ k < N, x2 (i * N + k + 1) - x2 (i * N + k) -
      (∑ l ∈ Finset.range (N + 1), (J.getD k []).getD l 0 * u (i * N + l)) * (t.getD (i + 1) 0 - t.getD i 0) = 0) :
    ∀ n ≤ P, ∑ i ∈ Finset.range n, (∑ l ∈ Finset.range (N + 1),
        (u (i * N + l) * (brysonDenhamInput α (pointTime t c i l)).getD 0 0) * K.getD l 0) * (t.getD (i + 1) 0 - t.getD i 0) =
      x2 (n * N) * (brysonDenhamInput α (t.getD n 0)).getD 0 0 - x2 0 * (brysonDenhamInput α (t.getD 0 0)).getD 0 0 -
        2 / α ^ 2 * (x1 (min n a * N) - x1 0) + 2 / α ^ 2 * (x1 (max n b * N) - x1 (b * N)) := by
  intro n
  induction n with
  | zero => intro _; simp
  | succ i ih =>
    intro hi
    rw [Finset.sum_range_succ, ih (by omega)]
    obtain ⟨A, B, hA, hB, hA', hB', -, -, hv⟩ := hm.arcs (i := i) (by omega)
    have hlen : 0 < t.getD (i + 1) 0 - t.getD i 0 := sub_pos.2 (hm.inc i (by omega))
    have hw : (C (-(2 / α)) * (A + B)).natDegree ≤ 1 := (natDegree_C_mul_le _ _).trans ((natDegree_add_le _ _).trans (max_le hA hB))
    have hw' : derivative (C (-(2 / α)) * (A + B)) = C (-(2 / α) * ((if i < a then -α⁻¹ else 0) + if b ≤ i then α⁻¹ else 0)) := by
      rw [derivative_C_mul, derivative_add, hA', hB', ← C_add, ← C_mul]
    have hev : ∀ s ∈ pieceOf t i, (brysonDenhamInput α s).getD 0 0 = (C (-(2 / α)) * (A + B)).eval s := fun s hs => by
      obtain ⟨e1, e2⟩ := hv s hs
      simp only [brysonDenhamInput, List.getD_cons_zero, eval_mul, eval_C, eval_add, e1, e2]
    have key := adjoint h hN hK (t.getD i 0) (t.getD (i + 1) 0 - t.getD i 0) hlen (fun l => x1 (i * N + l)) (fun l => x2 (i * N + l))
      (fun l => u (i * N + l)) (d1 i (by omega)) (d2 i (by omega)) hw hw'
    rw [add_sub_cancel, ← hev _ ⟨(hm.inc i (by omega)).le, le_rfl⟩,
      ← hev _ ⟨le_rfl, (hm.inc i (by omega)).le⟩] at key
    have hsum : ∑ l ∈ Finset.range (N + 1), (u (i * N + l) * (brysonDenhamInput α (pointTime t c i l)).getD 0 0) * K.getD l 0 =
        ∑ l ∈ Finset.range (N + 1), (u (i * N + l) *
          (C (-(2 / α)) * (A + B)).eval (t.getD i 0 + (t.getD (i + 1) 0 - t.getD i 0) * c.getD l 0)) * K.getD l 0 := by
      refine Finset.sum_congr rfl fun l hl => ?_
      rw [hev _ (pointTime_mem (hm.inc i (by omega)) (h.mem l (by simpa [Nat.lt_succ_iff] using hl)))]
      rfl
    rw [hsum, key]
    have hab := hm.lt
    have e1 : i * N + N = (i + 1) * N := by ring
    rw [e1, Nat.add_zero]
    have hα := hm.pos.ne'
    rcases Nat.lt_or_ge i a with hia | hia
    · rw [if_pos hia, if_neg (by omega), Nat.min_eq_left (by omega), Nat.min_eq_left (by omega), Nat.max_eq_right (by omega),
        Nat.max_eq_right (by omega)]
      field_simp
      ring
    · rcases Nat.lt_or_ge i b with hib | hib
      · rw [if_neg (by omega), if_neg (by omega), Nat.min_eq_right (by omega), Nat.min_eq_right (by omega), Nat.max_eq_right (by omega),
          Nat.max_eq_right (by omega)]
        ring
      · rw [if_neg (by omega), if_pos hib, Nat.min_eq_right (by omega), Nat.min_eq_right (by omega), Nat.max_eq_left (by omega),
          Nat.max_eq_left (by omega)]
        field_simp
        ring

end Ceacoest
