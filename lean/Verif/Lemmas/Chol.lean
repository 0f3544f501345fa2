import Verif.Model.UT
import Verif.Lemmas.Lists
import Mathlib.Analysis.Matrix.LDL
import Mathlib.Analysis.Matrix.PosDef
import Mathlib.Analysis.Matrix.Order
import Mathlib.Analysis.SpecialFunctions.ContinuousFunctionalCalculus.Rpow.Basic
import Verif.Spec.Kalman
import Mathlib.Algebra.Order.Star.Real
import Mathlib.LinearAlgebra.Matrix.Block
import Mathlib.Tactic.Ring
import Mathlib.Tactic.FieldSimp
import Mathlib.Tactic.Linarith
import Mathlib.Tactic.Positivity

/-! # Cholesky factors: existence, uniqueness, linearisation -/

namespace Ceacoest
open Matrix
variable {ι : Type} [Fintype ι] [LinearOrder ι]

theorem sum_le_split (j : ι) (g : ι → ℝ) (h : ∀ k, j < k → g k = 0) : ∑ k, g k = (∑ k ∈ Finset.univ.filter (· < j), g k) + g j := by
  rw [← Finset.sum_filter_add_sum_filter_not Finset.univ (· < j)]
  congr 1
  rw [Finset.sum_eq_single j]
  · intro k hk hkj
    rw [Finset.mem_filter] at hk
    exact h k (lt_of_le_of_ne (not_lt.1 hk.2) (Ne.symm hkj))
  · intro hj
    exact absurd (by simp) hj

theorem IsChol.entry {Q L : Matrix ι ι ℝ} (h : IsChol Q L) (i j : ι) :
    (∑ k ∈ Finset.univ.filter (· < j), L i k * L j k) + L i j * L j j = Q i j := by
  rw [← h.eq, mul_apply, ← sum_le_split j fun k => L i k * L j k]
  · rfl
  · intro k hk
    rw [h.lower j k hk, mul_zero]

/-- Uniqueness of Cholesky factors. -/
theorem IsChol.unique {Q L L' : Matrix ι ι ℝ} (h : IsChol Q L) (h' : IsChol Q L') : L = L' := by
  have key : ∀ j, ∀ i, L i j = L' i j := by
    intro j
    induction j using WellFoundedLT.induction with
    | ind j ih =>
      have hs : ∀ i, ∑ k ∈ Finset.univ.filter (· < j), L i k * L j k = ∑ k ∈ Finset.univ.filter (· < j), L' i k * L' j k := by
        intro i
        refine Finset.sum_congr rfl fun k hk => ?_
        have := (Finset.mem_filter.1 hk).2
        rw [ih k this i, ih k this j]
      have hd : L j j = L' j j := by
        have e := (h.entry j j).trans (h'.entry j j).symm
        rw [hs j] at e
        have := add_left_cancel e
        nlinarith [h.pos j, h'.pos j]
      intro i
      have e := (h.entry i j).trans (h'.entry i j).symm
      rw [hs i, hd] at e
      exact mul_right_cancel₀ (h'.pos j).ne' (add_left_cancel e)
  ext i j
  exact key j i

theorem IsChol.posDef {Q L : Matrix ι ι ℝ} (h : IsChol Q L) : Q.PosDef := by
  have hdet : IsUnit L.det := by
    have : L.BlockTriangular OrderDual.toDual := fun i j hij => h.lower i j hij
    rw [det_of_lowerTriangular L this, isUnit_iff_ne_zero]
    exact Finset.prod_ne_zero_iff.2 fun i _ => (h.pos i).ne'
  rw [← h.eq]
  have hu : IsUnit L := (Matrix.isUnit_iff_isUnit_det L).2 hdet
  have := (Matrix.IsUnit.posDef_star_right_conjugate_iff (x := (1 : Matrix ι ι ℝ)) hu).2 Matrix.PosDef.one
  simpa [star_eq_conjTranspose, conjTranspose_eq_transpose_of_trivial] using this

theorem exists_isChol {Q : Matrix ι ι ℝ} (h : Q.PosDef) : ∃ L, IsChol Q L := by
  letI : LocallyFiniteOrderBot ι := LocallyFiniteOrderBot.ofIic ι (fun a => Finset.univ.filter (· ≤ a)) (by simp)
  let M : Matrix ι ι ℝ := LDL.lowerInv h
  have hlow : M.BlockTriangular OrderDual.toDual := fun i j hij => LDL.lowerInv_triangular h hij
  haveI : Invertible M := LDL.invertibleLowerInv h
  let N : Matrix ι ι ℝ := M⁻¹
  have hN : N.BlockTriangular OrderDual.toDual := blockTriangular_inv_of_blockTriangular hlow
  have hNM : N * M = 1 := Matrix.inv_mul_of_invertible M
  have hQ : N * LDL.diag h * Nᵀ = Q := by
    have := LDL.lower_conj_diag h
    rw [conjTranspose_eq_transpose_of_trivial] at this
    exact this
  have hne : ∀ j, N j j ≠ 0 := by
    intro j h0
    have := congrFun (congrFun hNM j) j
    rw [mul_apply, one_apply_eq, Finset.sum_eq_zero] at this
    · exact zero_ne_one this
    · intro k _
      rcases lt_trichotomy k j with hk | hk | hk
      · rw [hlow hk, mul_zero]
      · rw [hk, h0, zero_mul]
      · rw [hN hk, zero_mul]
  let d : ι → ℝ := LDL.diagEntries h
  have hd : ∀ j, 0 < d j := by
    intro j
    have e : d j = M j ⬝ᵥ Q *ᵥ M j := by
      have h1 : d j = LDL.diag h j j := by simp [d, LDL.diag]
      rw [h1, LDL.diag_eq_lowerInv_conj]
      show (M * Q * Mᴴ) j j = _
      rw [Matrix.mul_assoc, mul_apply]
      simp only [dotProduct, mulVec, mul_apply, conjTranspose_apply, star_trivial]
    rw [e]
    have hv : M j ≠ 0 := by
      intro h0
      have := congrFun (congrFun (Matrix.mul_inv_of_invertible M) j) j
      rw [mul_apply, one_apply_eq, Finset.sum_eq_zero] at this
      · exact zero_ne_one this
      · intro k _
        rw [h0]; simp
    simpa using h.dotProduct_mulVec_pos hv
  let σ : ι → ℝ := fun j => if 0 < N j j then 1 else -1
  have hσ : ∀ j, σ j * σ j = 1 := by intro j; simp only [σ]; split <;> norm_num
  refine ⟨Matrix.of fun i j => N i j * (Real.sqrt (d j) * σ j), ⟨fun i j hij => ?_, fun i => ?_, ?_⟩⟩
  · simp only [of_apply, hN hij, zero_mul]
  · have hs := Real.sqrt_pos.2 (hd i)
    simp only [of_apply, σ]
    split
    · rename_i hp; positivity
    · rename_i hp
      have : N i i < 0 := lt_of_le_of_ne (not_lt.1 hp) (hne i)
      nlinarith
  · refine Eq.trans ?_ hQ
    ext i j
    rw [mul_apply, mul_apply]
    refine Finset.sum_congr rfl fun k _ => ?_
    simp only [LDL.diag, mul_diagonal, transpose_apply, of_apply]
    have := Real.mul_self_sqrt (hd k).le
    have h2 := hσ k
    calc N i k * (Real.sqrt (d k) * σ k) * (N j k * (Real.sqrt (d k) * σ k))
        = N i k * (Real.sqrt (d k) * Real.sqrt (d k)) * (σ k * σ k) * N j k := by ring
      _ = N i k * d k * N j k := by rw [this, h2, mul_one]

theorem isChol_iff_posDef (Q : Matrix ι ι ℝ) : (∃ L, IsChol Q L) ↔ Q.PosDef := ⟨fun ⟨_, h⟩ => h.posDef, exists_isChol⟩

theorem npCholesky_ok_iff (Q L : Matrix ι ι ℝ) : npCholesky Q = .ok L ↔ IsChol (lowerSym Q) L := by
  unfold npCholesky
  constructor
  · intro h
    split at h
    · rename_i hex
      rw [← Except.ok.inj h]
      exact hex.choose_spec
    · cases h
  · intro h
    rw [dif_pos ⟨L, h⟩]
    exact congrArg _ ((Exists.choose_spec (⟨L, h⟩ : ∃ L, IsChol (lowerSym Q) L)).unique h)

theorem npCholesky_error (Q : Matrix ι ι ℝ) (h : ¬(lowerSym Q).PosDef) : npCholesky Q = .error .linAlgError := by
  unfold npCholesky
  rw [dif_neg (by rwa [isChol_iff_posDef])]

omit [Fintype ι] in
theorem lowerSym_of_symm {Q : Matrix ι ι ℝ} (h : Qᵀ = Q) : lowerSym Q = Q := by
  ext i j
  simp only [lowerSym, of_apply]
  split
  · rfl
  · exact congrFun (congrFun h i) j

omit [Fintype ι] in
theorem lowerSym_symm (Q : Matrix ι ι ℝ) : (lowerSym Q)ᵀ = lowerSym Q := by
  ext i j
  simp only [transpose_apply, lowerSym, of_apply]
  rcases lt_trichotomy i j with h | h | h
  · rw [if_pos h.le, if_neg (not_le.2 h)]
  · subst h; rfl
  · rw [if_neg (not_le.2 h), if_pos h.le]

/-- The upper factor. -/
theorem cholU_ok {Q : Matrix ι ι ℝ} (h : Q.PosDef) : ∃ S, cholU Q = .ok S ∧ IsChol Q Sᵀ := by
  obtain ⟨L, hL⟩ := exists_isChol h
  have hs : Qᵀ = Q := by have := h.isHermitian; rwa [IsHermitian, conjTranspose_eq_transpose_of_trivial] at this
  have e : npCholesky Q = .ok L := (npCholesky_ok_iff Q L).2 (by rwa [lowerSym_of_symm hs])
  exact ⟨Lᵀ, by rw [cholU, e]; rfl, by rwa [transpose_transpose]⟩

theorem cholU_isChol {Q S : Matrix ι ι ℝ} (h : cholU Q = .ok S) : IsChol (lowerSym Q) Sᵀ := by
  unfold cholU at h
  cases e : npCholesky Q with
  | error err => rw [e] at h; cases h
  | ok L =>
    rw [e] at h
    have h : (.ok Lᵀ : Py (Matrix ι ι ℝ)) = .ok S := h
    rw [← Except.ok.inj h, transpose_transpose]
    exact (npCholesky_ok_iff Q L).1 e

theorem cholU_error {Q : Matrix ι ι ℝ} (h : ¬(lowerSym Q).PosDef) : cholU Q = .error .linAlgError := by
  rw [cholU, npCholesky_error Q h]; rfl

theorem isChol_mul {Q S : Matrix ι ι ℝ} (h : IsChol Q Sᵀ) : Sᵀ * S = Q := by
  have := h.eq
  rwa [transpose_transpose] at this

open scoped MatrixOrder Matrix.Norms.L2Operator in
/-- Uniqueness of positive semidefinite square roots. -/
theorem psd_sq_unique {n : Type} [Fintype n] [DecidableEq n] {A B : Matrix n n ℝ} (hA : A.PosSemidef) (hB : B.PosSemidef)
    (h : A * A = B * B) : A = B := by
  have h1 := CFC.sqrt_unique (a := A * A) (b := A) rfl hA.nonneg
  have h2 := CFC.sqrt_unique (a := B * B) (b := B) rfl hB.nonneg
  rw [← h1, h, h2]

/-- In a singular value decomposition of a positive semidefinite matrix, the left singular vectors are enough. -/
theorem svd_psd {n : Type} [Fintype n] [DecidableEq n] {Q U VT : Matrix n n ℝ} {s : n → ℝ} (hQ : Q.PosSemidef) (hU : U * Uᵀ = 1)
    (hV : VT * VTᵀ = 1) (hs : ∀ i, 0 ≤ s i) (h : Q = U * diagonal s * VT) : U * diagonal s * Uᵀ = Q := by
  have hB : (U * diagonal s * Uᵀ).PosSemidef := by
    have := (PosSemidef.diagonal (d := s) hs).mul_mul_conjTranspose_same U
    rwa [conjTranspose_eq_transpose_of_trivial] at this
  refine psd_sq_unique hB hQ ?_
  have hsym : Qᵀ = Q := by have := hQ.isHermitian; rwa [IsHermitian, conjTranspose_eq_transpose_of_trivial] at this
  have hUU : Uᵀ * U = 1 := mul_eq_one_comm.1 hU
  have e1 : U * diagonal s * Uᵀ * (U * diagonal s * Uᵀ) = U * diagonal s * (diagonal s * Uᵀ) := by
    have : U * diagonal s * Uᵀ * (U * diagonal s * Uᵀ) = U * diagonal s * (Uᵀ * U) * (diagonal s * Uᵀ) := by
      simp only [Matrix.mul_assoc]
    rw [this, hUU, Matrix.mul_one]
  have e2 : Q * Q = U * diagonal s * (diagonal s * Uᵀ) := by
    have : Q * Q = Q * Qᵀ := by rw [hsym]
    rw [this, h, transpose_mul, transpose_mul, diagonal_transpose]
    have : U * diagonal s * VT * (VTᵀ * (diagonal s * Uᵀ)) = U * diagonal s * (VT * VTᵀ) * (diagonal s * Uᵀ) := by
      simp only [Matrix.mul_assoc]
    rw [this, hV, Matrix.mul_one]
  rw [e1, e2]

end Ceacoest
