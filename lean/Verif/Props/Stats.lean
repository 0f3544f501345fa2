import Verif.Model.Stats
import Verif.Spec.Stats
import Verif.Lemmas.Lists
import Mathlib.Tactic.FieldSimp
import Mathlib.Tactic.Linarith
import Mathlib.LinearAlgebra.Matrix.Notation
import Mathlib.Analysis.Matrix.PosDef
import Mathlib.Algebra.Order.Star.Real
import Mathlib.LinearAlgebra.Matrix.Determinant.Basic

/-! # C55, C56: `modelling/stats.py` -/

namespace Ceacoest.Stats
open Matrix Spec

variable {n : Nat}

theorem pdfRow_eq (cov : Matrix (Fin n) (Fin n) ℝ) (hc : cov.det ≠ 0) (dev : Fin n → ℝ) :
    pdfRow cov dev = .ok (gauss cov dev) := by
  unfold pdfRow solve gauss
  rw [if_neg hc]
  simp only [py_bind_ok, py_pure]
  congr 4
  simp only [dotProduct, mulVec, Finset.mul_sum, mul_assoc]

theorem gauss_congr {ι κ : Type} [Fintype ι] [DecidableEq ι] [Fintype κ] [DecidableEq κ] (e : ι ≃ κ) (cov : Matrix κ κ ℝ)
    (dev : κ → ℝ) : gauss (cov.submatrix e e) (fun i => dev (e i)) = gauss cov dev := by
  unfold gauss
  rw [det_submatrix_equiv_self, inv_submatrix_equiv]
  congr 3
  simp only [submatrix_apply]
  rw [← e.sum_comp]
  refine Finset.sum_congr rfl fun i _ => ?_
  rw [← e.sum_comp]

theorem marginal_unmasked (cov : Matrix (Fin n) (Fin n) ℝ) (dev : Fin n → ℝ) (mask : Fin n → Bool)
    (h : ∀ i, mask i = false) : marginal cov dev mask = gauss cov dev :=
  gauss_congr (Equiv.subtypeUnivEquiv h) cov dev

theorem marginal_masked (cov : Matrix (Fin n) (Fin n) ℝ) (dev : Fin n → ℝ) (mask : Fin n → Bool)
    (h : ∀ i, mask i = true) : marginal cov dev mask = 1 := by
  have : IsEmpty {i // mask i = false} := ⟨fun i => by have := i.2; rw [h] at this; cases this⟩
  unfold marginal gauss
  rw [det_isEmpty]
  simp

/-- The full claim is: for every batch and mask, the result is the list of marginal densities of the unmasked entries,
`pdf masked rows cov = .ok (rows.map fun r => marginal cov (r.x - r.mean) r.mask)`.  It is false for partial masks (below).
Proved: it holds when nothing is masked (masked array or not) and when the whole batch is masked.  Missing: the code does
not take the submatrix of the covariance. -/
theorem C55_pdf_partial (masked : Bool) (rows : List (Row n)) (cov : Matrix (Fin n) (Fin n) ℝ) (hc : cov.det ≠ 0)
    (h : (∀ r ∈ rows, ∀ i, r.mask i = false) ∨ (masked = true ∧ ∀ r ∈ rows, ∀ i, r.mask i = true)) :
    pdf masked rows cov = .ok (rows.map fun r => marginal cov (fun i => r.x i - r.mean i) r.mask) := by
  unfold pdf
  by_cases hall : (masked && rows.all (fun r => (List.finRange n).all r.mask)) = true
  · rw [if_pos hall]
    simp only [Bool.and_eq_true, List.all_eq_true, List.mem_finRange, true_imp_iff] at hall
    congr 1
    refine List.map_congr_left fun r hr => ?_
    rw [marginal_masked _ _ _ (hall.2 r hr)]
  · rw [if_neg hall]
    rcases h with h | ⟨h1, h2⟩
    · refine mapM_ok fun r hr => ?_
      have : (fun i => if (masked && r.mask i) = true then 0 else r.x i - r.mean i) = fun i => r.x i - r.mean i := by
        funext i
        rw [h r hr i]
        simp
      rw [this, pdfRow_eq cov hc, marginal_unmasked _ _ _ (h r hr)]
    · exfalso
      apply hall
      simp only [Bool.and_eq_true, List.all_eq_true, List.mem_finRange, true_imp_iff]
      exact ⟨h1, h2⟩

/-- Without masks: the Gaussian density of every row. -/
theorem C55_unmasked (rows : List (Row n)) (cov : Matrix (Fin n) (Fin n) ℝ) (hc : cov.PosDef) :
    pdf false rows cov = .ok (rows.map fun r => gauss cov fun i => r.x i - r.mean i) := by
  unfold pdf
  simp only [Bool.false_and, Bool.false_eq_true, if_false]
  exact mapM_ok fun r _ => pdfRow_eq cov hc.det_pos.ne' _

/-- With a mask that leaves some entry of the batch: the joint density with the masked entries put at their means. -/
theorem C55_masked_value (rows : List (Row n)) (cov : Matrix (Fin n) (Fin n) ℝ) (hc : cov.PosDef)
    (h : ∃ r ∈ rows, ∃ i, r.mask i = false) :
    pdf true rows cov = .ok (rows.map fun r => gauss cov fun i => if r.mask i then 0 else r.x i - r.mean i) := by
  unfold pdf
  rw [if_neg]
  · simp only [Bool.true_and]
    exact mapM_ok fun r _ => pdfRow_eq cov hc.det_pos.ne' _
  · obtain ⟨r, hr, i, hi⟩ := h
    simp only [Bool.true_and, List.all_eq_true, List.mem_finRange, true_imp_iff, not_forall]
    exact ⟨r, hr, i, by simp [hi]⟩

/-- A singular covariance is rejected (unless everything is masked). -/
theorem C55_singular (r : Row n) (cov : Matrix (Fin n) (Fin n) ℝ) (hc : cov.det = 0) :
    pdf false [r] cov = .error .linAlgError := by
  unfold pdf
  simp [pdfRow, solve, hc, List.mapM_cons]

/-- Covariance `diag(4, 1)`. -/
noncomputable def cov41 : Matrix (Fin 2) (Fin 2) ℝ := diagonal ![4, 1]

theorem cov41_pd : cov41.PosDef := by
  unfold cov41
  refine PosDef.diagonal ?_
  intro i
  fin_cases i <;> simp

theorem cov41_det : cov41.det = 4 := by simp [cov41, det_diagonal, Fin.prod_univ_two]

/-- Partial masks are not marginalised: with covariance `diag(4, 1)`, first entry masked and second entry at its mean, the
code returns `1/2`, the marginal density is `1`. -/
theorem C55_partial_mask_counterexample :
    pdf true [⟨![0, 0], ![0, 0], ![true, false]⟩] cov41 = .ok [1 / 2] ∧
    marginal cov41 (fun _ => 0) ![true, false] = 1 := by
  constructor
  · rw [C55_masked_value _ _ cov41_pd ⟨_, List.mem_singleton_self _, 1, rfl⟩]
    simp only [List.map_cons, List.map_nil, Except.ok.injEq, List.cons.injEq, and_true]
    unfold gauss
    rw [cov41_det, show (4 : ℝ) = 2 ^ 2 by norm_num, Real.sqrt_sq (by norm_num)]
    simp
  · unfold marginal gauss
    have hu : Unique {i : Fin 2 // ![true, false] i = false} :=
      { default := ⟨1, rfl⟩, uniq := fun ⟨i, hi⟩ => by
          match i, hi with
          | 1, _ => rfl
          | 0, h => exact absurd h (by simp) }
    have : (cov41.submatrix (fun i : {i : Fin 2 // ![true, false] i = false} => i.1) fun i => i.1).det = 1 := by
      rw [det_unique]
      have : (default : {i : Fin 2 // ![true, false] i = false}).1 = 1 := by
        have h := (default : {i : Fin 2 // ![true, false] i = false}).2
        revert h
        generalize (default : {i : Fin 2 // ![true, false] i = false}).1 = i
        fin_cases i <;> simp
      simp [cov41, this]
    rw [this]
    simp

/-- Nor is a fully masked row inside a batch: it gets `1/sqrt(det cov)`, not `1`. -/
theorem C55_batch_counterexample :
    pdf true [⟨![0, 0], ![0, 0], ![true, true]⟩, ⟨![0, 0], ![0, 0], ![false, false]⟩] cov41 = .ok [1 / 2, 1 / 2] ∧
    marginal cov41 (fun _ => 0) ![true, true] = 1 := by
  constructor
  · rw [C55_masked_value _ _ cov41_pd ⟨⟨![0, 0], ![0, 0], ![false, false]⟩, by simp, 1, rfl⟩]
    simp only [List.map_cons, List.map_nil, Except.ok.injEq, List.cons.injEq, and_true]
    unfold gauss
    rw [cov41_det, show (4 : ℝ) = 2 ^ 2 by norm_num, Real.sqrt_sq (by norm_num)]
    simp
  · exact marginal_masked _ _ _ fun i => by fin_cases i <;> rfl

/-- C55 is not empty: a row with entries off their means. -/
example : ∃ v, pdf false [⟨![1, 2], ![0, 1], ![false, false]⟩] cov41 = .ok [v] ∧ 0 < v := by
  rw [C55_unmasked _ _ cov41_pd]
  refine ⟨_, rfl, ?_⟩
  unfold gauss
  rw [cov41_det]
  positivity

/-! ## C56 -/

theorem svdSqrt_eq (u : Matrix (Fin n) (Fin n) ℝ) (s : Fin n → ℝ) : svdSqrt u s = u * diagonal s := by
  ext i j
  simp [svdSqrt]

/-- What `svd_sqrt` really returns: a square root of `a aᵀ`. -/
theorem C56_svd_sqrt_square (a u : Matrix (Fin n) (Fin n) ℝ) (s : Fin n → ℝ) (vh : Matrix (Fin n) (Fin n) ℝ)
    (h : IsSVD a u s vh) : svdSqrt u s * (svdSqrt u s)ᵀ = a * aᵀ := by
  rw [svdSqrt_eq, h.prod]
  simp only [transpose_mul, diagonal_transpose, Matrix.mul_assoc]
  rw [← Matrix.mul_assoc vh, h.v_orth, Matrix.one_mul]

/-- The full claim is `svdSqrt u s * (svdSqrt u s)ᵀ = a` for every symmetric positive semidefinite `a`.  It is false (below);
for symmetric matrices it holds exactly when `a * a = a`.  Missing: the code should scale by the square roots of `s`. -/
theorem C56_svd_sqrt_partial (a u : Matrix (Fin n) (Fin n) ℝ) (s : Fin n → ℝ) (vh : Matrix (Fin n) (Fin n) ℝ)
    (h : IsSVD a u s vh) (ha : aᵀ = a) : svdSqrt u s * (svdSqrt u s)ᵀ = a ↔ a * a = a := by
  rw [C56_svd_sqrt_square a u s vh h, ha]

/-- For the covariance `4` of one variable every singular value decomposition gives the square `16`. -/
theorem C56_counterexample (u : Matrix (Fin 1) (Fin 1) ℝ) (s : Fin 1 → ℝ) (vh : Matrix (Fin 1) (Fin 1) ℝ)
    (h : IsSVD !![4] u s vh) : (!![4] : Matrix (Fin 1) (Fin 1) ℝ).PosDef ∧
      svdSqrt u s * (svdSqrt u s)ᵀ = !![16] ∧ svdSqrt u s * (svdSqrt u s)ᵀ ≠ !![4] := by
  have e : svdSqrt u s * (svdSqrt u s)ᵀ = !![16] := by
    rw [C56_svd_sqrt_square _ _ _ _ h]
    ext i j
    fin_cases i; fin_cases j
    simp [Matrix.mul_apply]
    norm_num
  refine ⟨?_, e, ?_⟩
  · have : (!![4] : Matrix (Fin 1) (Fin 1) ℝ) = diagonal fun _ => 4 := by
      ext i j; fin_cases i; fin_cases j; rfl
    rw [this]
    exact PosDef.diagonal fun _ => by norm_num
  · rw [e]
    intro h
    have := congrFun (congrFun h 0) 0
    norm_num at this

example : IsSVD (!![4] : Matrix (Fin 1) (Fin 1) ℝ) 1 (fun _ => 4) 1 where
  u_orth := by simp
  v_orth := by simp
  nonneg := fun _ => by norm_num
  prod := by ext i j; fin_cases i; fin_cases j; simp

/-- The intended square root: scaling by the square roots of `s` is right for symmetric positive semidefinite matrices
whose two orthogonal factors are transposes of each other. -/
theorem C56_intended (a u : Matrix (Fin n) (Fin n) ℝ) (s : Fin n → ℝ) (h : IsSVD a u s uᵀ) :
    svdSqrt u (fun i => Real.sqrt (s i)) * (svdSqrt u fun i => Real.sqrt (s i))ᵀ = a := by
  rw [svdSqrt_eq, transpose_mul, diagonal_transpose, Matrix.mul_assoc, ← Matrix.mul_assoc (diagonal _), diagonal_mul_diagonal,
    ← Matrix.mul_assoc]
  rw [h.prod]
  congr 3
  funext i
  exact Real.mul_self_sqrt (h.nonneg i)

end Ceacoest.Stats
