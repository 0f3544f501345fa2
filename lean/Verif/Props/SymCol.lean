import Verif.Model.SymCol
import Verif.Props.LGL
import Mathlib.LinearAlgebra.Matrix.Rank
import Mathlib.LinearAlgebra.Matrix.ToLin
import Mathlib.LinearAlgebra.Matrix.DotProduct
import Mathlib.LinearAlgebra.Matrix.Notation
import Mathlib.Tactic.FinCases

/-! # C27, C28, C64: collocation defects, process-noise coordinates, tube log-density and penalty -/

namespace Ceacoest
open Polynomial Spec Matrix RK

variable {m nx nu np nw r : Nat}

/-- `J` of a method with distinct points integrates the samples of polynomials exactly. -/
theorem Jm_exact (points : List ℝ) (hn : points.Nodup) (hlen : points.length = m + 1) (hm : 1 ≤ m) (col : Collocation ℝ)
    (hcol : collocation points = .ok col) (q : ℝ[X]) (hq : q.degree < (m + 1 : Nat)) (k : Fin m) :
    ∑ i, col.Jm m k i * q.eval (points.getD i 0) = integral q (points.getD k 0) (points.getD (k + 1) 0) := by
  obtain ⟨col', hcol', -, -, -, hJ, -⟩ := C24_exact points hn (by omega)
  rw [hcol] at hcol'
  cases hcol'
  have := hJ q (by rw [hlen]; exact hq) k (by rw [hlen]; exact k.2)
  rw [hlen, Finset.sum_range] at this
  exact this

theorem points_inj (points : List ℝ) (hn : points.Nodup) (hlen : points.length = m + 1) :
    Set.InjOn (fun i : Fin (m + 1) => points.getD i 0) (Finset.univ : Finset (Fin (m + 1))) := by
  intro i _ j _ h
  simp only [getD_of_lt points 0 (show i.1 < points.length by omega), getD_of_lt points 0 (show j.1 < points.length by omega)] at h
  exact Fin.ext ((hn.getElem_inj_iff).1 h)

/-- Every set of samples is interpolated by a polynomial of degree less than the number of points. -/
theorem exists_interp (points : List ℝ) (hn : points.Nodup) (hlen : points.length = m + 1) (v : Fin (m + 1) → ℝ) :
    ∃ q : ℝ[X], q.degree < (m + 1 : Nat) ∧ ∀ i : Fin (m + 1), q.eval (points.getD i 0) = v i := by
  have hinj := points_inj points hn hlen
  refine ⟨Lagrange.interpolate Finset.univ (fun i : Fin (m + 1) => points.getD i 0) v, ?_, fun i => ?_⟩
  · have := Lagrange.degree_interpolate_lt v hinj
    simpa using this
  · exact Lagrange.eval_interpolate_at_node v hinj (Finset.mem_univ i)

/-- The defects of a piece vanish iff every state increment between consecutive points is the exact integral, over that
interval of the piece, of the polynomial of degree less than the number of points that interpolates `f` (in normalised time). -/
theorem C27_defects (points : List ℝ) (hn : points.Nodup) (hlen : points.length = m + 1) (hm : 1 ≤ m) (col : Collocation ℝ)
    (hcol : collocation points = .ok col) (f : VField nx nu np) (xp : Matrix (Fin (m + 1)) (Fin nx) ℝ)
    (up : Matrix (Fin (m + 1)) (Fin nu) ℝ) (p : Fin np → ℝ) (pieceLen : ℝ) :
    (∃ q : Fin nx → ℝ[X], ∀ j, (q j).degree < (m + 1 : Nat) ∧ ∀ i : Fin (m + 1), (q j).eval (points.getD i 0) = f (xp i) (up i) p j) ∧
    ∀ q : Fin nx → ℝ[X],
      (∀ j, (q j).degree < (m + 1 : Nat) ∧ ∀ i : Fin (m + 1), (q j).eval (points.getD i 0) = f (xp i) (up i) p j) →
      (SymCol.e (col.Jm m) f xp up p pieceLen = 0 ↔
        ∀ (k : Fin m) j, xp k.succ j - xp k.castSucc j = pieceLen * integral (q j) (points.getD k 0) (points.getD (k + 1) 0)) := by
  refine ⟨?_, fun q hq => ?_⟩
  · choose q hq using fun j => exists_interp points hn hlen fun i => f (xp i) (up i) p j
    exact ⟨q, hq⟩
  have hJ : ∀ (k : Fin m) j, (col.Jm m * fpMat f xp up p) k j = integral (q j) (points.getD k 0) (points.getD (k + 1) 0) := by
    intro k j
    rw [← Jm_exact points hn hlen hm col hcol (q j) (hq j).1 k, mul_apply]
    exact Finset.sum_congr rfl fun i _ => by rw [(hq j).2 i]; rfl
  constructor
  · intro h k j
    have := congrFun (congrFun h k) j
    simp only [SymCol.e, of_apply, hJ] at this
    simp only [Matrix.zero_apply] at this
    linarith
  · intro h
    ext k j
    simp only [SymCol.e, of_apply, hJ, h k j]
    simp
    ring

/-- A polynomial path of degree at most the number of points, whose derivative is `f` at the collocation points of a piece that
starts at `t0` and has length `pieceLen`, has zero defects. -/
theorem C27_polynomial (points : List ℝ) (hn : points.Nodup) (hlen : points.length = m + 1) (hm : 1 ≤ m) (col : Collocation ℝ)
    (hcol : collocation points = .ok col) (f : VField nx nu np) (up : Matrix (Fin (m + 1)) (Fin nu) ℝ) (p : Fin np → ℝ)
    (t0 pieceLen : ℝ) (z : Fin nx → ℝ[X]) (hz : ∀ j, (z j).natDegree ≤ m + 1) (xp : Matrix (Fin (m + 1)) (Fin nx) ℝ)
    (hxp : ∀ i j, xp i j = (z j).eval (t0 + pieceLen * points.getD i 0))
    (hd : ∀ (i : Fin (m + 1)) j, (derivative (z j)).eval (t0 + pieceLen * points.getD i 0) = f (xp i) (up i) p j) :
    SymCol.e (col.Jm m) f xp up p pieceLen = 0 := by
  ext k j
  set y : ℝ[X] := (z j).comp (C t0 + C pieceLen * X) with hy
  have hyd : derivative y = C pieceLen * (derivative (z j)).comp (C t0 + C pieceLen * X) := by
    rw [hy, derivative_comp]
    simp
  have hdeg : (derivative y).degree < (m + 1 : Nat) := by
    by_cases h0 : derivative y = 0
    · rw [h0, degree_zero]; exact WithBot.bot_lt_coe _
    rw [degree_eq_natDegree h0]
    have h1 := natDegree_derivative_le y
    have h2 : y.natDegree ≤ m + 1 := by
      refine natDegree_comp_le.trans ?_
      have : (C t0 + C pieceLen * X : ℝ[X]).natDegree ≤ 1 := by
        refine (natDegree_add_le _ _).trans ?_
        simp only [natDegree_C, Nat.max_le, Nat.zero_le, true_and]
        exact natDegree_C_mul_le _ _ |>.trans natDegree_X_le
      calc _ ≤ (z j).natDegree * 1 := Nat.mul_le_mul_left _ this
        _ ≤ _ := by rw [mul_one]; exact hz j
    exact_mod_cast (by omega : (derivative y).natDegree < m + 1)
  have hint := Jm_exact points hn hlen hm col hcol (derivative y) hdeg k
  rw [integral_derivative] at hint
  have hyv : ∀ s, y.eval s = (z j).eval (t0 + pieceLen * s) := fun s => by simp [hy, eval_comp]
  have hdv : ∀ s, (derivative y).eval s = pieceLen * (derivative (z j)).eval (t0 + pieceLen * s) := fun s => by
    rw [hyd]; simp [eval_comp]
  simp only [SymCol.e, of_apply, Matrix.zero_apply, mul_apply, Finset.sum_mul]
  rw [hxp, hxp]
  have e1 : points.getD (k.succ : Fin (m + 1)) 0 = points.getD (k + 1) 0 := by simp
  have e2 : points.getD (k.castSucc : Fin (m + 1)) 0 = points.getD k 0 := by simp
  rw [e1, e2, ← hyv, ← hyv, ← hint, sub_eq_zero]
  refine Finset.sum_congr rfl fun i _ => ?_
  rw [hdv, hd]
  simp only [fpMat, of_apply]
  ring

/-- `J` maps samples onto all possible increments. -/
theorem Jm_surjective (points : List ℝ) (hn : points.Nodup) (hlen : points.length = m + 1) (hm : 1 ≤ m) (col : Collocation ℝ)
    (hcol : collocation points = .ok col) (d : Fin m → ℝ) : ∃ v : Fin (m + 1) → ℝ, col.Jm m *ᵥ v = d := by
  obtain ⟨q, hq, hv⟩ := exists_interp points hn hlen fun i => ∑ l ∈ Finset.univ.filter (fun l : Fin m => l.1 < i.1), d l
  refine ⟨fun i => (derivative q).eval (points.getD i 0), ?_⟩
  funext k
  have hdeg : (derivative q).degree < (m + 1 : Nat) := lt_of_le_of_lt (degree_derivative_le) hq
  have h := Jm_exact points hn hlen hm col hcol (derivative q) hdeg k
  rw [integral_derivative] at h
  have e1 : points.getD (k + 1) 0 = points.getD (k.succ : Fin (m + 1)) 0 := by simp
  have e2 : points.getD k 0 = points.getD (k.castSucc : Fin (m + 1)) 0 := by simp
  rw [e1, hv k.succ, e2, hv k.castSucc] at h
  refine (show _ = _ from h).trans ?_
  rw [sub_eq_iff_eq_add]
  have : Finset.univ.filter (fun l : Fin m => l.1 < k.succ.1) = insert k (Finset.univ.filter fun l : Fin m => l.1 < k.castSucc.1) := by
    ext l
    simp only [Finset.mem_filter, Finset.mem_univ, true_and, Finset.mem_insert, Fin.val_succ, Fin.val_castSucc, Fin.ext_iff]
    omega
  rw [this, Finset.sum_insert (by simp)]

/-- `J` has full row rank for distinct points. -/
theorem C28_rank (points : List ℝ) (hn : points.Nodup) (hlen : points.length = m + 1) (hm : 1 ≤ m) (col : Collocation ℝ)
    (hcol : collocation points = .ok col) : (col.Jm m).rank = m := by
  have hs : Function.Surjective (col.Jm m).mulVecLin := fun d => by
    obtain ⟨v, hv⟩ := Jm_surjective points hn hlen hm col hcol d
    exact ⟨v, hv⟩
  rw [Matrix.rank, LinearMap.range_eq_top.2 hs, finrank_top, Module.finrank_fin_fun]

/-- What `scipy.linalg.orth(A)` returns: orthonormal columns that span the range of `A`. -/
structure IsOrth {n k r : Nat} (A : Matrix (Fin n) (Fin k) ℝ) (V : Matrix (Fin n) (Fin r) ℝ) : Prop where
  orthonormal : Vᵀ * V = 1
  span : LinearMap.range V.mulVecLin = LinearMap.range A.mulVecLin

/-- The projection onto the columns of `V` does not change `J w`. -/
theorem orth_proj {k n r : Nat} (J : Matrix (Fin k) (Fin n) ℝ) (V : Matrix (Fin n) (Fin r) ℝ) (hV : IsOrth Jᵀ V) :
    J * (V * Vᵀ) = J := by
  have h : V * Vᵀ * Jᵀ = Jᵀ := by
    ext i j
    have hm : Jᵀ *ᵥ Pi.single j 1 ∈ LinearMap.range V.mulVecLin := by
      rw [hV.span]
      exact ⟨Pi.single j 1, rfl⟩
    obtain ⟨y, hy⟩ := hm
    have hy' : V *ᵥ y = Jᵀ *ᵥ Pi.single j 1 := hy
    have : (V * Vᵀ * Jᵀ) *ᵥ Pi.single j 1 = Jᵀ *ᵥ Pi.single j 1 := by
      rw [← mulVec_mulVec, ← hy', mulVec_mulVec, Matrix.mul_assoc, hV.orthonormal, Matrix.mul_one]
    simpa using congrFun this i
  have := congrArg transpose h
  simpa using this

/-- The basis has exactly as many columns as there are intervals: the declared shape of `wc`. -/
theorem C28_columns (points : List ℝ) (hn : points.Nodup) (hlen : points.length = m + 1) (hm : 1 ≤ m) (col : Collocation ℝ)
    (hcol : collocation points = .ok col) (V : Matrix (Fin (m + 1)) (Fin r) ℝ) (hV : IsOrth (col.Jm m)ᵀ V) : r = m := by
  have hinj : Function.Injective V.mulVecLin := by
    intro a b h
    have h' : V *ᵥ a = V *ᵥ b := h
    have := congrArg (Vᵀ *ᵥ ·) h'
    simpa [mulVec_mulVec, hV.orthonormal] using this
  have h1 := LinearMap.finrank_range_of_inj hinj
  rw [hV.span] at h1
  have h2 : (col.Jm m)ᵀ.rank = m := by
    rw [rank_transpose, C28_rank points hn hlen hm col hcol]
  rw [Matrix.rank] at h2
  rw [h2, Module.finrank_fin_fun] at h1
  exact h1.symm

/-- Sum of the squares of the entries. -/
def sumSq {a b : Nat} (w : Matrix (Fin a) (Fin b) ℝ) : ℝ := ∑ i, ∑ j, w i j ^ 2

theorem sumSq_eq_trace {a b : Nat} (w : Matrix (Fin a) (Fin b) ℝ) : sumSq w = (wᵀ * w).trace := by
  simp only [sumSq, trace, diag, mul_apply, transpose_apply]
  rw [Finset.sum_comm]
  exact Finset.sum_congr rfl fun i _ => Finset.sum_congr rfl fun j _ => by ring

/-- Every noise path has coordinates that give the same defects, with no larger norm, and the coordinates are unique. -/
theorem C28_lossless (J : Matrix (Fin m) (Fin (m + 1)) ℝ) (V : Matrix (Fin (m + 1)) (Fin r) ℝ) (hV : IsOrth Jᵀ V)
    (f : VField nx nu np) (xp : Matrix (Fin (m + 1)) (Fin nx) ℝ) (up : Matrix (Fin (m + 1)) (Fin nu) ℝ) (p : Fin np → ℝ)
    (pieceLen : ℝ) (G : Matrix (Fin nx) (Fin nw) ℝ) (w : Matrix (Fin (m + 1)) (Fin nw) ℝ) :
    ∃ wc : Matrix (Fin r) (Fin nw) ℝ,
      (SymJme.e J V f xp up p pieceLen wc G = of fun (k : Fin m) j =>
        xp k.succ j - xp k.castSucc j - (J * (fpMat f xp up p + w * Gᵀ)) k j * pieceLen) ∧
      J * (V * wc) = J * w ∧ sumSq (V * wc) ≤ sumSq w ∧ sumSq wc = sumSq (V * wc) ∧
      ∀ wc', J * (V * wc') = J * w → wc' = wc := by
  have hproj := orth_proj J V hV
  have hJ : J * (V * (Vᵀ * w)) = J * w := by
    rw [← Matrix.mul_assoc V, ← Matrix.mul_assoc J, hproj]
  refine ⟨Vᵀ * w, ?_, hJ, ?_, ?_, ?_⟩
  · ext k j
    simp only [SymJme.e, of_apply]
    rw [Matrix.mul_add, ← Matrix.mul_assoc J (V * (Vᵀ * w)), hJ, Matrix.mul_assoc J w, ← Matrix.mul_add]
  · have h : sumSq w - sumSq (V * (Vᵀ * w)) = sumSq (w - V * (Vᵀ * w)) := by
      rw [sumSq_eq_trace, sumSq_eq_trace, sumSq_eq_trace, ← trace_sub]
      congr 1
      have hP : V * Vᵀ * (V * Vᵀ) = V * Vᵀ := by
        rw [Matrix.mul_assoc, ← Matrix.mul_assoc Vᵀ, hV.orthonormal, Matrix.one_mul]
      have hA : (V * (Vᵀ * w))ᵀ * (V * (Vᵀ * w)) = wᵀ * (V * (Vᵀ * w)) := by
        rw [← Matrix.mul_assoc V, transpose_mul, transpose_mul, transpose_transpose, Matrix.mul_assoc wᵀ, ← Matrix.mul_assoc _ _ w, hP]
      have hB : (V * (Vᵀ * w))ᵀ * w = wᵀ * (V * (Vᵀ * w)) := by
        rw [← Matrix.mul_assoc V, transpose_mul, transpose_mul, transpose_transpose, Matrix.mul_assoc]
      rw [transpose_sub, Matrix.sub_mul, Matrix.mul_sub, Matrix.mul_sub, hA, hB]
      abel
    have h0 : 0 ≤ sumSq (w - V * (Vᵀ * w)) := Finset.sum_nonneg fun i _ => Finset.sum_nonneg fun j _ => sq_nonneg _
    linarith
  · rw [sumSq_eq_trace, sumSq_eq_trace (V * _), transpose_mul V, Matrix.mul_assoc _ Vᵀ, ← Matrix.mul_assoc Vᵀ V, hV.orthonormal,
      Matrix.one_mul]
  · intro wc' h
    rw [← hJ] at h
    -- `V (wc' - wc)` is in the range of `Jᵀ` and in the kernel of `J`
    have hk : J * (V * (wc' - Vᵀ * w)) = 0 := by rw [Matrix.mul_sub, Matrix.mul_sub, h, sub_self]
    set d := wc' - Vᵀ * w with hd
    have hzero : V * d = 0 := by
      have hcol : ∀ j, (V * d) *ᵥ Pi.single j 1 = 0 := by
        intro j
        have hm : V *ᵥ (d *ᵥ Pi.single j 1) ∈ LinearMap.range (Jᵀ).mulVecLin := by
          rw [← hV.span]
          exact ⟨_, rfl⟩
        obtain ⟨y, hy⟩ := hm
        have hy' : Jᵀ *ᵥ y = V *ᵥ (d *ᵥ Pi.single j 1) := hy
        have hk' : J *ᵥ (Jᵀ *ᵥ y) = 0 := by
          rw [hy', mulVec_mulVec, mulVec_mulVec, Matrix.mul_assoc, hk, zero_mulVec]
        have : (Jᵀ *ᵥ y) ⬝ᵥ (Jᵀ *ᵥ y) = 0 := by
          rw [dotProduct_mulVec, vecMul_transpose, hk', zero_dotProduct]
        rw [dotProduct_self_eq_zero] at this
        rw [← mulVec_mulVec, ← hy', this]
      ext i j
      simpa using congrFun (hcol j) i
    have : Vᵀ * (V * d) = d := by rw [← Matrix.mul_assoc, hV.orthonormal, Matrix.one_mul]
    rw [hzero, Matrix.mul_zero] at this
    exact sub_eq_zero.1 this.symm

/-! ### Tube log-density and penalty -/

theorem tubeL_eq (K : Fin (m + 1) → ℝ) (V : Matrix (Fin (m + 1)) (Fin r) ℝ) (useOm : Bool)
    (dfdx : (Fin nx → ℝ) → (Fin nu → ℝ) → (Fin np → ℝ) → Matrix (Fin nx) (Fin nx) ℝ) (xp : Matrix (Fin (m + 1)) (Fin nx) ℝ)
    (up : Matrix (Fin (m + 1)) (Fin nu) ℝ) (p : Fin np → ℝ) (h : ℝ) (wc : Matrix (Fin r) (Fin nw) ℝ) :
    SymJme.tubeL K V useOm dfdx xp up p h wc = -(h / 2) * ∑ i, K i * ∑ j, (V * wc) i j ^ 2 -
      if useOm then h / 2 * ∑ i, K i * SymJme.tailTrace nw (dfdx (xp i) (up i) p) else 0 := by
  cases useOm
  · simp only [SymJme.tubeL, dotProduct, Bool.false_eq_true, if_false, zero_add, sub_zero, Pi.smul_apply, smul_eq_mul]
    rw [Finset.sum_mul, Finset.mul_sum]
    exact Finset.sum_congr rfl fun i _ => by ring
  · simp only [SymJme.tubeL, dotProduct, if_true, Pi.smul_apply, Pi.add_apply, smul_eq_mul]
    rw [Finset.sum_mul, Finset.mul_sum, Finset.mul_sum, ← Finset.sum_sub_distrib]
    exact Finset.sum_congr rfl fun i _ => by ring

/-- The trace of the last `nw` rows and columns: the divergence with respect to the states that noise acts on.  A model without
noise gets the trace of the whole Jacobian, because `A[-0:]` is `A`. -/
theorem C64_trace (A : Matrix (Fin nx) (Fin nx) ℝ) :
    SymJme.tailTrace 0 A = A.trace ∧
    (∀ nw (h : nw ≤ nx), 0 < nw → SymJme.tailTrace nw A = ∑ j : Fin nw, A ⟨nx - nw + j, by omega⟩ ⟨nx - nw + j, by omega⟩) := by
  constructor
  · simp [SymJme.tailTrace, SymJme.tailFrom, trace]
  · intro nw h h0
    have hg : ∀ g : Nat → ℝ, (∑ j ∈ Finset.range nx, if nx - nw ≤ j then g j else 0) = ∑ j ∈ Finset.range nw, g (nx - nw + j) := by
      intro g
      rw [← Finset.sum_filter]
      refine Finset.sum_bij' (fun j _ => j - (nx - nw)) (fun j _ => nx - nw + j) ?_ ?_ ?_ ?_ ?_
      all_goals intro j hj; simp only [Finset.mem_filter, Finset.mem_range] at *
      · omega
      · omega
      · omega
      · omega
      · rw [show nx - nw + (j - (nx - nw)) = j by omega]
    have h1 := hg fun j => if hj : j < nx then A ⟨j, hj⟩ ⟨j, hj⟩ else 0
    rw [Finset.sum_range, Finset.sum_range] at h1
    simp only [SymJme.tailTrace, SymJme.tailFrom, if_neg h0.ne']
    refine Eq.trans ?_ (h1.trans ?_)
    · exact Finset.sum_congr rfl fun j _ => by simp
    · exact Finset.sum_congr rfl fun j _ => by rw [dif_pos]

/-- Without the Onsager–Machlup term and with positive weights, the log-density of a piece of positive length is at most zero, and
it is zero exactly when there is no noise. -/
theorem C64_tube (K : Fin (m + 1) → ℝ) (hK : ∀ i, 0 < K i) (V : Matrix (Fin (m + 1)) (Fin r) ℝ) (hV : Vᵀ * V = 1)
    (dfdx : (Fin nx → ℝ) → (Fin nu → ℝ) → (Fin np → ℝ) → Matrix (Fin nx) (Fin nx) ℝ) (xp : Matrix (Fin (m + 1)) (Fin nx) ℝ)
    (up : Matrix (Fin (m + 1)) (Fin nu) ℝ) (p : Fin np → ℝ) (h : ℝ) (hh : 0 < h) (wc : Matrix (Fin r) (Fin nw) ℝ) :
    SymJme.tubeL K V false dfdx xp up p h wc ≤ 0 ∧ (SymJme.tubeL K V false dfdx xp up p h wc = 0 ↔ wc = 0) := by
  rw [tubeL_eq]
  simp only [Bool.false_eq_true, if_false, sub_zero]
  have hn : ∀ i ∈ (Finset.univ : Finset (Fin (m + 1))), 0 ≤ K i * ∑ j, (V * wc) i j ^ 2 := fun i _ =>
    mul_nonneg (hK i).le (Finset.sum_nonneg fun j _ => sq_nonneg _)
  refine ⟨mul_nonpos_of_nonpos_of_nonneg (by linarith) (Finset.sum_nonneg hn), ?_, ?_⟩
  · intro h0
    rcases mul_eq_zero.1 h0 with h0 | h0
    · linarith
    rw [Finset.sum_eq_zero_iff_of_nonneg hn] at h0
    have hz : V * wc = 0 := by
      ext i j
      rcases mul_eq_zero.1 (h0 i (Finset.mem_univ i)) with h1 | h1
      · exact absurd h1 (hK i).ne'
      rw [Finset.sum_eq_zero_iff_of_nonneg fun j _ => sq_nonneg _] at h1
      exact pow_eq_zero_iff (two_ne_zero) |>.1 (h1 j (Finset.mem_univ j))
    have := congrArg (Vᵀ * ·) hz
    simpa [← Matrix.mul_assoc, hV] using this
  · rintro rfl
    simp

/-- The penalty is minus the weighted sum of squares of the defects: at most zero for non-negative weights, and, for positive
weights, zero exactly when all the defects vanish. -/
theorem C64_penalty (e : Matrix (Fin m) (Fin nx) ℝ) (w : Fin nx → ℝ) :
    (SymJme.penalty e w = -∑ k, ∑ j, w j * e k j ^ 2) ∧ ((∀ j, 0 ≤ w j) → SymJme.penalty e w ≤ 0) ∧
    ((∀ j, 0 < w j) → (SymJme.penalty e w = 0 ↔ e = 0)) := by
  have heq : SymJme.penalty e w = -∑ k, ∑ j, w j * e k j ^ 2 := by
    simp only [SymJme.penalty, mulVec, dotProduct, of_apply]
    rw [← Finset.sum_neg_distrib]
    refine Finset.sum_congr rfl fun k _ => ?_
    rw [← Finset.sum_neg_distrib]
    exact Finset.sum_congr rfl fun j _ => by ring
  refine ⟨heq, fun hw => ?_, fun hw => ?_⟩
  · rw [heq, neg_nonpos]
    exact Finset.sum_nonneg fun k _ => Finset.sum_nonneg fun j _ => mul_nonneg (hw j) (sq_nonneg _)
  · have hn : ∀ k ∈ (Finset.univ : Finset (Fin m)), 0 ≤ ∑ j, w j * e k j ^ 2 := fun k _ =>
      Finset.sum_nonneg fun j _ => mul_nonneg (hw j).le (sq_nonneg _)
    rw [heq, neg_eq_zero, Finset.sum_eq_zero_iff_of_nonneg hn]
    constructor
    · intro h0
      ext k j
      have h1 := h0 k (Finset.mem_univ k)
      rw [Finset.sum_eq_zero_iff_of_nonneg fun j _ => mul_nonneg (hw j).le (sq_nonneg _)] at h1
      rcases mul_eq_zero.1 (h1 j (Finset.mem_univ j)) with h2 | h2
      · exact absurd h2 (hw j).ne'
      · exact pow_eq_zero_iff (two_ne_zero) |>.1 h2
    · rintro rfl
      simp

/-! ### Examples -/

section Examples

/-- The method with points 0 and 1 exists, and the parabola `t²` with `f = u` has zero defects there. -/
example : ∃ col : Collocation ℝ, collocation [0, 1] = .ok col ∧
    SymCol.e (col.Jm 1) (fun _ u (_ : Fin 0 → ℝ) => u) (of ![![9], ![25]]) (of ![![6], ![10]]) ![] 2 = (0 : Matrix (Fin 1) (Fin 1) ℝ) := by
  obtain ⟨col, hcol, -⟩ := C24_exact [0, 1] (by simp) (by simp)
  refine ⟨col, hcol, C27_polynomial [0, 1] (by simp) rfl (le_refl 1) col hcol _ _ _ 3 2 (fun _ => X ^ 2) (by simp) _ ?_ ?_⟩
  · intro i j
    fin_cases i <;> fin_cases j <;> simp <;> norm_num
  · intro i j
    fin_cases i <;> fin_cases j <;> simp <;> norm_num

/-- An orthonormal basis for the trapezoidal rule. -/
example : IsOrth (of ![![(1 / 2 : ℝ), 1 / 2]])ᵀ (of ![![√2 / 2], ![√2 / 2]]) := by
  have h2 : √2 * √2 = (2 : ℝ) := Real.mul_self_sqrt (by norm_num)
  refine ⟨?_, ?_⟩
  · ext i j
    fin_cases i; fin_cases j
    simp [mul_apply, Fin.sum_univ_two]
    linarith
  · apply le_antisymm
    · rintro v ⟨y, rfl⟩
      refine ⟨fun i => √2 * y i, ?_⟩
      funext i
      fin_cases i <;> simp [mulVec, dotProduct, vecHead] <;> ring
    · rintro v ⟨y, rfl⟩
      refine ⟨fun i => √2 / 2 * y i, ?_⟩
      funext i
      fin_cases i <;> simp [mulVec, dotProduct, vecHead] <;> linear_combination (y 0 / 4) * h2

/-- The penalty of a concrete defect. -/
example : SymJme.penalty (of ![![(1 : ℝ), 2]]) ![3, 1] = -7 := by
  rw [(C64_penalty _ _).1]
  simp [Fin.sum_univ_two]
  norm_num

end Examples

end Ceacoest
