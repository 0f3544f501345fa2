import Verif.NumPy.Basic
import Mathlib.LinearAlgebra.Matrix.NonsingularInverse
import Mathlib.LinearAlgebra.Matrix.PosDef
import Mathlib.Data.Real.Basic
import Mathlib.Analysis.SpecialFunctions.Log.Basic
import Mathlib.Analysis.SpecialFunctions.Trigonometric.Basic

/-! # Specification of weighted point sets and square roots (C41–C43) -/

namespace Ceacoest.Spec
open Matrix

/-- The mean of weighted points. -/
noncomputable def wmean {s n : Type} [Fintype s] (w : s → ℝ) (z : s → n → ℝ) : n → ℝ := fun i => ∑ k, w k * z k i

/-- The cross covariance of two weighted point sets. -/
noncomputable def wcov {s n o : Type} [Fintype s] (w : s → ℝ) (z : s → n → ℝ) (y : s → o → ℝ) : Matrix n o ℝ :=
  fun i j => ∑ k, w k * (z k i - wmean w z i) * (y k j - wmean w y j)

/-- A singular value decomposition of every square matrix. -/
def SvdOK {n : Type} [Fintype n] [DecidableEq n] (svd : Matrix n n ℝ → Py (Matrix n n ℝ × (n → ℝ) × Matrix n n ℝ)) : Prop :=
  ∀ Q, ∃ U s VT, svd Q = .ok (U, s, VT) ∧ U * Uᵀ = 1 ∧ VT * VTᵀ = 1 ∧ (∀ i, 0 ≤ s i) ∧ Q = U * diagonal s * VT

/-! ### Schedules (C36, C39, C40) -/

/-- Any calls of `correct` (with its argument) and `predict`, in any order. -/
def history {Y M σ : Type} (correct : Y → σ → Py (M × σ)) (predict : σ → Py (M × σ)) : List (Option Y) → σ → Py σ
  | [], s => .ok s
  | some y :: cs, s => do
    let (_, s) ← correct y s
    history correct predict cs s
  | none :: cs, s => do
    let (_, s) ← predict s
    history correct predict cs s

/-- Correct with each sample in turn, and predict between any two: the corrected moments, and the filter in the end. -/
def schedule {Y M σ : Type} (correct : Y → σ → Py (M × σ)) (predict : σ → Py (M × σ)) : List Y → σ → Py (List M × σ)
  | [], s => .ok ([], s)
  | [y], s => do
    let (m, s) ← correct y s
    return ([m], s)
  | y :: y' :: ys, s => do
    let (m, s) ← correct y s
    let (_, s) ← predict s
    let (ms, s) ← schedule correct predict (y' :: ys) s
    return (m :: ms, s)

/-- The same schedule, with what each prediction gives: its moments and its cross covariance. -/
def scheduleWith {Y M C σ : Type} (correct : Y → σ → Py (M × σ)) (predict : σ → Py (M × σ)) (cross : σ → Py C) :
    List Y → σ → Py (List M × List (M × C) × σ)
  | [], s => .ok ([], [], s)
  | [y], s => do
    let (m, s) ← correct y s
    return ([m], [], s)
  | y :: y' :: ys, s => do
    let (m, s) ← correct y s
    let (pr, s) ← predict s
    let c ← cross s
    let (ms, prs, s) ← scheduleWith correct predict cross (y' :: ys) s
    return (m :: ms, (pr, c) :: prs, s)

/-- One step of the backward recursion, from the filtered moments `m` of a sample, the prediction `pr` of the next one, the cross
covariance `c` of the two, and the smoothed moments `sm'` of the next one, to its smoothed moments `sm`. -/
def SmoothStep {n : Type} [Fintype n] [DecidableEq n] (m : (n → ℝ) × Matrix n n ℝ) (pr : (n → ℝ) × Matrix n n ℝ) (c : Matrix n n ℝ)
    (sm' sm : (n → ℝ) × Matrix n n ℝ) : Prop :=
  let G := c * pr.2⁻¹
  IsUnit pr.2.det ∧ sm = (m.1 + G *ᵥ (sm'.1 - pr.1), m.2 + G * (sm'.2 - pr.2) * Gᵀ)

/-! ### Likelihoods (C48) -/

/-- The same schedule: a view of the filter before each correction. -/
def priors {Y M V σ : Type} (correct : Y → σ → Py (M × σ)) (predict : σ → Py (M × σ)) (view : σ → V) : List Y → σ → Py (List V)
  | [], _ => .ok []
  | [y], s => do
    let _ ← correct y s
    return [view s]
  | y :: y' :: ys, s => do
    let (_, s') ← correct y s
    let (_, s') ← predict s'
    return view s :: (← priors correct predict view (y' :: ys) s')

/-- The density at `e` of the normal distribution with mean zero and covariance `S`. -/
noncomputable def gaussian {n : Type} [Fintype n] [DecidableEq n] (S : Matrix n n ℝ) (e : n → ℝ) : ℝ :=
  (Real.sqrt ((2 * Real.pi) ^ Fintype.card n * S.det))⁻¹ * Real.exp (-(e ⬝ᵥ S⁻¹ *ᵥ e) / 2)

end Ceacoest.Spec
