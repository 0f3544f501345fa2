import Verif.Model.Kalman
import Verif.Model.ArrayCmp
import Mathlib.Analysis.SpecialFunctions.Trigonometric.Basic

/-! # `ceacoest/tests/test_kalman.py`: the test model, its covariances and the exact tests of unscented transforms

Exact arithmetic, unbatched (`base_shape = ()`).  `np.linalg.eig` is an argument. -/

namespace Ceacoest.TestKalman
open Matrix ArrayCmp

/-! ### Arrays as the tests compare them -/

/-- A vector as an array. -/
def arr1 {n : Nat} (v : Fin n → ℝ) : NDArray ℝ := ⟨[n], List.ofFn v⟩

/-- A matrix as an array, in C order. -/
def arr2 {m n : Nat} (A : Matrix (Fin m) (Fin n) ℝ) : NDArray ℝ := ⟨[m, n], List.ofFn fun k : Fin (m * n) => A k.divNat k.modNat⟩

/-- `assert ArrayDiff(a, b) < tol`. -/
noncomputable def assertClose (a b : NDArray ℝ) (tol : ℝ) : Py Unit := do pyAssert (← (ArrayDiff.mk (.ok a) (.ok b)).lt (.num tol))

/-! ### test_kalman.py:106-201 `model_class` -/

/-- `sum(v[start:stop])` -/
def sumSlice {n : Nat} (v : Fin n → ℝ) (start stop : Option Int) : ℝ :=
  ((sliceIdx n start stop 1).map fun k => if h : k < n then v ⟨k, h⟩ else 0).sum

variable {nx ny nq : Nat}

/-- test_kalman.py:148-154 `f`; `-j//2` is `(-j)//2`, rounded down. -/
noncomputable def f (x : Fin nx → ℝ) (q : Fin nq → ℝ) : Fin nx → ℝ := fun i =>
  ∑ j : Fin nq, if j.1 ≤ i.1 then
    Real.sin ((i.1 : ℝ) + j.1 + sumSlice x (some i.1) (some ((-(j.1 : Int)).fdiv 2)) + sumSlice q (some j.1) none) else 0

/-- test_kalman.py:156-158 `h` -/
noncomputable def h (ny : Nat) (x : Fin nx → ℝ) (q : Fin nq → ℝ) : Fin ny → ℝ := fun i =>
  Real.cos (sumSlice x (some i.1) none + sumSlice q (some (-(i.1 : Int))) none)

/-- test_kalman.py:165-166: the angle of the entries beside the diagonal, `i < j`. -/
noncomputable def qAngle (x : Fin nx → ℝ) (q : Fin nq → ℝ) (i j : Fin nx) : ℝ :=
  sumSlice x none (some ((i.1 : Int) + j.1)) + sumSlice q (some (-(i.1 : Int))) (some j.1)

/-- test_kalman.py:160-169 `Q` -/
noncomputable def Q (x : Fin nx → ℝ) (q : Fin nq → ℝ) : Matrix (Fin nx) (Fin nx) ℝ := of fun i j =>
  (if i = j then 2 else 0) +
    if i < j then Real.cos (qAngle x q i j) / 2
    else if j < i then Real.cos (qAngle x q j i) / 2
    else Real.cos (sumSlice x none (some ((i.1 : Int) + 1)) + sumSlice q none (some (-(i.1 : Int)))) / 2

/-- test_kalman.py:171-180 `R` -/
noncomputable def R (ny : Nat) (q : Fin nq → ℝ) : Matrix (Fin ny) (Fin ny) ℝ := of fun i j =>
  (if i = j then 2 else 0) +
    if i ≤ j then Real.sin (sumSlice q (some (-(j.1 : Int))) (some i.1)) else Real.sin (sumSlice q (some (-(i.1 : Int))) (some j.1))

/-- test_kalman.py:182-184 `v`; `x` is an array, so that `+` adds. -/
noncomputable def v (q : Fin nq → ℝ) (x : Fin nx → ℝ) : Fin nx → ℝ := fun i => x i + Real.sin (sumSlice q (some i.1) none)

/-- test_kalman.py:186-195 `Pv` -/
noncomputable def Pv (q : Fin nq → ℝ) (Px : Matrix (Fin nx) (Fin nx) ℝ) : Matrix (Fin nx) (Fin nx) ℝ := of fun i j =>
  Px i j + (if i = j then 1 else 0) +
    if i = j then Real.sin (sumSlice q none (some (-(i.1 : Int))))
    else if i < j then Real.sin (sumSlice q (some j.1) (some i.1))
    else Real.sin (sumSlice q (some i.1) (some j.1))

/-- test_kalman.py:71-76 `cov`; `M` is what `randn` returned. -/
noncomputable def cov (M : Matrix (Fin nx) (Fin (nx + 1)) ℝ) : Matrix (Fin nx) (Fin nx) ℝ := of fun i j => ∑ k, M i k / nx * (M j k / nx)

/-! ### The tests -/

/-- The function `np.linalg.eig`, of which the tests use the eigenvalues. -/
abbrev Eig := ∀ n, Matrix (Fin n) (Fin n) ℝ → Py (Fin n → ℝ)

/-- test_kalman.py:222-225 `is_symmetric_positive_definite` -/
noncomputable def isSPD (eig : Eig) {n : Nat} (M : Matrix (Fin n) (Fin n) ℝ) (tol : ℝ := 1 / 10 ^ 8) : Py Bool := do
  let val ← eig n M
  if (List.ofFn val).all (fun l => decide (tol < l)) then (ArrayDiff.mk (.ok (arr2 M)) (.ok (arr2 Mᵀ))).lt (.num tol) else return false

/-- test_kalman.py:228-230 `test_cov_pd` -/
noncomputable def testCovPd (eig : Eig) (cov : Matrix (Fin nx) (Fin nx) ℝ) : Py Unit := do pyAssert (← isSPD eig cov)

/-- test_kalman.py:233-237 `test_model_vars`; `x`, `q` and `Px` are the defaults of the model (204-207). -/
noncomputable def testModelVars (eig : Eig) (ny : Nat) (x : Fin nx → ℝ) (q : Fin nq → ℝ) (Px : Matrix (Fin nx) (Fin nx) ℝ) : Py Unit := do
  pyAssert (← isSPD eig (Q x q))
  pyAssert (← isSPD eig (R ny q))
  pyAssert (← isSPD eig (Pv q Px))

/-- test_kalman.py:240-244 `test_ut_sqrt` -/
noncomputable def testUtSqrt (ut : UT nx) (cov : Matrix (Fin nx) (Fin nx) ℝ) : Py Unit := do
  let S ← ut.sqrt cov
  let STS : Matrix (Fin nx) (Fin nx) ℝ := of fun i j => ∑ k, S k i * S k j
  assertClose (arr2 STS) (arr2 cov) (1 / 10 ^ 8)

/-- test_kalman.py:279-293 `test_affine_ut` -/
noncomputable def testAffineUt (ut : UT nx) (x : Fin nx → ℝ) (cov A : Matrix (Fin nx) (Fin nx) ℝ) : Py Unit := do
  let f : (Fin nx → ℝ) → Fin nx → ℝ := fun x => (fun i => ∑ j, A i j * x j) + fun i => (i.1 : ℝ)
  let d ← ut.transform x cov f
  assertClose (arr1 d.mean) (arr1 (f x)) (1 / 10 ^ 8)
  let desiredCov : Matrix (Fin nx) (Fin nx) ℝ := of fun k l => ∑ i, ∑ j, cov i j * A k i * A l j
  assertClose (arr2 d.Po) (arr2 desiredCov) (1 / 10 ^ 8)
  assertClose (arr2 (ut.crosscov d)) (arr2 (cov * Aᵀ)) (1 / 10 ^ 8)

/-- test_kalman.py:296-303 `test_sigma_points` -/
noncomputable def testSigmaPoints (ut : UT nx) (x : Fin nx → ℝ) (cov : Matrix (Fin nx) (Fin nx) ℝ) : Py Unit := do
  let (_, idev, sigma) ← ut.sigmaPoints x cov
  assertClose (arr1 fun i => ∑ k, ut.weights k * sigma k i) (arr1 x) (1 / 10 ^ 8)
  let utCov : Matrix (Fin nx) (Fin nx) ℝ := of fun i j => ∑ k, idev k i * idev k j * ut.weights k
  assertClose (arr2 utCov) (arr2 cov) (1 / 10 ^ 8)

/-! ### The filter of the tests of derivatives -/

/-- test_kalman.py:210-220 `parametrized_ukf`, for any model: a new filter (base.py, unscented.py: time and likelihood zero, derivatives
zero) with the moments at `q`, but with the derivatives of the moments at the parameters `default` of `model`. -/
def factory {p o : Type} [Fintype o] [LinearOrder o] {ns ns' : Nat} (v : (p → ℝ) → Fin nx → ℝ) (Pv : (p → ℝ) → Matrix (Fin nx) (Fin nx) ℝ) (dv_dq : (p → ℝ) → p → Fin nx → ℝ)
    (dPv_dq : (p → ℝ) → p → Matrix (Fin nx) (Fin nx) ℝ) (default q : p → ℝ) : UKF nx ns ns' o p :=
  { x := v q, Px := Pv q, k := 0, L := 0, dL_dq := 0, d2L_dq2 := 0, dx_dq := dv_dq default, dPx_dq := dPv_dq default, d2x_dq2 := 0,
    d2Px_dq2 := 0 }

end Ceacoest.TestKalman
