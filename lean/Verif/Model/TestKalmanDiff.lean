import Verif.Model.TestKalman
import Verif.Model.Utils
import Mathlib.Analysis.Calculus.Deriv.Basic

/-! # `ceacoest/tests/test_kalman.py`: the tests of derivatives

Exact arithmetic, unbatched (`base_shape = ()`): the axis that `np.rollaxis` moves to the front is the first one already, except in the
arrays of sigma points, which have the axis of the points in front of it.  For transforms with singular values all these tests are
skipped (they have no `sqrt_diff`). -/

namespace Ceacoest

namespace UT
variable {ni : Nat} {p : Type}

/-- unscented.py:83-95 `sigma_points_diff`, after `sigma_points` has saved the square root `S`: what `sqrt_diff` saves, the
derivatives of the deviations and those of the points. -/
noncomputable def sigmaPointsDiff (ut : UT ni) (S : Matrix (Fin ni) (Fin ni) ℝ) (di_dq : p → Fin ni → ℝ)
    (dPi_dq : p → Matrix (Fin ni) (Fin ni) ℝ) :
    Py (CholDiff (Fin ni) p × (Fin ut.nsigma → p → Fin ni → ℝ) × (Fin ut.nsigma → p → Fin ni → ℝ)) := do
  let c ← ut.sqrtDiff S fun a => ((ni : ℝ) + ut.kappa) • dPi_dq a
  let didev : Fin ut.nsigma → p → Fin ni → ℝ := spread ut.nsigma fun k a i => c.dS a k i
  return (c, didev, fun k => didev k + di_dq)

/-- unscented.py:97-107 `sigma_points_diff2`: the second derivatives of the deviations and of the points. -/
noncomputable def sigmaPointsDiff2 (ut : UT ni) (c : CholDiff (Fin ni) p) (d2i_dq2 : p → p → Fin ni → ℝ)
    (d2Pi_dq2 : p → p → Matrix (Fin ni) (Fin ni) ℝ) : (Fin ut.nsigma → p → p → Fin ni → ℝ) × (Fin ut.nsigma → p → p → Fin ni → ℝ) :=
  let d2S := cholDiff2 c fun a b => ((ni : ℝ) + ut.kappa) • d2Pi_dq2 a b
  let d2idev : Fin ut.nsigma → p → p → Fin ni → ℝ := spread ut.nsigma fun k a b i => d2S a b k i
  (d2idev, fun k => d2idev k + d2i_dq2)

end UT

namespace TestKalman
open Matrix

variable {nx ny nq : Nat}

/-! ### Arrays, differences, comparisons -/

/-- A number as an array. -/
def arr0 (c : ℝ) : NDArray ℝ := ⟨[], [c]⟩

/-- The array with the given entries along its first axis, all of shape `sh`. -/
def stack {n : Nat} (sh : List Nat) (T : Fin n → NDArray ℝ) : NDArray ℝ := ⟨n :: sh, (List.ofFn fun i => (T i).data).flatten⟩

/-- The steps of `central_diff` (utils.py:12: both are `1e-7` by default), and the content of `np.empty`. -/
structure Steps where
  minStep : ℝ
  relStep : ℝ
  junk : Nat → ℝ

/-- `utils.central_diff(F, q)` -/
noncomputable def numDiff (c : Steps) (F : (Fin nq → ℝ) → Py (NDArray ℝ)) (q : Fin nq → ℝ) : Py (Option (NDArray ℝ)) :=
  Utils.centralDiff (fun x => F fun i => x.data.getD i.1 0) (arr1 q) c.minStep c.relStep c.junk

/-- `assert ArrayDiff(numerical, analytical) < tol`.  `central_diff` returns `None` if there are no parameters; then `analytical` has
no entries. -/
noncomputable def assertDiff (numerical : Option (NDArray ℝ)) (analytical : NDArray ℝ) (tol : ℝ) : Py Unit :=
  match numerical with
  | none => .ok ()
  | some a => assertClose a analytical tol

/-! ### The tests -/

/-- The functions of the model of the tests (test_kalman.py:107-207) that depend on the parameters: the generated ones, and the
initial moments. -/
structure Setup (nx ny nq : Nat) where
  M : (Fin nq → ℝ) → KModel nx (Fin ny) (Fin nq)
  v : (Fin nq → ℝ) → Fin nx → ℝ
  Pv : (Fin nq → ℝ) → Matrix (Fin nx) (Fin nx) ℝ
  dv_dq : (Fin nq → ℝ) → Fin nq → Fin nx → ℝ
  dPv_dq : (Fin nq → ℝ) → Fin nq → Matrix (Fin nx) (Fin nx) ℝ
  d2v_dq2 : (Fin nq → ℝ) → Fin nq → Fin nq → Fin nx → ℝ
  d2Pv_dq2 : (Fin nq → ℝ) → Fin nq → Fin nq → Matrix (Fin nx) (Fin nx) ℝ

variable (T : Setup nx ny nq) (ut : UT nx) (c : Steps) (q : Fin nq → ℝ)

/-- test_kalman.py:247-259 `test_ut_sqrt_diff` -/
noncomputable def testUtSqrtDiff : Py Unit := do
  let numerical ← numDiff c (fun q => do return arr2 (← ut.sqrt (T.Pv q))) q
  let S ← ut.sqrt (T.Pv q)
  let d ← ut.sqrtDiff S (T.dPv_dq q)
  assertDiff numerical (stack [nx, nx] fun a => arr2 (d.dS a)) (1 / 10 ^ 8)

/-- test_kalman.py:262-276 `test_ut_sqrt_diff2` -/
noncomputable def testUtSqrtDiff2 : Py Unit := do
  let numerical ← numDiff c (fun q => do
    let S ← ut.sqrt (T.Pv q)
    let d ← ut.sqrtDiff S (T.dPv_dq q)
    return stack [nx, nx] fun b => arr2 (d.dS b)) q
  let S ← ut.sqrt (T.Pv q)
  let d ← ut.sqrtDiff S (T.dPv_dq q)
  let d2S := cholDiff2 d (T.d2Pv_dq2 q)
  assertDiff numerical (stack [nq, nx, nx] fun a => stack [nx, nx] fun b => arr2 (d2S a b)) (1 / 10 ^ 8)

/-- test_kalman.py:306-318 `test_sigma_points_diff`; the axis of the parameters is rolled in front of that of the points. -/
noncomputable def testSigmaPointsDiff : Py Unit := do
  let numerical ← numDiff c (fun q => do return arr2 (of (← ut.sigmaPoints (T.v q) (T.Pv q)).2.2)) q
  let (S, _, _) ← ut.sigmaPoints (T.v q) (T.Pv q)
  let (_, _, disigma) ← ut.sigmaPointsDiff S (T.dv_dq q) (T.dPv_dq q)
  assertDiff numerical (stack [ut.nsigma, nx] fun a => arr2 (of fun k i => disigma k a i)) (5 / 10 ^ 8)

/-- test_kalman.py:321-335 `test_sigma_points_diff2` -/
noncomputable def testSigmaPointsDiff2 : Py Unit := do
  let numerical ← numDiff c (fun q => do
    let (S, _, _) ← ut.sigmaPoints (T.v q) (T.Pv q)
    let (_, _, disigma) ← ut.sigmaPointsDiff S (T.dv_dq q) (T.dPv_dq q)
    return stack [nq, nx] fun k => arr2 (of (disigma k))) q
  let (S, _, _) ← ut.sigmaPoints (T.v q) (T.Pv q)
  let (d, _, _) ← ut.sigmaPointsDiff S (T.dv_dq q) (T.dPv_dq q)
  let d2isigma := (ut.sigmaPointsDiff2 d (T.d2v_dq2 q) (T.d2Pv_dq2 q)).2
  assertDiff numerical (stack [ut.nsigma, nq, nx] fun a => stack [nq, nx] fun k => arr2 (of fun b i => d2isigma k a b i)) (5 / 10 ^ 8)

/-- test_kalman.py:348-351 `transform`; the time of the fixture is zero. -/
noncomputable def transformAt (q : Fin nq → ℝ) : Py (UTData ut.nsigma (Fin nx) (Fin nx)) := ut.transform (T.v q) (T.Pv q) ((T.M q).f 0)

/-- test_kalman.py:385-393 -/
noncomputable def transformDiffAt (q : Fin nq → ℝ) : Py (UTData ut.nsigma (Fin nx) (Fin nx) × UTDiff ut.nsigma (Fin nx) (Fin nx) (Fin nq)) := do
  let d ← transformAt T ut q
  return (d, ← ut.transformDiff d ((T.M q).df_dq 0) ((T.M q).df_dx 0) (T.dv_dq q) (T.dPv_dq q))

/-- test_kalman.py:338-366 `test_ut_diff` -/
noncomputable def testUtDiff : Py Unit := do
  let numericalX ← numDiff c (fun q => do return arr1 (← transformAt T ut q).mean) q
  let numericalPx ← numDiff c (fun q => do return arr2 (← transformAt T ut q).Po) q
  let numericalPio ← numDiff c (fun q => do return arr2 (ut.crosscov (← transformAt T ut q))) q
  let (d, dd) ← transformDiffAt T ut q
  assertDiff numericalX (stack [nx] fun a => arr1 (dd.do_dq a)) (1 / 10 ^ 8)
  assertDiff numericalPx (stack [nx, nx] fun a => arr2 (dd.dPo_dq a)) (1 / 10 ^ 8)
  assertDiff numericalPio (stack [nx, nx] fun a => arr2 (ut.crosscovDiff d dd a)) (1 / 10 ^ 8)

/-- test_kalman.py:369-409 `test_ut_diff2` -/
noncomputable def testUtDiff2 : Py Unit := do
  let numericalX ← numDiff c (fun q => do
    let r ← transformDiffAt T ut q
    return stack [nx] fun b => arr1 (r.2.do_dq b)) q
  let numericalPx ← numDiff c (fun q => do
    let r ← transformDiffAt T ut q
    return stack [nx, nx] fun b => arr2 (r.2.dPo_dq b)) q
  let numericalPio ← numDiff c (fun q => do
    let r ← transformDiffAt T ut q
    return stack [nx, nx] fun b => arr2 (ut.crosscovDiff r.1 r.2 b)) q
  let (d, dd) ← transformDiffAt T ut q
  let d2 := ut.transformDiff2 d dd ((T.M q).d2f_dq2 0) ((T.M q).d2f_dx2 0) ((T.M q).d2f_dx_dq 0) (T.d2v_dq2 q) (T.d2Pv_dq2 q)
  assertDiff numericalX (stack [nq, nx] fun a => stack [nx] fun b => arr1 (d2.d2o_dq2 a b)) (1 / 10 ^ 8)
  assertDiff numericalPx (stack [nq, nx, nx] fun a => stack [nx, nx] fun b => arr2 (d2.d2Po_dq2 a b)) (5 / 10 ^ 8)
  assertDiff numericalPio (stack [nq, nx, nx] fun a => stack [nx, nx] fun b => arr2 (ut.crosscovDiff2 d dd d2 a b)) (5 / 10 ^ 8)

/-- test_kalman.py:210-220: the fixture `parametrized_ukf` of the tests of filters, whose parameters are `q`: the filter that it makes for
the parameters `q'`.  Its two transforms are made from the same options. -/
def parametrizedUkf (q' : Fin nq → ℝ) : UKF nx ut.nsigma ut.nsigma (Fin ny) (Fin nq) := factory T.v T.Pv T.dv_dq T.dPv_dq q q'

/-- test_kalman.py:416-419 -/
noncomputable def predAt (q' : Fin nq → ℝ) : Py (UKF nx ut.nsigma ut.nsigma (Fin ny) (Fin nq)) := do
  return (← UKF.predict ut (T.M q') (parametrizedUkf T ut q q')).2

/-- test_kalman.py:412-429 `test_ut_pred_diff` -/
noncomputable def testUtPredDiff : Py Unit := do
  let numericalX ← numDiff c (fun q' => do return arr1 (← predAt T ut q q').x) q
  let numericalPx ← numDiff c (fun q' => do return arr2 (← predAt T ut q q').Px) q
  let ukf ← predAt T ut q q
  let ukf ← UKF.predictionDiff ut (T.M q) ukf
  assertDiff numericalX (stack [nx] fun a => arr1 (ukf.dx_dq a)) (1 / 10 ^ 8)
  assertDiff numericalPx (stack [nx, nx] fun a => arr2 (ukf.dPx_dq a)) (5 / 10 ^ 8)

/-- test_kalman.py:436-440 -/
noncomputable def predDiffAt (q' : Fin nq → ℝ) : Py (UKF nx ut.nsigma ut.nsigma (Fin ny) (Fin nq)) := do
  let ukf ← predAt T ut q q'
  UKF.predictionDiff ut (T.M q') ukf

/-- test_kalman.py:432-451 `test_ut_pred_diff2` -/
noncomputable def testUtPredDiff2 : Py Unit := do
  let numericalX ← numDiff c (fun q' => do
    let s ← predDiffAt T ut q q'
    return stack [nx] fun b => arr1 (s.dx_dq b)) q
  let numericalPx ← numDiff c (fun q' => do
    let s ← predDiffAt T ut q q'
    return stack [nx, nx] fun b => arr2 (s.dPx_dq b)) q
  let ukf ← predDiffAt T ut q q
  let ukf ← UKF.predictionDiff2 ut (T.M q) ukf
  assertDiff numericalX (stack [nq, nx] fun a => stack [nx] fun b => arr1 (ukf.d2x_dq2 a b)) (1 / 10 ^ 8)
  assertDiff numericalPx (stack [nq, nx, nx] fun a => stack [nx, nx] fun b => arr2 (ukf.d2Px_dq2 a b)) (5 / 10 ^ 8)

/-- The fixture `y` (test_kalman.py:67-69) as a row of measurements: an array that is not masked. -/
def plain (y : Fin ny → ℝ) : MaskedRow (Fin ny) := ⟨y, fun _ => false⟩

variable (y : Fin ny → ℝ)

/-- test_kalman.py:458-462 -/
noncomputable def corrAt (q' : Fin nq → ℝ) : Py (UKF nx ut.nsigma ut.nsigma (Fin ny) (Fin nq)) := do
  let (_, ukf) ← UKF.correct ut (T.M q') (plain y) (parametrizedUkf T ut q q')
  ukf.updateLikelihood

/-- test_kalman.py:454-477 `test_ut_corr_diff` -/
noncomputable def testUtCorrDiff : Py Unit := do
  let numericalL ← numDiff c (fun q' => do return arr0 (← corrAt T ut q y q').L) q
  let numericalX ← numDiff c (fun q' => do return arr1 (← corrAt T ut q y q').x) q
  let numericalPx ← numDiff c (fun q' => do return arr2 (← corrAt T ut q y q').Px) q
  let ukf ← corrAt T ut q y q
  let ukf ← UKF.correctionDiff ut (T.M q) ukf
  let ukf ← ukf.likelihoodDiff
  assertDiff numericalL (stack [] fun a => arr0 (ukf.dL_dq a)) (5 / 10 ^ 8)
  assertDiff numericalX (stack [nx] fun a => arr1 (ukf.dx_dq a)) (5 / 10 ^ 8)
  assertDiff numericalPx (stack [nx, nx] fun a => arr2 (ukf.dPx_dq a)) (5 / 10 ^ 8)

/-- test_kalman.py:483-489 -/
noncomputable def corrDiffAt (q' : Fin nq → ℝ) : Py (UKF nx ut.nsigma ut.nsigma (Fin ny) (Fin nq)) := do
  let (_, ukf) ← UKF.correct ut (T.M q') (plain y) (parametrizedUkf T ut q q')
  let ukf ← UKF.correctionDiff ut (T.M q') ukf
  let ukf ← ukf.updateLikelihood
  ukf.likelihoodDiff

/-- test_kalman.py:479-506 `test_ut_corr_diff2`; the methods are called in another order than in `corr`. -/
noncomputable def testUtCorrDiff2 : Py Unit := do
  let numericalL ← numDiff c (fun q' => do
    let s ← corrDiffAt T ut q y q'
    return stack [] fun b => arr0 (s.dL_dq b)) q
  let numericalX ← numDiff c (fun q' => do
    let s ← corrDiffAt T ut q y q'
    return stack [nx] fun b => arr1 (s.dx_dq b)) q
  let numericalPx ← numDiff c (fun q' => do
    let s ← corrDiffAt T ut q y q'
    return stack [nx, nx] fun b => arr2 (s.dPx_dq b)) q
  let ukf ← corrAt T ut q y q
  let ukf ← UKF.correctionDiff ut (T.M q) ukf
  let ukf ← UKF.correctionDiff2 ut (T.M q) ukf
  let ukf ← ukf.likelihoodDiff
  let ukf ← ukf.likelihoodDiff2
  assertDiff numericalL (stack [nq] fun a => stack [] fun b => arr0 (ukf.d2L_dq2 a b)) (5 / 10 ^ 8)
  assertDiff numericalX (stack [nq, nx] fun a => stack [nx] fun b => arr1 (ukf.d2x_dq2 a b)) (5 / 10 ^ 8)
  assertDiff numericalPx (stack [nq, nx, nx] fun a => stack [nx, nx] fun b => arr2 (ukf.d2Px_dq2 a b)) (5 / 10 ^ 8)

/-- test_kalman.py:513, 525 `yN = np.arange(3)[:, None] + y` -/
def threeRows (y : Fin ny → ℝ) : List (MaskedRow (Fin ny)) := (List.range 3).map fun k : Nat => plain fun j => (k : ℝ) + y j

/-- test_kalman.py:509-518 `test_ukf_pem_grad` -/
noncomputable def testUkfPemGrad : Py Unit := do
  let numerical ← numDiff c (fun q' => do return arr0 (← (UKF.cls ut ut (T.M q')).pemMerit (threeRows y) (parametrizedUkf T ut q q')).1) q
  let (g, _) ← (UKF.cls ut ut (T.M q)).pemGradient (threeRows y) (parametrizedUkf T ut q q)
  assertDiff numerical (stack [] fun a => arr0 (g a)) (5 / 10 ^ 8)

/-- test_kalman.py:521-530 `test_ukf_pem_hessian` -/
noncomputable def testUkfPemHessian : Py Unit := do
  let numerical ← numDiff c (fun q' => do
    let r ← (UKF.cls ut ut (T.M q')).pemGradient (threeRows y) (parametrizedUkf T ut q q')
    return stack [] fun b => arr0 (r.1 b)) q
  let (H, _) ← (UKF.cls ut ut (T.M q)).pemHessian (threeRows y) (parametrizedUkf T ut q q)
  assertDiff numerical (stack [nq] fun a => stack [] fun b => arr0 (H a b)) (5 / 10 ^ 8)

/-! ### The model of the fixtures -/

/-- The derivative of a function of a vector with respect to its entry `a`. -/
noncomputable def partialDiff {n : Nat} (a : Fin n) (F : (Fin n → ℝ) → ℝ) (q : Fin n → ℝ) : ℝ := deriv (fun t => F (Function.update q a t)) (q a)

/-- test_kalman.py:106-207: the model of the fixture `model`, whose defaults are `x` and `Px` (for `v` and `Pv`), and its derivatives
(116-131), which sym2num generates: `(name, function, wrt)` has the axis of `wrt` in front of those of the function. -/
noncomputable def fixture (ny nq : Nat) (x₀ : Fin nx → ℝ) (Px : Matrix (Fin nx) (Fin nx) ℝ) : Setup nx ny nq where
  M q := {
    f _ x := f x q
    h _ x := h ny x q
    Q _ x := Q x q
    R := R ny q
    df_dx _ x i j := partialDiff i (fun x => f x q j) x
    df_dq _ x a j := partialDiff a (fun q => f x q j) q
    d2f_dx2 _ x l i j := partialDiff l (fun x => partialDiff i (fun x => f x q j) x) x
    d2f_dx_dq _ x a i j := partialDiff a (fun q => partialDiff i (fun x => f x q j) x) q
    d2f_dq2 _ x a b j := partialDiff a (fun q => partialDiff b (fun q => f x q j) q) q
    dQ_dx _ x i := of fun j m => partialDiff i (fun x => Q x q j m) x
    dQ_dq _ x a := of fun j m => partialDiff a (fun q => Q x q j m) q
    d2Q_dx2 _ x l i := of fun j m => partialDiff l (fun x => partialDiff i (fun x => Q x q j m) x) x
    d2Q_dx_dq _ x a i := of fun j m => partialDiff a (fun q => partialDiff i (fun x => Q x q j m) x) q
    d2Q_dq2 _ x a b := of fun j m => partialDiff a (fun q => partialDiff b (fun q => Q x q j m) q) q
    dh_dx _ x i j := partialDiff i (fun x => h ny x q j) x
    dh_dq _ x a j := partialDiff a (fun q => h ny x q j) q
    d2h_dx2 _ x l i j := partialDiff l (fun x => partialDiff i (fun x => h ny x q j) x) x
    d2h_dx_dq _ x a i j := partialDiff a (fun q => partialDiff i (fun x => h ny x q j) x) q
    d2h_dq2 _ x a b j := partialDiff a (fun q => partialDiff b (fun q => h ny x q j) q) q
    dR_dq a := of fun j l => partialDiff a (fun q => R ny q j l) q
    d2R_dq2 a b := of fun j l => partialDiff a (fun q => partialDiff b (fun q => R ny q j l) q) q }
  v q := v q x₀
  Pv q := Pv q Px
  dv_dq q a i := partialDiff a (fun q => v q x₀ i) q
  dPv_dq q a := of fun i j => partialDiff a (fun q => Pv q Px i j) q
  d2v_dq2 q a b i := partialDiff a (fun q => partialDiff b (fun q => v q x₀ i) q) q
  d2Pv_dq2 q a b := of fun i j => partialDiff a (fun q => partialDiff b (fun q => Pv q Px i j) q) q

end TestKalman
end Ceacoest
