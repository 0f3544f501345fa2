import Verif.Model.Utils
import Verif.Model.ArrayCmp
import Verif.Model.Optim
import Verif.NumPy.Broadcast

/-! # `ceacoest/tests/test_optim.py`

The tests call the methods by names that `optim.Problem` had before (`merit`, `constraint`, …), so what they call is given here by
a structure of callables; `Tested.ofProblem` gives them their present names. -/

namespace Ceacoest.TestOptim

/-- What the tests use of their fixture `problem` (test_optim.py:25-72). -/
structure Tested where
  ndec : Nat
  ncons : Nat
  merit : List ℝ → Py ℝ
  meritGradient : List ℝ → Py (List ℝ)
  meritHessianInd : Py (List Nat × List Nat)
  meritHessianVal : List ℝ → Py (List ℝ)
  constraint : List ℝ → Py (List ℝ)
  constraintJacobianInd : Py (List Nat × List Nat)
  constraintJacobianVal : List ℝ → Py (List ℝ)
  constraintHessianInd : Py (List Nat × List Nat)
  constraintHessianVal : List ℝ → List ℝ → Py (List ℝ)

/-- A problem of optim.py:115-257 under the names of the tests.  The Hessian of the constraints with multipliers is that of the
Lagrangian without the objective. -/
noncomputable def Tested.ofProblem (p : Problem ℝ) : Tested :=
  ⟨p.ndec, p.ncons, p.obj, p.objGrad, p.objHessInd, p.objHessVal, p.constr, p.constrJacInd, p.constrJacVal, p.lagHessInd,
    fun dec mult => p.lagHessVal dec 0 mult⟩

/-- `np.max` of a vector of indices (test_optim.py:14-15); of an empty one it raises ValueError. -/
def npMax : List Nat → Py Nat
  | [] => .error .valueError
  | a :: l => .ok (l.foldl max a)

/-- `sparse.coo_matrix((val, ind), shape).toarray()` (test_optim.py:16-17) for indices in range: entries listed twice are added. -/
def toArray (val : List ℝ) (ind : List Nat × List Nat) (n m : Nat) : Py (NDArray ℝ) :=
  if ind.1.length = val.length ∧ ind.2.length = val.length then
    .ok ⟨[n, m], (List.range val.length).foldl (fun A k => A.modify (ind.1.getD k 0 * m + ind.2.getD k 0) (· + val.getD k 0))
      (List.replicate (n * m) 0)⟩
  else .error .valueError

/-- `A.T` of an `n` by `m` array (test_optim.py:19). -/
def transpose (n m : Nat) (A : NDArray ℝ) : NDArray ℝ :=
  ⟨[m, n], (List.range (m * n)).map fun k => A.data.getD (k % n * m + k / n) 0⟩

/-- `np.diag(np.diag(A))` of an `n` by `m` array (test_optim.py:19), a square array. -/
def diagDiag (n m : Nat) (A : NDArray ℝ) : NDArray ℝ :=
  ⟨[min n m, min n m], (List.range (min n m * min n m)).map fun k =>
    if k / min n m = k % min n m then A.data.getD (k / min n m * m + k % min n m) 0 else 0⟩

/-- test_optim.py:12-22 `sparse_fun_to_full`: the wrapper, called where `val` gives `val`.  Simplification: the indices are not
negative. -/
def sparseFunToFull (val : Py (List ℝ)) (ind : List Nat × List Nat) (n m : Nat) (fixSym : Bool) : Py (NDArray ℝ) := do
  pyAssert ((← npMax ind.1) < n)
  pyAssert ((← npMax ind.2) < m)
  let A ← toArray (← val) ind n m
  if fixSym then
    let B ← binop (· - ·) (transpose n m A) (diagDiag n m A)
    let B ← broadcastTo B A.shape
    binop (· + ·) A B
  else return A

/-- A vector. -/
def vec (l : List ℝ) : NDArray ℝ := ⟨[l.length], l⟩

/-- test_optim.py:47, 54, 61, 72: `assert ArrayDiff(a, b) < 1e-7`.  For `b = None` (which `central_diff` returns if there is
nothing to differentiate by) `np.abs` raises TypeError. -/
noncomputable def check (a : NDArray ℝ) : Option (NDArray ℝ) → Py Unit
  | none => .error .typeError
  | some b => do pyAssert (← (ArrayCmp.ArrayDiff.mk (.ok a) (.ok b)).lt (.num (1 / 10 ^ 7)))

/-- `utils.central_diff(f, dec)` (test_optim.py:46, 53, 60, 66) with the default steps (utils.py:12). -/
noncomputable def diffAt (f : List ℝ → Py (NDArray ℝ)) (dec : List ℝ) (junk : Nat → ℝ) : Py (Option (NDArray ℝ)) :=
  Utils.centralDiff (fun x => f x.data) (vec dec) (1 / 10 ^ 7) (1 / 10 ^ 7) junk

/-- test_optim.py:43-47 `test_merit_gradient`. -/
noncomputable def testMeritGradient (T : Tested) (dec : List ℝ) (junk : Nat → ℝ) : Py Unit := do
  let grad ← T.meritGradient dec
  check (vec grad) (← diffAt (fun d => do return ⟨[], [← T.merit d]⟩) dec junk)

/-- test_optim.py:50-54 `test_merit_hessian` with 25-28 `full_hessian`. -/
noncomputable def testMeritHessian (T : Tested) (dec : List ℝ) (junk : Nat → ℝ) : Py Unit := do
  let ind ← T.meritHessianInd
  let hess ← sparseFunToFull (T.meritHessianVal dec) ind T.ndec T.ndec true
  check hess (← diffAt (fun d => do return vec (← T.meritGradient d)) dec junk)

/-- test_optim.py:31-34 `full_jac`, with the indices found before. -/
noncomputable def fullJac (T : Tested) (ind : List Nat × List Nat) (dec : List ℝ) : Py (NDArray ℝ) :=
  sparseFunToFull (T.constraintJacobianVal dec) ind T.ndec T.ncons false

/-- test_optim.py:57-61 `test_constraint_jacobian`. -/
noncomputable def testConstraintJacobian (T : Tested) (dec : List ℝ) (junk : Nat → ℝ) : Py Unit := do
  let ind ← T.constraintJacobianInd
  let jac ← fullJac T ind dec
  check jac (← diffAt (fun d => do return vec (← T.constraint d)) dec junk)

/-- `a[:, :, i]` (test_optim.py:72); `None` has no items. -/
def lastItem (a : Option (NDArray ℝ)) (i : Nat) : Py (NDArray ℝ) :=
  match a with
  | none => .error .typeError
  | some a => match a.shape with
    | [n, k, m] => if i < m then .ok ⟨[n, k], (List.range (n * k)).map fun q => a.data.getD (q * m + i) 0⟩ else .error .indexError
    | _ => .error .indexError

/-- test_optim.py:64-72 `test_constraint_hessian` with 37-40 `full_cons_hessian`. -/
noncomputable def testConstraintHessian (T : Tested) (dec : List ℝ) (junk : Nat → ℝ) : Py Unit := do
  let jind ← T.constraintJacobianInd
  let jacDiff ← diffAt (fullJac T jind) dec junk
  let hind ← T.constraintHessianInd
  (List.range T.ncons).foldlM (fun _ i => do
    let H ← sparseFunToFull (T.constraintHessianVal dec ((List.replicate T.ncons 0).set i 1)) hind T.ndec T.ndec true
    check H (some (← lastItem jacDiff i))) ()

end Ceacoest.TestOptim
