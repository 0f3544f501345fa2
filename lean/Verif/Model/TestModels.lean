import Verif.Model.SymClasses
import Verif.Model.Problems
import Verif.Spec.SymExpr

/-!
# The models and problems of the test modules

`ceacoest/tests/test_oc.py` and `ceacoest/tests/test_oem.py` make a model with all features (path and endpoint constraints, both costs, parameters) and check
its derivatives with the tests of `test_optim.py` (`Model/TestOptim.lean`). Both fixtures decorate the model with `collocate`, which `symoc.py` and `symoem.py` do
not define at this commit; the models below are classes with the same methods derived from `symoc.Model` and `symoem.Model`. Powers with natural exponents are
products; the power `a ** b` with an expression as exponent is `exp(b * log(a))`. The order of collocation and the number of pieces, which the tests take from
short lists (test_oc.py:22, 91; test_oem.py:22, 69), are arguments.
-/

namespace Ceacoest
namespace TestModels
open Spec Spec.SExpr

/-- `a ** 2`, `a ** 3` and `a ** 4`. -/
def sq (a : SExpr) : SExpr := mul a a
def cube (a : SExpr) : SExpr := mul a (mul a a)
def fourth (a : SExpr) : SExpr := mul (sq a) (sq a)

/-- test_oc.py:32-83 `SymbolicModel`, of order `collocation_order` (test_oc.py:22-25). -/
noncomputable def oc (order : Int) : OCUser SExpr where
  order := order
  f x u p :=
    let x1 := x.getD 0 (const 0)
    let x2 := x.getD 1 (const 0)
    let u1 := u.getD 0 (const 0)
    let u2 := u.getD 1 (const 0)
    let p1 := p.getD 0 (const 0)
    [mul x1 (cos x2), mul (mul (mul u1 u2) p1) (sq x2), mul (mul (sq u1) (cube x1)) (exp p1)]
  g x u p :=
    let x1 := x.getD 0 (const 0)
    let u1 := u.getD 0 (const 0)
    let p1 := p.getD 0 (const 0)
    let p2 := p.getD 1 (const 0)
    [mul (exp (mul (add (sq x1) (const 1)) (log (add (sq u1) (const 2))))) p1, mul (mul (mul (cube p1) p2) (sq u1)) p2]
  h xe p :=
    let x1_initial := xe.getD 0 (const 0)
    let x2_final := xe.getD 4 (const 0)
    let p1 := p.getD 0 (const 0)
    [mul x1_initial (cube p1), mul (mul x1_initial (cube x2_final)) p1]
  M xe p :=
    let x1_initial := xe.getD 0 (const 0)
    let x2_initial := xe.getD 1 (const 0)
    let x1_final := xe.getD 3 (const 0)
    let x3_final := xe.getD 5 (const 0)
    let p1 := p.getD 0 (const 0)
    let p2 := p.getD 1 (const 0)
    add (add (mul (cube x3_final) (cube p2)) (mul p1 x1_initial)) (mul x1_final (sq x2_initial))
  L x u p :=
    let x1 := x.getD 0 (const 0)
    let u1 := u.getD 0 (const 0)
    let u2 := u.getD 1 (const 0)
    let p1 := p.getD 0 (const 0)
    let p2 := p.getD 1 (const 0)
    add (add (add (sq x1) (fourth p2)) (mul (mul p1 u2) (add x1 (const 2)))) (sq (add (add (add p2 u1) u2) x1))

/-- test_oc.py:36-45, the variables. -/
def ocVars : Dict String SymVar := [("x", .vec ["x1", "x2", "x3"]), ("u", .vec ["u1", "u2"]), ("p", .vec ["p1", "p2"])]

/-- test_oc.py:100, test_oem.py:90 `np.linspace(0, 1, npieces + 1)`, in exact arithmetic. -/
noncomputable def times (npieces : Nat) : NDArray ℝ := ⟨[npieces + 1], (List.range (npieces + 1)).map fun i : Nat => (i : ℝ) / npieces⟩

/-- test_oc.py:97-101 `problem`. -/
noncomputable def ocTestProblem (m : OCModel) (npieces : Nat) : Py ColProblem := ocProblem m (times npieces)

/-- test_oem.py:32-62 `SymbolicModel`, of order `collocation_order` (test_oem.py:22-25). -/
noncomputable def oem (order : Int) : OEMUser SExpr where
  order := order
  f x u p :=
    let x1 := x.getD 0 (const 0)
    let x2 := x.getD 1 (const 0)
    let u1 := u.getD 0 (const 0)
    let p1 := p.getD 0 (const 0)
    [mul x1 (cos x2), mul (mul u1 p1) (sq x2), mul (mul (sq u1) (cube x1)) (exp p1)]
  L y x u p :=
    let x1_meas := y.getD 0 (const 0)
    let x1 := x.getD 0 (const 0)
    let u1 := u.getD 0 (const 0)
    let p1 := p.getD 0 (const 0)
    let p2 := p.getD 1 (const 0)
    add (add (add (add (sq x1) (fourth p2)) (mul p1 (add x1 (const 2)))) (sq (add (add (add p2 u1) u1) x1))) x1_meas

/-- test_oem.py:36-46, the variables. -/
def oemVars : Dict String SymVar :=
  [("x", .vec ["x1", "x2", "x3"]), ("u", .vec ["u1"]), ("y", .vec ["x1_meas", "x2_meas"]), ("p", .vec ["p1", "p2"])]

/-- test_oem.py:75-78 `y`, of the numbers that `np.random.randn` returns; the array is not masked (oem.py:21 `np.ma.getmaskarray`). -/
def measurements (m : OEMModel) (npieces : Nat) (randn : List ℝ) : MaskedArray :=
  ⟨⟨[npieces + 1, m.ny], randn⟩, List.replicate randn.length false⟩

/-- test_oem.py:81-84 `u`. -/
noncomputable def inputs : UArg := .callable fun t => .ok (.array ⟨[t.length, 1], t.map Real.cos⟩)

/-- test_oem.py:87-91 `problem`. -/
noncomputable def oemTestProblem (m : OEMModel) (npieces : Nat) (randn : List ℝ) : Py OEMProblem :=
  oemProblem ColProblem.initVars m (times npieces) (measurements m npieces randn) inputs

end TestModels
end Ceacoest
