import Verif.Model.SymClasses
import Verif.Spec.SymExpr

/-!
# Models in `examples/`

The examples that use the classes `symoc.Model`, `symoem.Model` and `symjme.Model`; the symbolic methods are written in the language
`SExpr`. Powers with natural exponents are products. The other examples (`circular_orbit.py`, `circular_orbit_min_time.py`,
`free_flying_robot.py`, `hang_glider.py`, `hfb320_long_oem.py`, `minimum_time_to_climb.py`, `shuttle_reentry.py`) use the decorator
`collocate`, which no module of this commit defines; `Model/ExamplePhysics.lean` has their functions.
-/

namespace Ceacoest
open Spec Spec.SExpr

/-- examples/bryson_denham.py:22-44 `SymbolicBrysonDenham`; `M`, `g` and `h` are the defaults symoc.py:48-62. -/
noncomputable def brysonDenham : OCUser SExpr where
  order := 3
  f x u _ := [x.getD 1 (const 0), u.getD 0 (const 0)]
  L _ u _ := mul (const 0.5) (mul (u.getD 0 (const 0)) (u.getD 0 (const 0)))
  M _ _ := const 0
  g _ _ _ := []
  h _ _ := []

/-- examples/bryson_denham.py:28-32, the variables. -/
def brysonDenhamVars : Dict String SymVar := [("x", .vec ["x1", "x2"]), ("u", .vec ["u1"]), ("p", .vec [])]

/-- examples/bryson_denham.py:58-69, the bounds: row `r` of the states of a problem whose grid has the last point `n`. Later assignments
replace earlier ones. -/
noncomputable def brysonDenhamLower (n r : Nat) : List (Option ℝ) :=
  if r = n then [some 0, some (-1)] else if r = 0 then [some 0, some 1] else [some 0, none]
noncomputable def brysonDenhamUpper (n r : Nat) : List (Option ℝ) :=
  if r = n then [some 0, some (-1)] else if r = 0 then [some 0, some 1] else [some (1 / 9), none]

/-- examples/bryson_denham.py:52 `np.linspace(0, 1, 101)`, in exact arithmetic. -/
noncomputable def brysonDenhamMesh : NDArray ℝ := ⟨[101], (List.range 101).map fun i : Nat => (i : ℝ) / 100⟩

/-- examples/brachistochrone.py:22-46 `SymbolicBrachistochroneModel`; `L`, `g` and `h` are the defaults symoc.py:48-58. -/
noncomputable def brachistochrone : OCUser SExpr where
  order := 3
  f x u p :=
    let v := x.getD 2 (const 0)
    let theta := u.getD 0 (const 0)
    let tf := p.getD 0 (const 0)
    [mul (mul v (sin theta)) tf, mul (mul (mul (const (-1)) v) (cos theta)) tf, mul (mul (const 9.80665) (cos theta)) tf]
  L _ _ _ := const 0
  M _ p := p.getD 0 (const 0)
  g _ _ _ := []
  h _ _ := []

/-- examples/brachistochrone.py:28-32, the variables. -/
def brachistochroneVars : Dict String SymVar := [("x", .vec ["x", "y", "v"]), ("u", .vec ["theta"]), ("p", .vec ["tf"])]

/-- symstats.py:15-18 `normal_logpdf1` as an expression, for samples that are not masked: the factor `1.0 * ~getmaskarray(x)` is 1. -/
noncomputable def normalLogpdf1Expr (x mean std : SExpr) : SExpr :=
  let dev := add x (mul (const (-1)) mean)
  let logpdf := add (mul (mul (const (-1)) (mul dev dev)) (inv (mul (const 2) (mul std std)))) (mul (const (-1)) (log std))
  mul (const 1) logpdf

/-- examples/attas_sp.py:22-48 `SymbolicAttasShortPeriod`. Its measurements are not masked (attas_sp.py:51-60). -/
noncomputable def attas : OEMUser SExpr where
  order := 3
  f x u p :=
    let q := x.getD 0 (const 0)
    let alpha := x.getD 1 (const 0)
    let de := u.getD 0 (const 0)
    let Z0 := p.getD 0 (const 0)
    let Zalpha := p.getD 1 (const 0)
    let Zq := p.getD 2 (const 0)
    let Zde := p.getD 3 (const 0)
    let M0 := p.getD 4 (const 0)
    let Malpha := p.getD 5 (const 0)
    let Mq := p.getD 6 (const 0)
    let Mde := p.getD 7 (const 0)
    let qdot := add (add (add M0 (mul Malpha alpha)) (mul Mq q)) (mul Mde de)
    let alphadot := add (add (add Z0 (mul Zalpha alpha)) (mul (add Zq (const 1)) q)) (mul Zde de)
    [qdot, alphadot]
  L y x _ p :=
    add (normalLogpdf1Expr (y.getD 1 (const 0)) (x.getD 1 (const 0)) (p.getD 8 (const 0)))
      (normalLogpdf1Expr (y.getD 0 (const 0)) (x.getD 0 (const 0)) (p.getD 9 (const 0)))

/-- examples/attas_sp.py:28-34, the variables. -/
def attasVars : Dict String SymVar :=
  [("x", .vec ["q", "alpha"]), ("y", .vec ["q_meas", "alpha_meas"]), ("u", .vec ["de"]),
   ("p", .vec ["Z0", "Zalpha", "Zq", "Zde", "M0", "Malpha", "Mq", "Mde", "alpha_meas_std", "q_meas_std"])]

/-- examples/attas_sp.py:77-83, the lower bounds of a problem with `ndec` decision variables (`none` is minus infinity). The upper bounds are
infinite, the bounds of the constraints are zero. -/
noncomputable def attasLower (ndec : Nat) : List (Option ℝ) :=
  ((List.replicate ndec none).set (ndec - 2) (some 0.0001)).set (ndec - 1) (some 0.00025)

/-- examples/duffing_jme.py:70-95 `SymbolicDuffingJME`, with the attribute `JT_range` of the collocation method. Only rows with a measurement
reach `L`, and a row has one measurement, so that no sample is masked. -/
noncomputable def duffing (jtRange : List (List ℝ)) : JMEUser SExpr where
  order := 3
  f x u p :=
    let x1 := x.getD 0 (const 0)
    let x2 := x.getD 1 (const 0)
    let u1 := u.getD 0 (const 0)
    let gamma := p.getD 0 (const 0)
    let alpha := p.getD 1 (const 0)
    let beta := p.getD 2 (const 0)
    let delta := p.getD 3 (const 0)
    let f2 := add (add (add (mul (mul (const (-1)) delta) x2) (mul (const (-1)) (mul beta x1)))
      (mul (const (-1)) (mul alpha (mul x1 (mul x1 x1))))) (mul gamma u1)
    [x2, f2]
  L y x _ p := normalLogpdf1Expr (y.getD 0 (const 0)) (x.getD 0 (const 0)) (p.getD 4 (const 0))
  useOm := true
  usePenalty := false
  jtRange := jtRange

/-- examples/duffing_jme.py:76-82, the variables. -/
def duffingVars : Dict String SymVar :=
  [("x", .vec ["x1", "x2"]), ("y", .vec ["x1_meas"]), ("u", .vec ["u1"]), ("p", .vec ["gamma", "alpha", "beta", "delta", "x1_meas_std"]),
   ("G", .mat 2 1 fun i _ => if i = 0 then "g1" else "g2")]

/-- examples/duffing_jme.py:167 `jme_model.G`, with `g2=0.1` (duffing_jme.py:145). -/
noncomputable def duffingG : NDArray ℝ := ⟨[2, 1], [0, 0.1]⟩

/-- examples/duffing_jme.py:181-185, the lower bounds: `var_L['p']` is a view of the last entries of `dec_L`. -/
noncomputable def duffingLower (ndec : Nat) : List (Option ℝ) := (List.replicate ndec none).set (ndec - 1) (some 1e-5)

end Ceacoest
