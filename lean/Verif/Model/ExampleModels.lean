import Verif.Model.SymClasses
import Verif.Model.ExamplePhysics
import Verif.Spec.SymExpr

/-!
# Further optimal control models of `examples/`

The models of `circular_orbit.py`, `circular_orbit_min_time.py`, `free_flying_robot.py`, `hang_glider.py` and `shuttle_reentry.py`, as symbolic methods in the
language `SExpr`. The examples use the decorator `collocate`, which `symoc.py` does not define at this commit; these are classes with the same methods derived
from `symoc.Model`, of the order that the decorator is given. The constants that the examples keep in `self` are numbers here. Powers with exponents
that are not natural numbers and roots are `exp(r * log(a))`, which is defined for positive `a`. `minimum_time_to_climb.py` calls splines and is not of this form.
-/

namespace Ceacoest
namespace ExModels
open Spec Spec.SExpr Ex

/-- `-a`, `a - b`, `a / b`, `a ** 2`, `a ** 3`, `a ** r`, `sqrt(a)`. -/
def neg (a : SExpr) : SExpr := mul (const (-1)) a
def sub (a b : SExpr) : SExpr := add a (neg b)
def div (a b : SExpr) : SExpr := mul a (inv b)
def sq (a : SExpr) : SExpr := mul a a
def cube (a : SExpr) : SExpr := mul a (mul a a)
def rpow (a : SExpr) (r : ℝ) : SExpr := exp (mul (const r) (log a))
noncomputable def sqrt (a : SExpr) : SExpr := rpow a (1 / 2)

/-- Symbol `i` of a vector. -/
def sy (l : List SExpr) (i : Nat) : SExpr := l.getD i (const 0)

/-- examples/circular_orbit.py:37-53 `f`, and circular_orbit_min_time.py:37-53. -/
noncomputable def orbitFE (c : OrbitConsts) (x u p : List SExpr) : List SExpr :=
  let R3 := rpow (add (sq (sy x 0)) (sq (sy x 1))) 1.5
  let gx := div (mul (neg (const c.mu)) (sy x 0)) R3
  let gy := div (mul (neg (const c.mu)) (sy x 1)) R3
  let Tx := mul (mul (sy u 0) (sy u 1)) (const c.Tmax)
  let Ty := mul (mul (sy u 0) (sy u 2)) (const c.Tmax)
  let ax := add gx (div Tx (sy x 4))
  let ay := add gy (div Ty (sy x 4))
  let mdot := div (mul (neg (sy u 0)) (const c.Tmax)) (const c.ve)
  [sy x 2, sy x 3, ax, ay, mdot].map fun e => mul e (sy p 0)

/-- examples/circular_orbit.py:55-58 `g`, and circular_orbit_min_time.py:55-58. -/
noncomputable def orbitGE (u : List SExpr) : List SExpr := [sub (add (sq (sy u 1)) (sq (sy u 2))) (const 1)]

/-- The error of the speed in circular_orbit.py:66-68, circular_orbit_min_time.py:66-68; `xe` has the initial state and the final state. -/
noncomputable def orbitSpeedErrorE (c : OrbitConsts) (xe : List SExpr) : SExpr :=
  let r_cross_v := sub (mul (sy xe 5) (sy xe 8)) (mul (sy xe 6) (sy xe 7))
  let V := sqrt (add (sq (sy xe 7)) (sq (sy xe 8)))
  sub (mul r_cross_v V) (const c.mu)

/-- examples/circular_orbit.py:18-80 `CircularOrbit`. -/
noncomputable def orbit (c : OrbitConsts) : OCUser SExpr where
  order := 2
  f := orbitFE c
  g _ u _ := orbitGE u
  h xe _ :=
    let R_error := sub (div (add (sq (sy xe 5)) (sq (sy xe 6))) (sq (const c.Rfinal))) (const 1)
    let v_dot_r := add (mul (sy xe 5) (sy xe 7)) (mul (sy xe 6) (sy xe 8))
    [R_error, v_dot_r, orbitSpeedErrorE c xe]
  M _ _ := const 0
  L _ u p := mul (mul (mul (mul (const 0.5) (sy u 0)) (const c.ve)) (const c.Tmax)) (sy p 0)

/-- examples/circular_orbit_min_time.py:18-79 `CircularOrbit`. -/
noncomputable def orbitMinTime (c : OrbitConsts) : OCUser SExpr where
  order := 2
  f := orbitFE c
  g _ u _ := orbitGE u
  h xe _ :=
    let R_error := sub (div (add (sq (sy xe 5)) (sq (sy xe 6))) (const c.Rfinal)) (const c.Rfinal)
    let v_dot_r := div (add (mul (sy xe 5) (sy xe 7)) (mul (sy xe 6) (sy xe 8))) (const c.Rfinal)
    [R_error, v_dot_r, orbitSpeedErrorE c xe]
  M _ p := sy p 0
  L _ _ _ := const 0

/-- examples/circular_orbit.py:22-35, circular_orbit_min_time.py:22-35, the variables. -/
def orbitVars : Dict String SymVar := [("x", .vec ["X", "Y", "vx", "vy", "m"]), ("u", .vec ["T", "Txn", "Tyn"]), ("p", .vec ["tf"])]

/-- examples/circular_orbit.py:87-91, the constants. -/
noncomputable def orbitConsts : OrbitConsts := { mu := 1, ve := 50, Tmax := 0.05, Rfinal := 2 }

/-- examples/free_flying_robot.py:17-68 `FreeFlyingRobot`. -/
noncomputable def robot : OCUser SExpr where
  order := 2
  f x u _ :=
    let T1 := sub (sy u 0) (sy u 1)
    let T2 := sub (sy u 2) (sy u 3)
    [sy x 3, sy x 4, sy x 5, mul (add T1 T2) (cos (sy x 2)), mul (add T1 T2) (sin (sy x 2)), sub (mul (const 0.2) T1) (mul (const 0.2) T2)]
  g _ u _ := [add (sy u 0) (sy u 1), add (sy u 2) (sy u 3)]
  h _ _ := []
  L _ u _ := add (add (sy u 0) (sy u 1)) (add (sy u 2) (sy u 3))
  M _ _ := const 0

/-- examples/free_flying_robot.py:21-27, the variables. -/
def robotVars : Dict String SymVar := [("x", .vec ["x1", "x2", "theta", "v1", "v2", "omega"]), ("u", .vec ["u1", "u2", "u3", "u4"]), ("p", .vec [])]

/-- examples/hang_glider.py:17-67 `HangGlider`. -/
noncomputable def glider (c : GliderConsts) : OCUser SExpr where
  order := 3
  f x u p :=
    let CL := sy u 0
    let CD := add (const c.CD0) (mul (const c.k) (sq CL))
    let XX := sq (sub (div (sy x 0) (const c.R)) (const 2.5))
    let ua := mul (mul (const c.uM) (sub (const 1) XX)) (exp (neg XX))
    let Vy := sub (sy x 3) ua
    let vr := sqrt (add (sq (sy x 2)) Vy)
    let D := mul (mul (mul (mul (const 0.5) CD) (const c.rho)) (const c.S)) (sq vr)
    let L := mul (mul (mul (mul (const 0.5) CL) (const c.rho)) (const c.S)) (sq vr)
    let sin_eta := div Vy vr
    let cos_eta := div (sy x 2) vr
    let W := mul (const c.m) (const c.g)
    let vxdot := div (sub (mul (neg L) sin_eta) (mul D cos_eta)) (const c.m)
    let vydot := div (sub (sub (mul L cos_eta) (mul D sin_eta)) W) (const c.m)
    [sy x 2, sy x 3, vxdot, vydot].map fun e => mul e (sy p 0)
  g x _ _ := [add (sq (sy x 2)) (sq (sy x 3))]
  h _ _ := []
  L _ _ _ := const 0
  M xe _ := sy xe 4

/-- examples/hang_glider.py:21-28, the variables. -/
def gliderVars : Dict String SymVar := [("x", .vec ["X", "y", "vx", "vy"]), ("u", .vec ["CL"]), ("p", .vec ["tf"])]

/-- The constants of examples/shuttle_reentry.py:26-27 that only `g` uses. -/
structure HeatConsts where
  c0 : ℝ
  c1 : ℝ
  c2 : ℝ
  c3 : ℝ
  qU : ℝ

/-- examples/shuttle_reentry.py:18-79 `ShuttleReentry`. -/
noncomputable def shuttle (c : ShuttleConsts) (k : HeatConsts) : OCUser SExpr where
  order := 3
  f x u p :=
    let h := sy x 0
    let theta := sy x 2
    let v := sy x 3
    let gamma := sy x 4
    let psi := sy x 5
    let alpha := sy u 0
    let beta := sy u 1
    let rho := mul (const c.rho0) (exp (div (neg h) (const c.hr)))
    let qbar := mul (mul (const 0.5) rho) (sq v)
    let CL := add (const c.a0) (mul (const c.a1) alpha)
    let CD := add (add (const c.b0) (mul (const c.b1) alpha)) (mul (const c.b2) (sq alpha))
    let L := mul (mul qbar (const c.S)) CL
    let D := mul (mul qbar (const c.S)) CD
    let r := add (const c.Re) h
    let g := div (const c.mu) (sq r)
    let hd := mul v (sin gamma)
    let phid := div (mul (mul (div v r) (cos gamma)) (sin psi)) (cos theta)
    let thetad := mul (mul (div v r) (cos gamma)) (cos psi)
    let vd := sub (div (neg D) (const c.m)) (mul g (sin gamma))
    let gammad := add (mul (div L (mul (const c.m) v)) (cos beta)) (mul (cos gamma) (sub (div v r) (div g v)))
    let psid := add (div (mul L (sin beta)) (mul (mul (const c.m) v) (cos gamma)))
      (mul (mul (mul (div v (mul r (cos theta))) (cos gamma)) (sin psi)) (sin theta))
    [hd, phid, thetad, vd, gammad, psid].map fun e => mul e (sy p 0)
  g x u _ :=
    let alpha := sy u 0
    let rho := mul (const c.rho0) (exp (div (neg (sy x 0)) (const c.hr)))
    let qr := mul (mul (const 17700) (sqrt rho)) (rpow (mul (const 0.0001) (sy x 3)) 3.07)
    let qa := add (add (add (const k.c0) (mul (const k.c1) alpha)) (mul (const k.c2) (sq alpha))) (mul (const k.c3) (cube alpha))
    [div (mul qa qr) (const k.qU)]
  h _ _ := []
  M xe _ := sy xe 8
  L _ _ _ := const 0

/-- examples/shuttle_reentry.py:22-33, the variables. -/
def shuttleVars : Dict String SymVar :=
  [("x", .vec ["h", "phi", "theta", "v", "gamma", "psi"]), ("u", .vec ["alpha", "beta"]), ("p", .vec ["tf"])]

/-- examples/shuttle_reentry.py:111-120, the constants of `g`. -/
noncomputable def heatConsts (d2r : ℝ) : HeatConsts :=
  let r2d := 1 / d2r
  { c0 := 1.0672181, c1 := -0.19213774e-1 * r2d, c2 := 0.21286289e-3 * r2d ^ 2, c3 := -0.10117249e-5 * r2d ^ 3, qU := 70 }

end ExModels

namespace Ex

/-- examples/shuttle_reentry.py:58-64 `g`: the heating of the leading edge, relative to the bound. -/
noncomputable def shuttleG (c : ShuttleConsts) (k : ExModels.HeatConsts) (h v alpha : ℝ) : ℝ :=
  let rho := c.rho0 * Real.exp (-h / c.hr)
  let qr := 17700 * √rho * (0.0001 * v) ^ (3.07 : ℝ)
  let qa := k.c0 + k.c1 * alpha + k.c2 * alpha ^ 2 + k.c3 * alpha ^ 3
  qa * qr / k.qU

end Ex
end Ceacoest
