import Mathlib.Data.Real.Sqrt
import Mathlib.Analysis.SpecialFunctions.Trigonometric.Deriv
import Mathlib.Analysis.SpecialFunctions.Pow.Real
import Mathlib.Analysis.SpecialFunctions.ExpDeriv
import Mathlib.Data.Fin.VecNotation

/-!
# Equations of motion in `examples/`

The functions the methods `f`, `g`, `h`, `L`, `M` of the remaining examples denote over the real numbers. Vectors are functions on `Fin n`
in the order in which the example declares its variables; constants that the example keeps in `self` are arguments. The methods are not
expressions of `SExpr` here, so that nothing is said about their generated code or its derivatives; floating point is not modelled.
-/

namespace Ceacoest.Ex

/-- Constants of examples/circular_orbit.py:26. -/
structure OrbitConsts where
  mu : ℝ
  ve : ℝ
  Tmax : ℝ
  Rfinal : ℝ

/-- examples/circular_orbit.py:37-53 `f` (the same text in circular_orbit_min_time.py:37-53): states `X Y vx vy m`, controls `T Txn Tyn`,
parameter `tf`. -/
noncomputable def orbitF (c : OrbitConsts) (x : Fin 5 → ℝ) (u : Fin 3 → ℝ) (tf : ℝ) : Fin 5 → ℝ :=
  let R3 := (x 0 ^ 2 + x 1 ^ 2) ^ (1.5 : ℝ)
  let gx := -c.mu * x 0 / R3
  let gy := -c.mu * x 1 / R3
  let Tx := u 0 * u 1 * c.Tmax
  let Ty := u 0 * u 2 * c.Tmax
  let ax := gx + Tx / x 4
  let ay := gy + Ty / x 4
  let mdot := -u 0 * c.Tmax / c.ve
  ![x 2 * tf, x 3 * tf, ax * tf, ay * tf, mdot * tf]

/-- examples/circular_orbit.py:55-58 `g`. -/
def orbitG (u : Fin 3 → ℝ) : ℝ := u 1 ^ 2 + u 2 ^ 2 - 1

/-- examples/circular_orbit.py:60-69 `h`, of the final state. -/
noncomputable def orbitH (c : OrbitConsts) (x : Fin 5 → ℝ) : Fin 3 → ℝ :=
  let R_error := (x 0 ^ 2 + x 1 ^ 2) / c.Rfinal ^ 2 - 1
  let v_dot_r := x 0 * x 2 + x 1 * x 3
  let r_cross_v := x 0 * x 3 - x 1 * x 2
  let V := √(x 2 ^ 2 + x 3 ^ 2)
  let V_error := r_cross_v * V - c.mu
  ![R_error, v_dot_r, V_error]

/-- examples/circular_orbit_min_time.py:60-69 `h`, of the final state. -/
noncomputable def orbitMinTimeH (c : OrbitConsts) (x : Fin 5 → ℝ) : Fin 3 → ℝ :=
  let R_error := (x 0 ^ 2 + x 1 ^ 2) / c.Rfinal - c.Rfinal
  let v_dot_r := (x 0 * x 2 + x 1 * x 3) / c.Rfinal
  let r_cross_v := x 0 * x 3 - x 1 * x 2
  let V := √(x 2 ^ 2 + x 3 ^ 2)
  let V_error := r_cross_v * V - c.mu
  ![R_error, v_dot_r, V_error]

/-- examples/circular_orbit.py:76-80 `L`. -/
noncomputable def orbitL (c : OrbitConsts) (u : Fin 3 → ℝ) (tf : ℝ) : ℝ :=
  let P := 0.5 * u 0 * c.ve * c.Tmax
  P * tf

/-- Constants of examples/hang_glider.py:24. -/
structure GliderConsts where
  uM : ℝ
  m : ℝ
  R : ℝ
  S : ℝ
  CD0 : ℝ
  rho : ℝ
  k : ℝ
  g : ℝ

/-- examples/hang_glider.py:34-35, the speed of the thermal at the distance `X`. -/
noncomputable def gliderUa (c : GliderConsts) (X : ℝ) : ℝ :=
  let XX := (X / c.R - 2.5) ^ 2
  c.uM * (1 - XX) * Real.exp (-XX)

/-- examples/hang_glider.py:30-47 `f`: states `X y vx vy`, control `CL`, parameter `tf`. The square root of a negative number is `nan`,
here `none`. At `vr = 0` the quotients of real numbers give the value 0 that the simplified expression `vr * Vy` of sympy has. -/
noncomputable def gliderF (c : GliderConsts) (x : Fin 4 → ℝ) (CL : ℝ) (tf : ℝ) : Option (Fin 4 → ℝ) :=
  let CD := c.CD0 + c.k * CL ^ 2
  let Vy := x 3 - gliderUa c (x 0)
  if x 2 ^ 2 + Vy < 0 then none else
  let vr := √(x 2 ^ 2 + Vy)
  let D := 0.5 * CD * c.rho * c.S * vr ^ 2
  let L := 0.5 * CL * c.rho * c.S * vr ^ 2
  let sin_eta := Vy / vr
  let cos_eta := x 2 / vr
  let W := c.m * c.g
  let vxdot := (-L * sin_eta - D * cos_eta) / c.m
  let vydot := (L * cos_eta - D * sin_eta - W) / c.m
  some ![x 2 * tf, x 3 * tf, vxdot * tf, vydot * tf]

/-- examples/hang_glider.py:49-52 `g`. -/
def gliderG (x : Fin 4 → ℝ) : ℝ := x 2 ^ 2 + x 3 ^ 2

/-- examples/hang_glider.py:74-77, the constants. -/
noncomputable def gliderConsts : GliderConsts :=
  { uM := 2.5, m := 100, R := 100, S := 14, CD0 := 0.034, rho := 1.13, k := 0.069662, g := 9.80665 }

/-- examples/free_flying_robot.py:29-44 `f`: states `x1 x2 theta v1 v2 omega`, controls `u1 u2 u3 u4`. -/
noncomputable def robotF (x : Fin 6 → ℝ) (u : Fin 4 → ℝ) : Fin 6 → ℝ :=
  let alpha := 0.2
  let beta := 0.2
  let T1 := u 0 - u 1
  let T2 := u 2 - u 3
  ![x 3, x 4, x 5, (T1 + T2) * Real.cos (x 2), (T1 + T2) * Real.sin (x 2), alpha * T1 - beta * T2]

/-- examples/free_flying_robot.py:46-51 `g`. -/
def robotG (u : Fin 4 → ℝ) : Fin 2 → ℝ := ![u 0 + u 1, u 2 + u 3]

/-- examples/free_flying_robot.py:58-63 `L`. -/
def robotL (u : Fin 4 → ℝ) : ℝ :=
  let abs_T1 := u 0 + u 1
  let abs_T2 := u 2 + u 3
  abs_T1 + abs_T2

/-- Constants and callables of examples/minimum_time_to_climb.py:59-68. -/
structure ClimbConsts where
  T : ℝ → ℝ → ℝ
  CLa : ℝ → ℝ
  CD0 : ℝ → ℝ
  eta : ℝ → ℝ
  speedOfSound : ℝ → ℝ
  rho : ℝ → ℝ
  S : ℝ
  Isp : ℝ
  Re : ℝ
  mu : ℝ
  g0 : ℝ

/-- examples/minimum_time_to_climb.py:81-82, the thrust at the height `h` and speed `v`. -/
noncomputable def climbT (c : ClimbConsts) (h v : ℝ) : ℝ := c.T h (v / c.speedOfSound h)

/-- examples/minimum_time_to_climb.py:81,83,84, the lift. -/
noncomputable def climbL (c : ClimbConsts) (h v alpha : ℝ) : ℝ :=
  let M := v / c.speedOfSound h
  let qbar := 0.5 * c.rho h * v ^ 2
  qbar * c.S * c.CLa M * alpha

/-- examples/minimum_time_to_climb.py:81,83,85, the drag. -/
noncomputable def climbD (c : ClimbConsts) (h v alpha : ℝ) : ℝ :=
  let M := v / c.speedOfSound h
  let qbar := 0.5 * c.rho h * v ^ 2
  qbar * c.S * (c.CD0 M + c.eta M * c.CLa M * alpha ^ 2)

/-- examples/minimum_time_to_climb.py:75-91 `f`: states `h v gamma w`, control `alpha`, parameter `tf`. -/
noncomputable def climbF (c : ClimbConsts) (x : Fin 4 → ℝ) (alpha : ℝ) (tf : ℝ) : Fin 4 → ℝ :=
  let m := x 3 / c.g0
  let v := x 1
  let h := x 0
  let T := climbT c h v
  let L := climbL c h v alpha
  let D := climbD c h v alpha
  let g := c.mu / (c.Re + h) ^ 2
  ![v * Real.sin (x 2) * tf,
    ((T * Real.cos alpha - D) / m - g * Real.sin (x 2)) * tf,
    ((T * Real.sin alpha + L) / m / v + Real.cos (x 2) * (v / (c.Re + h) - g / v)) * tf,
    -T / c.Isp * tf]

/-- Constants of examples/shuttle_reentry.py:26-27 that `f` uses. -/
structure ShuttleConsts where
  a0 : ℝ
  a1 : ℝ
  mu : ℝ
  b0 : ℝ
  b1 : ℝ
  b2 : ℝ
  S : ℝ
  Re : ℝ
  rho0 : ℝ
  hr : ℝ
  m : ℝ

/-- examples/shuttle_reentry.py:39-43, the lift. -/
noncomputable def shuttleL (c : ShuttleConsts) (h v alpha : ℝ) : ℝ :=
  let rho := c.rho0 * Real.exp (-h / c.hr)
  let qbar := 0.5 * rho * v ^ 2
  let CL := c.a0 + c.a1 * alpha
  qbar * c.S * CL

/-- examples/shuttle_reentry.py:39-44, the drag. -/
noncomputable def shuttleD (c : ShuttleConsts) (h v alpha : ℝ) : ℝ :=
  let rho := c.rho0 * Real.exp (-h / c.hr)
  let qbar := 0.5 * rho * v ^ 2
  let CD := c.b0 + c.b1 * alpha + c.b2 * alpha ^ 2
  qbar * c.S * CD

/-- examples/shuttle_reentry.py:35-56 `f`: states `h phi theta v gamma psi`, controls `alpha beta`, parameter `tf`. -/
noncomputable def shuttleF (c : ShuttleConsts) (x : Fin 6 → ℝ) (u : Fin 2 → ℝ) (tf : ℝ) : Fin 6 → ℝ :=
  let h := x 0
  let theta := x 2
  let v := x 3
  let gamma := x 4
  let psi := x 5
  let L := shuttleL c h v (u 0)
  let D := shuttleD c h v (u 0)
  let r := c.Re + h
  let g := c.mu / r ^ 2
  let hd := v * Real.sin gamma
  let phid := v / r * Real.cos gamma * Real.sin psi / Real.cos theta
  let thetad := v / r * Real.cos gamma * Real.cos psi
  let vd := -D / c.m - g * Real.sin gamma
  let gammad := L / (c.m * v) * Real.cos (u 1) + Real.cos gamma * (v / r - g / v)
  let psid := L * Real.sin (u 1) / (c.m * v * Real.cos gamma)
    + v / (r * Real.cos theta) * Real.cos gamma * Real.sin psi * Real.sin theta
  ![hd * tf, phid * tf, thetad * tf, vd * tf, gammad * tf, psid * tf]

/-- examples/shuttle_reentry.py:111-120, the constants; `d2r` is the number of radians in a degree. -/
noncomputable def shuttleConsts (d2r : ℝ) : ShuttleConsts :=
  let r2d := 1 / d2r
  { rho0 := 0.002378, hr := 23800, Re := 20902900, S := 2690, a0 := -0.20704, a1 := 0.029244 * r2d, mu := 0.14076539e17,
    b0 := 0.07854, b1 := -0.61592e-2 * r2d, b2 := 0.621408 * r2d ^ 2, m := 203e3 / 32.174 }

/-- Constants of examples/hfb320_long_oem.py:42-45 and the parameters of lines 35-41 that `f` and the predicted outputs use. -/
structure HFBConsts where
  g0 : ℝ
  Sbym : ℝ
  ScbyIy : ℝ
  FEIYLT : ℝ
  V0 : ℝ
  mass : ℝ
  sigmaT : ℝ
  rho : ℝ
  cbarH : ℝ
  CD0 : ℝ
  CDV : ℝ
  CDa : ℝ
  CL0 : ℝ
  CLV : ℝ
  CLa : ℝ
  Cm0 : ℝ
  CmV : ℝ
  Cma : ℝ
  Cmq : ℝ
  Cmde : ℝ
  q_bias : ℝ
  qdot_bias : ℝ
  ax_bias : ℝ
  az_bias : ℝ

/-- examples/hfb320_long_oem.py:56-72 `f`: states `V alpha theta q`, inputs `de T`. -/
noncomputable def hfbF (c : HFBConsts) (x : Fin 4 → ℝ) (u : Fin 2 → ℝ) : Fin 4 → ℝ :=
  let V := x 0
  let alpha := x 1
  let theta := x 2
  let q := x 3
  let qbar := 0.5 * c.rho * V ^ 2
  let gamma := theta - alpha
  let qhat := c.cbarH * q / c.V0
  let CD := c.CD0 + c.CDV * V / c.V0 + c.CDa * alpha
  let CL := c.CL0 + c.CLV * V / c.V0 + c.CLa * alpha
  let Cm := c.Cm0 + c.CmV * V / c.V0 + c.Cma * alpha + c.Cmq * qhat + c.Cmde * u 0
  let Vd := -c.Sbym * qbar * CD + u 1 * Real.cos (alpha + c.sigmaT) / c.mass - c.g0 * Real.sin gamma
  let alphad := -c.Sbym * qbar / V * CL - u 1 * Real.sin (alpha + c.sigmaT) / (c.mass * V)
    + c.g0 * Real.cos gamma / V + q
  let qd := c.ScbyIy * qbar * Cm + u 1 * c.FEIYLT
  ![Vd, alphad, q, qd]

/-- examples/hfb320_long_oem.py:74-100 `L`, the means of the seven densities, in the order of lines 46-47. -/
noncomputable def hfbOutputs (c : HFBConsts) (x : Fin 4 → ℝ) (u : Fin 2 → ℝ) : Fin 7 → ℝ :=
  let V := x 0
  let alpha := x 1
  let theta := x 2
  let q := x 3
  let qbar := 0.5 * c.rho * V ^ 2
  let qhat := c.cbarH * q / c.V0
  let CD := c.CD0 + c.CDV * V / c.V0 + c.CDa * alpha
  let CL := c.CL0 + c.CLV * V / c.V0 + c.CLa * alpha
  let Cm := c.Cm0 + c.CmV * V / c.V0 + c.Cma * alpha + c.Cmq * qhat + c.Cmde * u 0
  let salpha := Real.sin alpha
  let calpha := Real.cos alpha
  let CX := CL * salpha - CD * calpha
  let CZ := -CL * calpha - CD * salpha
  let qdot := c.ScbyIy * qbar * Cm + u 1 * c.FEIYLT + c.qdot_bias
  let ax := c.Sbym * qbar * CX + u 1 * Real.cos c.sigmaT / c.mass + c.ax_bias
  let az := c.Sbym * qbar * CZ - u 1 * Real.sin c.sigmaT / c.mass + c.az_bias
  ![V, alpha, theta, q + c.q_bias, qdot, ax, az]

/-- examples/attitude.py:44-58 `f`: the rates of `phi theta psi`; those of the accelerations and of `p q r` are zero. The same equations
are in lines 190-201. -/
noncomputable def attitudeRates (angles omega : Fin 3 → ℝ) : Fin 3 → ℝ :=
  let cphi := Real.cos (angles 0)
  let sphi := Real.sin (angles 0)
  let cth := Real.cos (angles 1)
  let tth := Real.tan (angles 1)
  let p := omega 0
  let q := omega 1
  let r := omega 2
  ![p + tth * (sphi * q + cphi * r), cphi * q - sphi * r, sphi / cth * q + cphi / cth * r]

/-- examples/attitude.py:71-82, the matrix `e2b`. -/
noncomputable def attitudeE2b (angles : Fin 3 → ℝ) : Fin 3 → Fin 3 → ℝ :=
  let cphi := Real.cos (angles 0)
  let sphi := Real.sin (angles 0)
  let cth := Real.cos (angles 1)
  let sth := Real.sin (angles 1)
  let cpsi := Real.cos (angles 2)
  let spsi := Real.sin (angles 2)
  ![![cth * cpsi, cth * spsi, -sth],
    ![-cphi * spsi + sphi * sth * cpsi, cphi * cpsi + sphi * sth * spsi, sphi * cth],
    ![sphi * spsi + cphi * sth * cpsi, -sphi * cpsi + cphi * sth * spsi, cphi * cth]]

/-- examples/attitude.py:83-84, the magnetic field `mag` in body axes. -/
noncomputable def attitudeMag (angles : Fin 3 → ℝ) (magex magez : ℝ) (magh : Fin 3 → ℝ) : Fin 3 → ℝ := fun i =>
  (attitudeE2b angles i 0 * magex + attitudeE2b angles i 1 * 0 + attitudeE2b angles i 2 * magez) + magh i

/-- examples/attitude.py:85,91-93, the measured accelerations. -/
noncomputable def attitudeAccel (angles a : Fin 3 → ℝ) (g0 : ℝ) : Fin 3 → ℝ := fun i =>
  a i - (attitudeE2b angles i 0 * 0 + attitudeE2b angles i 1 * 0 + attitudeE2b angles i 2 * g0)

/-- examples/duffing.py:47-53 `f`: states `x v`. -/
noncomputable def duffingF (gamma omega alpha beta delta : ℝ) (t : ℝ) (x : Fin 2 → ℝ) : Fin 2 → ℝ :=
  let u := gamma * Real.sin (t * omega)
  ![x 1, -delta * x 1 - beta * x 0 - alpha * x 0 ^ 3 + u]

end Ceacoest.Ex
