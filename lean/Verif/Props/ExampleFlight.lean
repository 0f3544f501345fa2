import Verif.Props.ExamplePhysics
import Mathlib.LinearAlgebra.Matrix.Determinant.Basic

/-! # C83: the equations of motion of the examples are Newton's law, flight in the atmosphere -/

namespace Ceacoest.Ex
open Real

/-! ## Local axes on a sphere -/

/-- The direction up at the longitude `phi` and latitude `theta`. -/
noncomputable def upDir (phi theta : ℝ) : Fin 3 → ℝ := ![cos theta * cos phi, cos theta * sin phi, sin theta]
/-- The direction north. -/
noncomputable def northDir (phi theta : ℝ) : Fin 3 → ℝ := ![-sin theta * cos phi, -sin theta * sin phi, cos theta]
/-- The direction east. -/
noncomputable def eastDir (phi : ℝ) : Fin 3 → ℝ := ![-sin phi, cos phi, 0]

/-- The direction of flight with the flight path angle `gamma` above the horizon and the azimuth `psi` from north to east. -/
noncomputable def flightDir (phi theta gamma psi : ℝ) : Fin 3 → ℝ := fun i =>
  sin gamma * upDir phi theta i + cos gamma * (cos psi * northDir phi theta i + sin psi * eastDir phi i)
/-- The direction normal to the flight in the vertical plane. -/
noncomputable def normalDir (phi theta gamma psi : ℝ) : Fin 3 → ℝ := fun i =>
  cos gamma * upDir phi theta i - sin gamma * (cos psi * northDir phi theta i + sin psi * eastDir phi i)
/-- The horizontal direction to the right of the flight. -/
noncomputable def rightDir (phi theta psi : ℝ) : Fin 3 → ℝ := fun i => cos psi * eastDir phi i - sin psi * northDir phi theta i

/-- The inner product. -/
def dot3 (a b : Fin 3 → ℝ) : ℝ := a 0 * b 0 + a 1 * b 1 + a 2 * b 2

/-- The position in axes through the centre of the Earth that do not turn. -/
noncomputable def shuttlePos (Re : ℝ) (x : Fin 6 → ℝ) : Fin 3 → ℝ := fun i => (Re + x 0) * upDir (x 1) (x 2) i
/-- The velocity in these axes. -/
noncomputable def shuttleVel (x : Fin 6 → ℝ) : Fin 3 → ℝ := fun i => x 3 * flightDir (x 1) (x 2) (x 4) (x 5) i
/-- The direction of the lift with the bank angle `beta`. -/
noncomputable def shuttleLiftDir (x : Fin 6 → ℝ) (beta : ℝ) : Fin 3 → ℝ := fun i =>
  cos beta * normalDir (x 1) (x 2) (x 4) (x 5) i + sin beta * rightDir (x 1) (x 2) (x 5) i

theorem up_deriv {phi theta : ℝ → ℝ} {p q t : ℝ} (hp : HasDerivAt phi p t) (hq : HasDerivAt theta q t) (i : Fin 3) :
    HasDerivAt (fun s => upDir (phi s) (theta s) i) (q * northDir (phi t) (theta t) i + p * cos (theta t) * eastDir (phi t) i) t := by
  fin_cases i
  · refine (hq.cos.mul hp.cos).congr_deriv ?_
    change _ = q * (-sin (theta t) * cos (phi t)) + p * cos (theta t) * (-sin (phi t))
    ring
  · refine (hq.cos.mul hp.sin).congr_deriv ?_
    change _ = q * (-sin (theta t) * sin (phi t)) + p * cos (theta t) * cos (phi t)
    ring
  · refine hq.sin.congr_deriv ?_
    change _ = q * cos (theta t) + p * cos (theta t) * 0
    ring

theorem north_deriv {phi theta : ℝ → ℝ} {p q t : ℝ} (hp : HasDerivAt phi p t) (hq : HasDerivAt theta q t) (i : Fin 3) :
    HasDerivAt (fun s => northDir (phi s) (theta s) i) (-q * upDir (phi t) (theta t) i - p * sin (theta t) * eastDir (phi t) i) t := by
  fin_cases i
  · refine (hq.sin.neg.mul hp.cos).congr_deriv ?_
    change _ = -q * (cos (theta t) * cos (phi t)) - p * sin (theta t) * (-sin (phi t))
    simp only [Pi.neg_apply]
    ring
  · refine (hq.sin.neg.mul hp.sin).congr_deriv ?_
    change _ = -q * (cos (theta t) * sin (phi t)) - p * sin (theta t) * cos (phi t)
    simp only [Pi.neg_apply]
    ring
  · refine hq.cos.congr_deriv ?_
    change _ = -q * sin (theta t) - p * sin (theta t) * 0
    ring

theorem east_deriv {phi theta : ℝ → ℝ} {p t : ℝ} (hp : HasDerivAt phi p t) (i : Fin 3) :
    HasDerivAt (fun s => eastDir (phi s) i)
      (p * (sin (theta t) * northDir (phi t) (theta t) i - cos (theta t) * upDir (phi t) (theta t) i)) t := by
  have h := sin_sq_add_cos_sq (theta t)
  fin_cases i
  · refine hp.sin.neg.congr_deriv ?_
    change _ = p * (sin (theta t) * (-sin (theta t) * cos (phi t)) - cos (theta t) * (cos (theta t) * cos (phi t)))
    linear_combination p * cos (phi t) * h
  · refine hp.cos.congr_deriv ?_
    change _ = p * (sin (theta t) * (-sin (theta t) * sin (phi t)) - cos (theta t) * (cos (theta t) * sin (phi t)))
    linear_combination p * sin (phi t) * h
  · refine (hasDerivAt_const t (0 : ℝ)).congr_deriv ?_
    change _ = p * (sin (theta t) * cos (theta t) - cos (theta t) * sin (theta t))
    ring

/-- C83: the three directions that the forces on the shuttle have are unit vectors, and drag and lift are orthogonal. -/
theorem C83_shuttle_axes (x : Fin 6 → ℝ) (beta : ℝ) :
    dot3 (flightDir (x 1) (x 2) (x 4) (x 5)) (flightDir (x 1) (x 2) (x 4) (x 5)) = 1 ∧
    dot3 (shuttleLiftDir x beta) (shuttleLiftDir x beta) = 1 ∧
    dot3 (flightDir (x 1) (x 2) (x 4) (x 5)) (shuttleLiftDir x beta) = 0 ∧
    dot3 (upDir (x 1) (x 2)) (upDir (x 1) (x 2)) = 1 := by
  have uu : dot3 (upDir (x 1) (x 2)) (upDir (x 1) (x 2)) = 1 := by
    simp only [dot3, upDir, Matrix.cons_val]
    linear_combination cos (x 2) ^ 2 * sin_sq_add_cos_sq (x 1) + sin_sq_add_cos_sq (x 2)
  have nn : dot3 (northDir (x 1) (x 2)) (northDir (x 1) (x 2)) = 1 := by
    simp only [dot3, northDir, Matrix.cons_val]
    linear_combination sin (x 2) ^ 2 * sin_sq_add_cos_sq (x 1) + sin_sq_add_cos_sq (x 2)
  have ee : dot3 (eastDir (x 1)) (eastDir (x 1)) = 1 := by
    simp only [dot3, eastDir, Matrix.cons_val]
    linear_combination sin_sq_add_cos_sq (x 1)
  have un : dot3 (upDir (x 1) (x 2)) (northDir (x 1) (x 2)) = 0 := by
    simp only [dot3, upDir, northDir, Matrix.cons_val]
    linear_combination -(sin (x 2) * cos (x 2)) * sin_sq_add_cos_sq (x 1)
  have ue : dot3 (upDir (x 1) (x 2)) (eastDir (x 1)) = 0 := by
    simp only [dot3, upDir, eastDir, Matrix.cons_val]
    ring
  have ne : dot3 (northDir (x 1) (x 2)) (eastDir (x 1)) = 0 := by
    simp only [dot3, northDir, eastDir, Matrix.cons_val]
    ring
  have hg := sin_sq_add_cos_sq (x 4)
  have hp := sin_sq_add_cos_sq (x 5)
  have hb := sin_sq_add_cos_sq beta
  unfold dot3 at *
  simp only [flightDir, shuttleLiftDir, normalDir, rightDir]
  generalize upDir (x 1) (x 2) = U at *
  generalize northDir (x 1) (x 2) = N at *
  generalize eastDir (x 1) = E at *
  generalize sin (x 4) = sg at *
  generalize cos (x 4) = cg at *
  generalize sin (x 5) = sp at *
  generalize cos (x 5) = cp at *
  generalize sin beta = sb at *
  generalize cos beta = cb at *
  refine ⟨?_, ?_, ?_, uu⟩
  · linear_combination sg ^ 2 * uu + cg ^ 2 * cp ^ 2 * nn + cg ^ 2 * sp ^ 2 * ee + 2 * sg * cg * cp * un + 2 * sg * cg * sp * ue
      + 2 * cg ^ 2 * cp * sp * ne + cg ^ 2 * hp + hg
  · linear_combination (cb * cg) ^ 2 * uu + (cb * sg * cp + sb * sp) ^ 2 * nn + (sb * cp - cb * sg * sp) ^ 2 * ee
      - 2 * (cb * cg) * (cb * sg * cp + sb * sp) * un + 2 * (cb * cg) * (sb * cp - cb * sg * sp) * ue
      - 2 * (cb * sg * cp + sb * sp) * (sb * cp - cb * sg * sp) * ne + (cb ^ 2 * sg ^ 2 + sb ^ 2) * hp + cb ^ 2 * hg + hb
  · linear_combination sg * (cb * cg) * uu - cg * cp * (cb * sg * cp + sb * sp) * nn + cg * sp * (sb * cp - cb * sg * sp) * ee
      + (cg * cp * (cb * cg) - sg * (cb * sg * cp + sb * sp)) * un + (cg * sp * (cb * cg) + sg * (sb * cp - cb * sg * sp)) * ue
      + (cg * cp * (sb * cp - cb * sg * sp) - cg * sp * (cb * sg * cp + sb * sp)) * ne - cg * cb * sg * hp

/-- C83: the position of the shuttle moves with its velocity, and its velocity with the acceleration of gravity, drag and lift. -/
theorem C83_shuttle_newton (c : ShuttleConsts) (x : ℝ → Fin 6 → ℝ) (u : Fin 2 → ℝ) (tf t : ℝ)
    (hx : HasDerivAt x (shuttleF c (x t) u tf) t) (hr : 0 < c.Re + x t 0) (hv : x t 3 ≠ 0) (hm : 0 < c.m)
    (hth : cos (x t 2) ≠ 0) (hga : cos (x t 4) ≠ 0) :
    HasDerivAt (fun s => shuttlePos c.Re (x s)) (tf • shuttleVel (x t)) t ∧
    HasDerivAt (fun s => shuttleVel (x s))
      (tf • fun i => -c.mu / (c.Re + x t 0) ^ 3 * shuttlePos c.Re (x t) i
        - shuttleD c (x t 0) (x t 3) (u 0) / c.m * flightDir (x t 1) (x t 2) (x t 4) (x t 5) i
        + shuttleL c (x t 0) (x t 3) (u 0) / c.m * shuttleLiftDir (x t) (u 1) i) t := by
  have h0 := comp_deriv hx 0
  have h1 := comp_deriv hx 1
  have h2 := comp_deriv hx 2
  have h3 := comp_deriv hx 3
  have h4 := comp_deriv hx 4
  have h5 := comp_deriv hx 5
  simp only [shuttleF, Matrix.cons_val] at h0 h1 h2 h3 h4 h5
  have hg := sin_sq_add_cos_sq (x t 4)
  have hp := sin_sq_add_cos_sq (x t 5)
  constructor
  · rw [hasDerivAt_pi]
    intro i
    refine ((h0.const_add c.Re).mul (up_deriv h1 h2 i)).congr_deriv ?_
    simp only [shuttleVel, flightDir, Pi.smul_apply, smul_eq_mul]
    field_simp
  · rw [hasDerivAt_pi]
    intro i
    have hup := up_deriv h1 h2 i
    have hno := north_deriv h1 h2 i
    have hea := east_deriv (theta := fun s => x s 2) h1 i
    refine (h3.mul ((h4.sin.mul hup).add (h4.cos.mul ((h5.cos.mul hno).add (h5.sin.mul hea))))).congr_deriv ?_
    simp only [shuttlePos, shuttleLiftDir, flightDir, normalDir, rightDir, Pi.smul_apply, smul_eq_mul, Pi.add_apply, Pi.mul_apply]
    generalize upDir (x t 1) (x t 2) i = U
    generalize northDir (x t 1) (x t 2) i = N
    generalize eastDir (x t 1) i = E
    generalize shuttleL c (x t 0) (x t 3) (u 0) = L
    generalize shuttleD c (x t 0) (x t 3) (u 0) = D
    generalize c.Re + x t 0 = r at *
    generalize x t 3 = v at *
    generalize sin (x t 4) = sg at *
    generalize cos (x t 4) = cg at *
    generalize sin (x t 5) = sp at *
    generalize cos (x t 5) = cp at *
    generalize sin (x t 2) = st at *
    generalize cos (x t 2) = ct at *
    have hr' := hr.ne'
    have hm' := hm.ne'
    linear_combination (norm := skip) (-tf * v ^ 2 * cg ^ 2 / r * U) * hp - tf * c.mu / r ^ 2 * U * hg
    field_simp
    ring

/-- C83: with the constants of the example the lift of the shuttle is less than a 500th of its drag at every angle of attack (`b2` has the
value 0.621408 per degree squared; with 0.621408e-3 the ratio at 17 degrees would be above 1.5). -/
theorem C83_shuttle_glide (d2r h v alpha : ℝ) :
    shuttleL (shuttleConsts d2r) h v alpha ≤ 0.002 * shuttleD (shuttleConsts d2r) h v alpha := by
  have hq : 0 ≤ 0.5 * (0.002378 * exp (-h / 23800)) * v ^ 2 * 2690 := by positivity
  have hc : -0.20704 + 0.029244 * (1 / d2r) * alpha ≤
      0.002 * (0.07854 + -0.61592e-2 * (1 / d2r) * alpha + 0.621408 * (1 / d2r) ^ 2 * alpha ^ 2) := by
    nlinarith [sq_nonneg (1 / d2r * alpha - 11.8)]
  have := mul_le_mul_of_nonneg_left hc hq
  simp only [shuttleL, shuttleD, shuttleConsts]
  linarith

example : 1.5 < (-0.20704 + 0.029244 * 17) / (0.07854 + -0.61592e-2 * 17 + 0.621408e-3 * 17 ^ 2 : ℝ) := by norm_num

/-! ## Climb -/

/-- Up and forward in the vertical plane at the range angle `sigma`. -/
noncomputable def planeUp (sigma : ℝ) : Fin 2 → ℝ := ![cos sigma, sin sigma]
noncomputable def planeForward (sigma : ℝ) : Fin 2 → ℝ := ![-sin sigma, cos sigma]
/-- The direction of flight at the flight path angle `gamma`, and the normal to it. -/
noncomputable def planeFlight (sigma gamma : ℝ) : Fin 2 → ℝ := fun i => sin gamma * planeUp sigma i + cos gamma * planeForward sigma i
noncomputable def planeNormal (sigma gamma : ℝ) : Fin 2 → ℝ := fun i => cos gamma * planeUp sigma i - sin gamma * planeForward sigma i

theorem planeUp_deriv {sigma : ℝ → ℝ} {p t : ℝ} (h : HasDerivAt sigma p t) (i : Fin 2) :
    HasDerivAt (fun s => planeUp (sigma s) i) (p * planeForward (sigma t) i) t := by
  fin_cases i
  · refine h.cos.congr_deriv ?_
    change _ = p * (-sin (sigma t))
    ring
  · refine h.sin.congr_deriv ?_
    change _ = p * cos (sigma t)
    ring

theorem planeForward_deriv {sigma : ℝ → ℝ} {p t : ℝ} (h : HasDerivAt sigma p t) (i : Fin 2) :
    HasDerivAt (fun s => planeForward (sigma s) i) (-p * planeUp (sigma t) i) t := by
  fin_cases i
  · refine h.sin.neg.congr_deriv ?_
    change _ = -p * cos (sigma t)
    ring
  · refine h.cos.congr_deriv ?_
    change _ = -p * sin (sigma t)
    ring

/-- C83: with a range angle that changes with the horizontal speed, the position of the climbing aircraft moves with its velocity, its velocity
with the acceleration of gravity, thrust at the angle of attack, drag and lift, for the mass `w / g0`; the weight falls with the thrust. -/
theorem C83_climb_newton (c : ClimbConsts) (x : ℝ → Fin 4 → ℝ) (sigma : ℝ → ℝ) (alpha tf t : ℝ)
    (hx : HasDerivAt x (climbF c (x t) alpha tf) t) (hs : HasDerivAt sigma (tf * (x t 1 * cos (x t 2) / (c.Re + x t 0))) t)
    (hr : 0 < c.Re + x t 0) (hv : x t 1 ≠ 0) (hw : 0 < x t 3) (hg0 : 0 < c.g0) :
    HasDerivAt (fun s => fun i => (c.Re + x s 0) * planeUp (sigma s) i)
      (tf • fun i => x t 1 * planeFlight (sigma t) (x t 2) i) t ∧
    HasDerivAt (fun s => fun i => x s 1 * planeFlight (sigma s) (x s 2) i)
      (tf • fun i => -c.mu / (c.Re + x t 0) ^ 3 * ((c.Re + x t 0) * planeUp (sigma t) i)
        + (climbT c (x t 0) (x t 1) * (cos alpha * planeFlight (sigma t) (x t 2) i + sin alpha * planeNormal (sigma t) (x t 2) i)
          - climbD c (x t 0) (x t 1) alpha * planeFlight (sigma t) (x t 2) i
          + climbL c (x t 0) (x t 1) alpha * planeNormal (sigma t) (x t 2) i) / (x t 3 / c.g0)) t ∧
    HasDerivAt (fun s => x s 3) (-(tf * (climbT c (x t 0) (x t 1) / c.Isp))) t := by
  have h0 := comp_deriv hx 0
  have h1 := comp_deriv hx 1
  have h2 := comp_deriv hx 2
  have h3 := comp_deriv hx 3
  simp only [climbF, Matrix.cons_val] at h0 h1 h2 h3
  have hg := sin_sq_add_cos_sq (x t 2)
  refine ⟨?_, ?_, h3.congr_deriv (by ring)⟩
  · rw [hasDerivAt_pi]
    intro i
    refine ((h0.const_add c.Re).mul (planeUp_deriv hs i)).congr_deriv ?_
    simp only [planeFlight, Pi.smul_apply, smul_eq_mul]
    field_simp
  · rw [hasDerivAt_pi]
    intro i
    refine (h1.mul ((h2.sin.mul (planeUp_deriv hs i)).add (h2.cos.mul (planeForward_deriv hs i)))).congr_deriv ?_
    simp only [planeFlight, planeNormal, Pi.smul_apply, smul_eq_mul, Pi.add_apply, Pi.mul_apply]
    generalize planeUp (sigma t) i = U
    generalize planeForward (sigma t) i = F
    generalize climbT c (x t 0) (x t 1) = T
    generalize climbL c (x t 0) (x t 1) alpha = L
    generalize climbD c (x t 0) (x t 1) alpha = D
    generalize c.Re + x t 0 = r at *
    generalize x t 1 = v at *
    generalize sin (x t 2) = sg at *
    generalize cos (x t 2) = cg at *
    generalize sin alpha = sa at *
    generalize cos alpha = ca at *
    have hr' := hr.ne'
    linear_combination (norm := skip) -tf * c.mu / r ^ 2 * U * hg
    field_simp
    ring

/-- C83: lift and drag of the climbing aircraft at the Mach number `M` are the dynamic pressure times the wing area times the coefficients
`CL = CLa M * alpha` and `CD0 M + eta M / CLa M * CL ^ 2`, and the thrust is the tabulated one. -/
theorem C83_climb_aero (c : ClimbConsts) (h M alpha : ℝ) (ha : c.speedOfSound h ≠ 0) (hC : c.CLa M ≠ 0) :
    let v := M * c.speedOfSound h
    let CL := c.CLa M * alpha
    climbT c h v = c.T h M ∧ climbL c h v alpha = c.rho h * v ^ 2 / 2 * c.S * CL ∧
      climbD c h v alpha = c.rho h * v ^ 2 / 2 * c.S * (c.CD0 M + c.eta M / c.CLa M * CL ^ 2) := by
  dsimp only
  have e : M * c.speedOfSound h / c.speedOfSound h = M := mul_div_cancel_right₀ _ ha
  refine ⟨by rw [climbT, e], ?_, ?_⟩
  · simp only [climbL, e]; ring
  · simp only [climbD, e]; field_simp; ring

/-- At sea level with the numbers of the tables for Mach 0.4, drag is lowest without lift. -/
example (alpha : ℝ) : ∃ c : ClimbConsts, climbD c 0 446 0 ≤ climbD c 0 446 alpha ∧ climbL c 0 446 1 > 0 := by
  refine ⟨⟨fun _ _ => 28300, fun _ => 3.44, fun _ => 0.013, fun _ => 0.54, fun _ => 1115, fun _ => 0.00237717, 530, 1600, 20902900, 0.14076539e17, 32.174⟩, ?_, ?_⟩
  · simp only [climbD]; nlinarith [sq_nonneg alpha]
  · norm_num [climbL]

/-! ## Free flying robot -/

/-- The turning moment of the force `F` that acts at the distance `r` from the centre of mass. -/
def planeMoment (r F : Fin 2 → ℝ) : ℝ := r 0 * F 1 - r 1 * F 0

/-- C83: the free flying robot is a body of unit mass and moment of inertia with two pairs of thrusters along its heading, 0.2 to the right and 0.2
to the left of its centre: the acceleration is the sum of the forces, the angular acceleration the sum of their moments. -/
theorem C83_robot_newton (x : ℝ → Fin 6 → ℝ) (u : Fin 4 → ℝ) (t : ℝ) (hx : HasDerivAt x (robotF (x t) u) t) :
    let heading : Fin 2 → ℝ := ![cos (x t 2), sin (x t 2)]
    let right : Fin 2 → ℝ := ![sin (x t 2), -cos (x t 2)]
    let F1 := (u 0 - u 1) • heading
    let F2 := (u 2 - u 3) • heading
    HasDerivAt (fun s => ![x s 0, x s 1]) ![x t 3, x t 4] t ∧ HasDerivAt (fun s => ![x s 3, x s 4]) (F1 + F2) t ∧
      HasDerivAt (fun s => x s 2) (x t 5) t ∧
      HasDerivAt (fun s => x s 5) (planeMoment ((0.2 : ℝ) • right) F1 + planeMoment ((-0.2 : ℝ) • right) F2) t := by
  dsimp only
  have h := fun i => comp_deriv hx i
  have hg := sin_sq_add_cos_sq (x t 2)
  refine ⟨?_, ?_, (h 2).congr_deriv (by simp [robotF]), (h 5).congr_deriv ?_⟩
  · rw [hasDerivAt_pi]
    intro i
    fin_cases i
    · exact (h 0).congr_deriv (by simp [robotF])
    · exact (h 1).congr_deriv (by simp [robotF])
  · rw [hasDerivAt_pi]
    intro i
    fin_cases i
    · exact (h 3).congr_deriv (by simp [robotF]; ring)
    · exact (h 4).congr_deriv (by simp [robotF]; ring)
  · simp only [robotF, planeMoment, Matrix.cons_val, Pi.smul_apply, smul_eq_mul]
    linear_combination -(0.2 * (u 0 - u 1) - 0.2 * (u 2 - u 3)) * hg

/-- The right hand pair of thrusters turns the robot to the left. -/
example : robotF ![0, 0, 0, 0, 0, 0] ![1, 0, 0, 0] 5 = 0.2 := by simp only [robotF, Matrix.cons_val]; norm_num

/-- The positive and negative parts of the thrusts. -/
def robotSplit (u : Fin 4 → ℝ) : Fin 4 → ℝ := ![max (u 0 - u 1) 0, max (u 1 - u 0) 0, max (u 2 - u 3) 0, max (u 3 - u 2) 0]

theorem max_split (a b : ℝ) : max (a - b) 0 - max (b - a) 0 = a - b ∧ max (a - b) 0 + max (b - a) 0 = |a - b| := by
  rcases le_total a b with h | h
  · rw [max_eq_right (by linarith), max_eq_left (by linarith), abs_of_nonpos (by linarith)]; constructor <;> ring
  · rw [max_eq_left (by linarith), max_eq_right (by linarith), abs_of_nonneg (by linarith)]; constructor <;> ring

theorem abs_split {a b : ℝ} (ha : 0 ≤ a) (hb : 0 ≤ b) : |a - b| ≤ a + b ∧ (a + b = |a - b| ↔ a * b = 0) := by
  rcases le_total a b with h | h
  · rw [abs_of_nonpos (by linarith)]
    refine ⟨by linarith, fun h => by rw [show a = 0 by linarith, zero_mul], fun h => ?_⟩
    rcases mul_eq_zero.1 h with h | h <;> linarith
  · rw [abs_of_nonneg (by linarith)]
    refine ⟨by linarith, fun h => by rw [show b = 0 by linarith, mul_zero], fun h => ?_⟩
    rcases mul_eq_zero.1 h with h | h <;> linarith

/-- C83: with controls that are not negative the running cost of the robot is at least the sum of the absolute values of the thrusts, with
equality exactly when no two opposite thrusters fire together; firing only the difference moves the robot alike, at that cost, and keeps every
bound of the path constraints. -/
theorem C83_robot (x : Fin 6 → ℝ) (u : Fin 4 → ℝ) (hu : ∀ i, 0 ≤ u i) :
    |u 0 - u 1| + |u 2 - u 3| ≤ robotL u ∧ (robotL u = |u 0 - u 1| + |u 2 - u 3| ↔ u 0 * u 1 = 0 ∧ u 2 * u 3 = 0) ∧
    robotF x (robotSplit u) = robotF x u ∧ robotL (robotSplit u) = |u 0 - u 1| + |u 2 - u 3| ∧
    (∀ i, 0 ≤ robotSplit u i) ∧ (∀ i, robotG (robotSplit u) i ≤ robotG u i) := by
  obtain ⟨a1, a2⟩ := abs_split (hu 0) (hu 1)
  obtain ⟨b1, b2⟩ := abs_split (hu 2) (hu 3)
  obtain ⟨m1, m2⟩ := max_split (u 0) (u 1)
  obtain ⟨n1, n2⟩ := max_split (u 2) (u 3)
  refine ⟨by unfold robotL; dsimp only; linarith, ?_, ?_, ?_, ?_, ?_⟩
  · rw [← a2, ← b2]
    unfold robotL
    dsimp only
    exact ⟨fun h => ⟨by linarith, by linarith⟩, fun ⟨h1, h2⟩ => by linarith⟩
  · simp only [robotF, robotSplit, Matrix.cons_val, m1, n1]
  · simp only [robotL, robotSplit, Matrix.cons_val, m2, n2]
  · intro i
    fin_cases i <;> exact le_max_right _ _
  · intro i
    fin_cases i
    · change max (u 0 - u 1) 0 + max (u 1 - u 0) 0 ≤ u 0 + u 1
      linarith
    · change max (u 2 - u 3) 0 + max (u 3 - u 2) 0 ≤ u 2 + u 3
      linarith

/-! ## HFB-320 -/

/-- C83: the accelerations and the pitch acceleration that the HFB-320 example predicts for its sensors, without the biases, are those of its
equations of motion: the velocity in body axes follows the equations of a rigid body. -/
theorem C83_hfb (c : HFBConsts) (x : ℝ → Fin 4 → ℝ) (u : Fin 2 → ℝ) (t : ℝ) (hx : HasDerivAt x (hfbF c (x t) u) t) (hV : x t 0 ≠ 0)
    (hm : c.mass ≠ 0) :
    HasDerivAt (fun s => x s 0 * cos (x s 1))
      (hfbOutputs c (x t) u 5 - c.ax_bias - c.g0 * sin (x t 2) - x t 3 * (x t 0 * sin (x t 1))) t ∧
    HasDerivAt (fun s => x s 0 * sin (x s 1))
      (hfbOutputs c (x t) u 6 - c.az_bias + c.g0 * cos (x t 2) + x t 3 * (x t 0 * cos (x t 1))) t ∧
    HasDerivAt (fun s => x s 2) (hfbOutputs c (x t) u 3 - c.q_bias) t ∧
    HasDerivAt (fun s => x s 3) (hfbOutputs c (x t) u 4 - c.qdot_bias) t := by
  have h0 := comp_deriv hx 0
  have h1 := comp_deriv hx 1
  have h2 := comp_deriv hx 2
  have h3 := comp_deriv hx 3
  simp only [hfbF, Matrix.cons_val] at h0 h1 h2 h3
  have ha := sin_sq_add_cos_sq (x t 1)
  simp only [hfbOutputs, Matrix.cons_val]
  refine ⟨?_, ?_, h2.congr_deriv (by ring), h3.congr_deriv (by ring)⟩
  · refine (h0.mul h1.cos).congr_deriv ?_
    rw [sin_sub, cos_sub, sin_add, cos_add]
    generalize c.CD0 + c.CDV * x t 0 / c.V0 + c.CDa * x t 1 = CD
    generalize c.CL0 + c.CLV * x t 0 / c.V0 + c.CLa * x t 1 = CL
    generalize x t 0 = V at *
    linear_combination (norm := skip) (u 1 * cos c.sigmaT / c.mass - c.g0 * sin (x t 2)) * ha
    field_simp
    ring
  · refine (h0.mul h1.sin).congr_deriv ?_
    rw [sin_sub, cos_sub, sin_add, cos_add]
    generalize c.CD0 + c.CDV * x t 0 / c.V0 + c.CDa * x t 1 = CD
    generalize c.CL0 + c.CLV * x t 0 / c.V0 + c.CLa * x t 1 = CL
    generalize x t 0 = V at *
    linear_combination (norm := skip) (-u 1 * sin c.sigmaT / c.mass + c.g0 * cos (x t 2)) * ha
    field_simp
    ring

/-! ## Attitude -/

/-- The components in body axes of a direction fixed on Earth, when the body turns with `omega`: `v' = -omega × v`. -/
def turnRate (omega v : Fin 3 → ℝ) : Fin 3 → ℝ :=
  ![omega 2 * v 1 - omega 1 * v 2, omega 0 * v 2 - omega 2 * v 0, omega 1 * v 0 - omega 0 * v 1]

/-- C83: the matrix of the attitude example is a rotation, and outside the vertical its columns turn with the angular velocity of the body. -/
theorem C83_attitude (angles : ℝ → Fin 3 → ℝ) (omega : Fin 3 → ℝ) (t : ℝ) (h : HasDerivAt angles (attitudeRates (angles t) omega) t)
    (hth : cos (angles t 1) ≠ 0) (j : Fin 3) :
    HasDerivAt (fun s i => attitudeE2b (angles s) i j) (turnRate omega fun i => attitudeE2b (angles t) i j) t := by
  have h0 := comp_deriv h 0
  have h1 := comp_deriv h 1
  have h2 := comp_deriv h 2
  simp only [attitudeRates, Matrix.cons_val, tan_eq_sin_div_cos] at h0 h1 h2
  have hf := sin_sq_add_cos_sq (angles t 0)
  have ht := sin_sq_add_cos_sq (angles t 1)
  rw [hasDerivAt_pi]
  intro i
  fin_cases j <;> fin_cases i
  · refine (h1.cos.mul h2.cos).congr_deriv ?_
    change _ = omega 2 * attitudeE2b (angles t) 1 0 - omega 1 * attitudeE2b (angles t) 2 0
    simp only [attitudeE2b, Matrix.cons_val, Pi.neg_apply, Pi.mul_apply]
    generalize sin (angles t 0) = sf at *
    generalize cos (angles t 0) = cf at *
    generalize sin (angles t 1) = st at *
    generalize cos (angles t 1) = ct at *
    generalize sin (angles t 2) = sp at *
    generalize cos (angles t 2) = cp at *
    linear_combination (norm := skip) (0 : ℝ) * hf
    field_simp
    ring
  · refine ((h0.cos.neg.mul h2.sin).add ((h0.sin.mul h1.sin).mul h2.cos)).congr_deriv ?_
    change _ = omega 0 * attitudeE2b (angles t) 2 0 - omega 2 * attitudeE2b (angles t) 0 0
    simp only [attitudeE2b, Matrix.cons_val, Pi.neg_apply, Pi.mul_apply]
    generalize sin (angles t 0) = sf at *
    generalize cos (angles t 0) = cf at *
    generalize sin (angles t 1) = st at *
    generalize cos (angles t 1) = ct at *
    generalize sin (angles t 2) = sp at *
    generalize cos (angles t 2) = cp at *
    linear_combination (norm := skip) ((sf * omega 1 + cf * omega 2) / ct) * cf * cp * ht - omega 2 * ct * cp * hf
    field_simp
    ring
  · refine ((h0.sin.mul h2.sin).add ((h0.cos.mul h1.sin).mul h2.cos)).congr_deriv ?_
    change _ = omega 1 * attitudeE2b (angles t) 0 0 - omega 0 * attitudeE2b (angles t) 1 0
    simp only [attitudeE2b, Matrix.cons_val, Pi.neg_apply, Pi.mul_apply]
    generalize sin (angles t 0) = sf at *
    generalize cos (angles t 0) = cf at *
    generalize sin (angles t 1) = st at *
    generalize cos (angles t 1) = ct at *
    generalize sin (angles t 2) = sp at *
    generalize cos (angles t 2) = cp at *
    linear_combination (norm := skip) -((sf * omega 1 + cf * omega 2) / ct) * sf * cp * ht + omega 1 * ct * cp * hf
    field_simp
    ring
  · refine (h1.cos.mul h2.sin).congr_deriv ?_
    change _ = omega 2 * attitudeE2b (angles t) 1 1 - omega 1 * attitudeE2b (angles t) 2 1
    simp only [attitudeE2b, Matrix.cons_val, Pi.neg_apply, Pi.mul_apply]
    generalize sin (angles t 0) = sf at *
    generalize cos (angles t 0) = cf at *
    generalize sin (angles t 1) = st at *
    generalize cos (angles t 1) = ct at *
    generalize sin (angles t 2) = sp at *
    generalize cos (angles t 2) = cp at *
    linear_combination (norm := skip) (0 : ℝ) * hf
    field_simp
    ring
  · refine ((h0.cos.mul h2.cos).add ((h0.sin.mul h1.sin).mul h2.sin)).congr_deriv ?_
    change _ = omega 0 * attitudeE2b (angles t) 2 1 - omega 2 * attitudeE2b (angles t) 0 1
    simp only [attitudeE2b, Matrix.cons_val, Pi.neg_apply, Pi.mul_apply]
    generalize sin (angles t 0) = sf at *
    generalize cos (angles t 0) = cf at *
    generalize sin (angles t 1) = st at *
    generalize cos (angles t 1) = ct at *
    generalize sin (angles t 2) = sp at *
    generalize cos (angles t 2) = cp at *
    linear_combination (norm := skip) ((sf * omega 1 + cf * omega 2) / ct) * cf * sp * ht - omega 2 * ct * sp * hf
    field_simp
    ring
  · refine ((h0.sin.neg.mul h2.cos).add ((h0.cos.mul h1.sin).mul h2.sin)).congr_deriv ?_
    change _ = omega 1 * attitudeE2b (angles t) 0 1 - omega 0 * attitudeE2b (angles t) 1 1
    simp only [attitudeE2b, Matrix.cons_val, Pi.neg_apply, Pi.mul_apply]
    generalize sin (angles t 0) = sf at *
    generalize cos (angles t 0) = cf at *
    generalize sin (angles t 1) = st at *
    generalize cos (angles t 1) = ct at *
    generalize sin (angles t 2) = sp at *
    generalize cos (angles t 2) = cp at *
    linear_combination (norm := skip) -((sf * omega 1 + cf * omega 2) / ct) * sf * sp * ht + omega 1 * ct * sp * hf
    field_simp
    ring
  · refine (h1.sin.neg).congr_deriv ?_
    change _ = omega 2 * attitudeE2b (angles t) 1 2 - omega 1 * attitudeE2b (angles t) 2 2
    simp only [attitudeE2b, Matrix.cons_val, Pi.neg_apply, Pi.mul_apply]
    generalize sin (angles t 0) = sf at *
    generalize cos (angles t 0) = cf at *
    generalize sin (angles t 1) = st at *
    generalize cos (angles t 1) = ct at *
    generalize sin (angles t 2) = sp at *
    generalize cos (angles t 2) = cp at *
    linear_combination (norm := skip) (0 : ℝ) * hf
    field_simp
    ring
  · refine (h0.sin.mul h1.cos).congr_deriv ?_
    change _ = omega 0 * attitudeE2b (angles t) 2 2 - omega 2 * attitudeE2b (angles t) 0 2
    simp only [attitudeE2b, Matrix.cons_val, Pi.neg_apply, Pi.mul_apply]
    generalize sin (angles t 0) = sf at *
    generalize cos (angles t 0) = cf at *
    generalize sin (angles t 1) = st at *
    generalize cos (angles t 1) = ct at *
    generalize sin (angles t 2) = sp at *
    generalize cos (angles t 2) = cp at *
    linear_combination (norm := skip) omega 2 * st * hf
    field_simp
    ring
  · refine (h0.cos.mul h1.cos).congr_deriv ?_
    change _ = omega 1 * attitudeE2b (angles t) 0 2 - omega 0 * attitudeE2b (angles t) 1 2
    simp only [attitudeE2b, Matrix.cons_val, Pi.neg_apply, Pi.mul_apply]
    generalize sin (angles t 0) = sf at *
    generalize cos (angles t 0) = cf at *
    generalize sin (angles t 1) = st at *
    generalize cos (angles t 1) = ct at *
    generalize sin (angles t 2) = sp at *
    generalize cos (angles t 2) = cp at *
    linear_combination (norm := skip) -omega 1 * st * hf
    field_simp
    ring

/-- C83: the matrix is orthogonal with determinant one; the measured field without the hard iron has the magnitude of the field of the Earth,
and a body that does not accelerate measures the magnitude of gravity. -/
theorem C83_attitude_rotation (angles : Fin 3 → ℝ) :
    let A := (Matrix.of (attitudeE2b angles) : Matrix (Fin 3) (Fin 3) ℝ)
    A * A.transpose = 1 ∧ A.det = 1 ∧
    (∀ magex magez magh, ∑ i, (attitudeMag angles magex magez magh i - magh i) ^ 2 = magex ^ 2 + magez ^ 2) ∧
    (∀ g0, ∑ i, attitudeAccel angles 0 g0 i ^ 2 = g0 ^ 2) := by
  have hf := sin_sq_add_cos_sq (angles 0)
  have ht := sin_sq_add_cos_sq (angles 1)
  have hp := sin_sq_add_cos_sq (angles 2)
  simp only [attitudeMag, attitudeAccel, attitudeE2b]
  generalize sin (angles 0) = sf at *
  generalize cos (angles 0) = cf at *
  generalize sin (angles 1) = st at *
  generalize cos (angles 1) = ct at *
  generalize sin (angles 2) = sp at *
  generalize cos (angles 2) = cp at *
  refine ⟨?_, ?_, ?_, ?_⟩
  · ext i j
    rw [Matrix.mul_apply, Fin.sum_univ_three]
    simp only [Matrix.transpose_apply, Matrix.of_apply]
    fin_cases i <;> fin_cases j <;> simp
    · linear_combination ct ^ 2 * hp + ht
    · linear_combination ct * sf * st * hp
    · linear_combination ct * cf * st * hp
    · linear_combination ct * sf * st * hp
    · linear_combination (cf ^ 2 + sf ^ 2 * st ^ 2) * hp + sf ^ 2 * ht + hf
    · linear_combination (-cf * sf + sf * cf * st ^ 2) * hp + sf * cf * ht
    · linear_combination ct * cf * st * hp
    · linear_combination (-cf * sf + sf * cf * st ^ 2) * hp + sf * cf * ht
    · linear_combination (sf ^ 2 + cf ^ 2 * st ^ 2) * hp + cf ^ 2 * ht + hf
  · rw [Matrix.det_fin_three]
    simp only [Matrix.of_apply, Matrix.cons_val]
    linear_combination (sp ^ 2 + cp ^ 2) * (st ^ 2 + ct ^ 2) * hf + (st ^ 2 + ct ^ 2) * hp + ht
  · intro mx mz mh
    rw [Fin.sum_univ_three]
    simp only [Matrix.cons_val]
    linear_combination mx ^ 2 * ((sp ^ 2 + st ^ 2 * cp ^ 2) * hf + cp ^ 2 * ht + hp) + 2 * mx * mz * ct * st * cp * hf
      + mz ^ 2 * (ct ^ 2 * hf + ht)
  · intro g0
    rw [Fin.sum_univ_three]
    simp only [Matrix.cons_val, Pi.zero_apply]
    linear_combination g0 ^ 2 * (ct ^ 2 * hf + ht)

/-! ## Duffing oscillator -/

/-- C83: the energy of the Duffing oscillator changes by the power of the damping and of the force. -/
theorem C83_duffing (gamma omega alpha beta delta : ℝ) (x : ℝ → Fin 2 → ℝ) (t : ℝ)
    (hx : HasDerivAt x (duffingF gamma omega alpha beta delta t (x t)) t) :
    HasDerivAt (fun s => x s 1 ^ 2 / 2 + beta * x s 0 ^ 2 / 2 + alpha * x s 0 ^ 4 / 4)
      (-delta * x t 1 ^ 2 + gamma * sin (t * omega) * x t 1) t := by
  have h0 := comp_deriv hx 0
  have h1 := comp_deriv hx 1
  simp only [duffingF, Matrix.cons_val] at h0 h1
  refine ((((h1.pow 2).div_const 2).add (((h0.pow 2).const_mul beta).div_const 2)).add
    (((h0.pow 4).const_mul alpha).div_const 4)).congr_deriv ?_
  ring

/-- A level flight to the east above the equator: the shuttle has a trajectory there, and Newton's law applies to it. -/
example (c : ShuttleConsts) (hR : 0 < c.Re) (hm : 0 < c.m) : ∃ x : ℝ → Fin 6 → ℝ, shuttleVel (x 0) = ![0, 7800, 0] ∧
    HasDerivAt (fun s => shuttlePos c.Re (x s)) ((1 : ℝ) • (![0, 7800, 0] : Fin 3 → ℝ)) 0 := by
  obtain ⟨x, hx, hd⟩ := exists_curve ![0, 0, 0, 7800, 0, π / 2] (shuttleF c ![0, 0, 0, 7800, 0, π / 2] ![0.3, 0] 1) 0
  have hv : shuttleVel (x 0) = ![0, 7800, 0] := by
    rw [hx]
    funext i
    fin_cases i <;> simp [shuttleVel, flightDir, upDir, northDir, eastDir]
  rw [← hx] at hd
  have h := (C83_shuttle_newton c x ![0.3, 0] 1 0 hd (by rw [hx]; simpa using hR) (by rw [hx]; simp) hm (by rw [hx]; simp)
    (by rw [hx]; simp)).1
  rw [hv] at h
  exact ⟨x, hv, h⟩

/-- Opposite thrusters together cost more than their difference. -/
example : robotL ![1, 1, 0, 0] = 2 ∧ robotL (robotSplit ![1, 1, 0, 0]) = 0 := by
  constructor
  · simp only [robotL, Matrix.cons_val]; norm_num
  · simp only [robotL, robotSplit, Matrix.cons_val]; norm_num

/-- With the nose up by `theta` the accelerometers of the attitude example measure `g0 * sin theta` along the body. -/
example (theta g0 : ℝ) : attitudeAccel ![0, theta, 0] 0 g0 0 = g0 * sin theta := by
  simp [attitudeAccel, attitudeE2b, mul_comm]

end Ceacoest.Ex
