import Verif.Model.ExamplePhysics
import Mathlib.Analysis.Calculus.Deriv.Pi
import Mathlib.Analysis.SpecialFunctions.Sqrt
import Mathlib.Analysis.SpecialFunctions.Pow.Deriv
import Mathlib.Tactic.LinearCombination
import Mathlib.Tactic.FieldSimp
import Mathlib.MeasureTheory.Integral.IntervalIntegral.FundThmCalculus

/-! # C83: the equations of motion of the examples are Newton's law -/

namespace Ceacoest.Ex

/-- A trajectory of the equations `x' = f x u` at the time `t`, in each component. -/
theorem comp_deriv {n : ℕ} {x : ℝ → Fin n → ℝ} {v : Fin n → ℝ} {t : ℝ} (h : HasDerivAt x v t) (i : Fin n) :
    HasDerivAt (fun s => x s i) (v i) t := hasDerivAt_pi.1 h i

/-! ## Orbit transfer -/

/-- Kinetic and potential energy of a unit mass in the plane. -/
noncomputable def orbitEnergy (mu : ℝ) (x : Fin 5 → ℝ) : ℝ := (x 2 ^ 2 + x 3 ^ 2) / 2 - mu / √(x 0 ^ 2 + x 1 ^ 2)

/-- Angular momentum of a unit mass in the plane. -/
def orbitMomentum (x : Fin 5 → ℝ) : ℝ := x 0 * x 3 - x 1 * x 2

theorem rpow_three_half {a : ℝ} (ha : 0 < a) : a ^ (1.5 : ℝ) = a * √a := by
  rw [show (1.5 : ℝ) = 1 + 1 / 2 by norm_num, Real.rpow_add ha, Real.rpow_one, ← Real.sqrt_eq_rpow]

/-- C83: outside the centre the energy of the orbit changes by the power of the thrust, per unit mass, the angular momentum by the moment of
the thrust. -/
theorem C83_orbit_work (c : OrbitConsts) (x : ℝ → Fin 5 → ℝ) (u : Fin 3 → ℝ) (tf t : ℝ) (hx : HasDerivAt x (orbitF c (x t) u tf) t)
    (hr : x t 0 ≠ 0 ∨ x t 1 ≠ 0) (hm : 0 < x t 4) :
    HasDerivAt (fun s => orbitEnergy c.mu (x s)) (tf * (u 0 * c.Tmax / x t 4) * (u 1 * x t 2 + u 2 * x t 3)) t ∧
    HasDerivAt (fun s => orbitMomentum (x s)) (tf * (u 0 * c.Tmax / x t 4) * (x t 0 * u 2 - x t 1 * u 1)) t := by
  have h0 := comp_deriv hx 0
  have h1 := comp_deriv hx 1
  have h2 := comp_deriv hx 2
  have h3 := comp_deriv hx 3
  have hpos : 0 < x t 0 ^ 2 + x t 1 ^ 2 := by
    rcases hr with h | h
    · have := sq_pos_of_ne_zero h; positivity
    · have := sq_pos_of_ne_zero h; positivity
  have hs : 0 < √(x t 0 ^ 2 + x t 1 ^ 2) := Real.sqrt_pos.2 hpos
  have hsq : √(x t 0 ^ 2 + x t 1 ^ 2) ^ 2 = x t 0 ^ 2 + x t 1 ^ 2 := Real.sq_sqrt hpos.le
  simp only [orbitF, Matrix.cons_val, rpow_three_half hpos] at h0 h1 h2 h3
  constructor
  · have hq := ((h0.pow 2).add (h1.pow 2)).sqrt hpos.ne'
    have hE := (((h2.pow 2).add (h3.pow 2)).div_const 2).sub ((hasDerivAt_const t c.mu).div hq hs.ne')
    refine (hE.congr_deriv ?_)
    simp only [Pi.add_apply, Pi.pow_apply]
    generalize √(x t 0 ^ 2 + x t 1 ^ 2) = S at *
    rw [← hsq]
    field_simp
    ring
  · refine ((h0.mul h3).sub (h1.mul h2)).congr_deriv ?_
    generalize (x t 0 ^ 2 + x t 1 ^ 2) * √(x t 0 ^ 2 + x t 1 ^ 2) = S
    simp only [div_eq_mul_inv]
    ring

/-- C83: the thrust acts as a rocket's with the exhaust velocity `ve`: with a direction that meets the path constraint its acceleration is
`-ve m' / m`. -/
theorem C83_orbit_rocket (c : OrbitConsts) (x : Fin 5 → ℝ) (u : Fin 3 → ℝ) (tf : ℝ) (hg : orbitG u = 0) (hT : 0 ≤ u 0) (hTm : 0 ≤ c.Tmax)
    (hm : 0 < x 4) (hve : 0 < c.ve) (htf : 0 ≤ tf) :
    let a := orbitF c x u tf - orbitF c x ![0, u 1, u 2] tf
    √(a 2 ^ 2 + a 3 ^ 2) = c.ve * (-orbitF c x u tf 4) / x 4 ∧ a 0 = 0 ∧ a 1 = 0 := by
  have hu : u 1 ^ 2 + u 2 ^ 2 = 1 := by unfold orbitG at hg; linarith
  simp only [orbitF, Pi.sub_apply, Matrix.cons_val]
  refine ⟨?_, by ring, by ring⟩
  generalize (x 0 ^ 2 + x 1 ^ 2) ^ (1.5 : ℝ) = S
  rw [show ((-c.mu * x 0 / S + u 0 * u 1 * c.Tmax / x 4) * tf - (-c.mu * x 0 / S + 0 * u 1 * c.Tmax / x 4) * tf) ^ 2 +
    ((-c.mu * x 1 / S + u 0 * u 2 * c.Tmax / x 4) * tf - (-c.mu * x 1 / S + 0 * u 2 * c.Tmax / x 4) * tf) ^ 2 =
    (u 0 * c.Tmax / x 4 * tf) ^ 2 from ?_, Real.sqrt_sq (by positivity)]
  · field_simp
  · linear_combination (u 0 * c.Tmax / x 4 * tf) ^ 2 * hu

/-- C83: the cost of a transfer is half the propellant times the square of the exhaust velocity. -/
theorem C83_orbit_cost (c : OrbitConsts) (x : ℝ → Fin 5 → ℝ) (u : ℝ → Fin 3 → ℝ) (tf : ℝ) (hve : c.ve ≠ 0)
    (hx : ∀ t ∈ Set.uIcc (0 : ℝ) 1, HasDerivAt x (orbitF c (x t) (u t) tf) t)
    (hu : IntervalIntegrable (fun t => u t 0) MeasureTheory.volume 0 1) :
    ∫ t in (0 : ℝ)..1, orbitL c (u t) tf = c.ve ^ 2 / 2 * (x 0 4 - x 1 4) := by
  have h : ∀ t ∈ Set.uIcc (0 : ℝ) 1, HasDerivAt (fun s => -(c.ve ^ 2 / 2) * x s 4) (orbitL c (u t) tf) t := by
    intro t ht
    refine ((comp_deriv (hx t ht) 4).const_mul (-(c.ve ^ 2 / 2))).congr_deriv ?_
    simp only [orbitF, orbitL, Matrix.cons_val]
    field_simp
    ring
  rw [intervalIntegral.integral_eq_sub_of_hasDerivAt h]
  · ring
  · have e : (fun t => orbitL c (u t) tf) = fun t => 0.5 * c.ve * c.Tmax * tf * u t 0 := by
      funext t; unfold orbitL; ring
    rw [e]
    exact hu.const_mul _

/-- The state of a body on the circular orbit of radius `R` about a centre that attracts with `mu / r ^ 2`, counterclockwise. -/
def OnCircularOrbit (mu R : ℝ) (x : Fin 5 → ℝ) : Prop :=
  x 0 ^ 2 + x 1 ^ 2 = R ^ 2 ∧ x 2 = -√(mu / R) * (x 1 / R) ∧ x 3 = √(mu / R) * (x 0 / R)

theorem circular_iff {mu R X Y vx vy : ℝ} (hmu : 0 < mu) (hR : 0 < R) (hr : X ^ 2 + Y ^ 2 = R ^ 2) :
    (X * vx + Y * vy = 0 ∧ (X * vy - Y * vx) * √(vx ^ 2 + vy ^ 2) = mu) ↔
      (vx = -√(mu / R) * (Y / R) ∧ vy = √(mu / R) * (X / R)) := by
  have hq : 0 < mu / R := by positivity
  have hsq : √(mu / R) ^ 2 = mu / R := Real.sq_sqrt hq.le
  have hs : 0 < √(mu / R) := Real.sqrt_pos.2 hq
  constructor
  · rintro ⟨h1, h2⟩
    set H := X * vy - Y * vx with hH
    have e1 : H * X = R ^ 2 * vy := by linear_combination vy * hr - Y * h1
    have e2 : H * Y = -(R ^ 2 * vx) := by linear_combination -vx * hr + X * h1
    have e3 : H ^ 2 = R ^ 2 * (vx ^ 2 + vy ^ 2) := by
      have : R ^ 2 * H ^ 2 = R ^ 2 * (R ^ 2 * (vx ^ 2 + vy ^ 2)) := by
        rw [← hr]
        linear_combination (H * X + (X ^ 2 + Y ^ 2) * vy) * (e1 + vy * (hr.symm)) + (H * Y - (X ^ 2 + Y ^ 2) * vx) * (e2 - vx * hr.symm)
      exact mul_left_cancel₀ (by positivity) this
    have hV : 0 ≤ √(vx ^ 2 + vy ^ 2) := Real.sqrt_nonneg _
    have hHpos : 0 < H := by
      by_contra hcon
      have := mul_nonpos_of_nonpos_of_nonneg (not_lt.1 hcon) hV
      linarith
    have hHR : H = R * √(vx ^ 2 + vy ^ 2) := by
      have : √(H ^ 2) = √(R ^ 2 * (vx ^ 2 + vy ^ 2)) := by rw [e3]
      rwa [Real.sqrt_sq hHpos.le, Real.sqrt_mul (by positivity), Real.sqrt_sq hR.le] at this
    have hH2 : H ^ 2 = mu * R := by
      have : H * √(vx ^ 2 + vy ^ 2) * R = mu * R := by rw [h2]
      rw [← this, sq, mul_assoc H]
      congr 1
      rw [hHR]; ring
    have hHs : H = √(mu / R) * R := by
      have : √(H ^ 2) = √((√(mu / R) * R) ^ 2) := by
        rw [mul_pow, hsq, hH2]; congr 1; field_simp
      rwa [Real.sqrt_sq hHpos.le, Real.sqrt_sq (by positivity)] at this
    rw [hHs] at e1 e2
    constructor
    · field_simp
      have := mul_left_cancel₀ hR.ne' (show R * (√(mu / R) * Y) = R * (-(R * vx)) by linear_combination e2)
      linear_combination this
    · field_simp
      have := mul_left_cancel₀ hR.ne' (show R * (√(mu / R) * X) = R * (R * vy) by linear_combination e1)
      linear_combination -this
  · rintro ⟨rfl, rfl⟩
    refine ⟨by ring, ?_⟩
    have e : (-√(mu / R) * (Y / R)) ^ 2 + (√(mu / R) * (X / R)) ^ 2 = √(mu / R) ^ 2 := by
      field_simp
      linear_combination hr
    rw [e, Real.sqrt_sq hs.le]
    have : (X * (√(mu / R) * (X / R)) - Y * (-√(mu / R) * (Y / R))) * √(mu / R) = √(mu / R) ^ 2 * ((X ^ 2 + Y ^ 2) / R) := by
      ring
    rw [this, hsq, hr]
    field_simp

/-- C83: the endpoint constraints of both orbit transfers hold exactly on the circular orbit of the final radius, counterclockwise. -/
theorem C83_orbit_endpoint (c : OrbitConsts) (hmu : 0 < c.mu) (hR : 0 < c.Rfinal) (x : Fin 5 → ℝ) :
    (orbitH c x = 0 ↔ OnCircularOrbit c.mu c.Rfinal x) ∧ (orbitMinTimeH c x = 0 ↔ OnCircularOrbit c.mu c.Rfinal x) := by
  have key : ∀ a b d : ℝ, (![a, b, d] : Fin 3 → ℝ) = 0 ↔ a = 0 ∧ b = 0 ∧ d = 0 := by
    intro a b d
    constructor
    · intro h; exact ⟨congrFun h 0, congrFun h 1, congrFun h 2⟩
    · rintro ⟨rfl, rfl, rfl⟩; funext i; fin_cases i <;> rfl
  have r1 : (x 0 ^ 2 + x 1 ^ 2) / c.Rfinal ^ 2 - 1 = 0 ↔ x 0 ^ 2 + x 1 ^ 2 = c.Rfinal ^ 2 := by
    rw [sub_eq_zero, div_eq_one_iff_eq (by positivity)]
  have r2 : (x 0 ^ 2 + x 1 ^ 2) / c.Rfinal - c.Rfinal = 0 ↔ x 0 ^ 2 + x 1 ^ 2 = c.Rfinal ^ 2 := by
    rw [sub_eq_zero, div_eq_iff hR.ne', sq c.Rfinal]
  have r3 : (x 0 * x 2 + x 1 * x 3) / c.Rfinal = 0 ↔ x 0 * x 2 + x 1 * x 3 = 0 := by
    rw [div_eq_zero_iff]; simp [hR.ne']
  unfold orbitH orbitMinTimeH OnCircularOrbit
  dsimp only
  rw [key, key, r1, r2, r3]
  have : ∀ p : Prop, (x 0 ^ 2 + x 1 ^ 2 = c.Rfinal ^ 2 ∧ p ↔ x 0 ^ 2 + x 1 ^ 2 = c.Rfinal ^ 2 ∧
      x 2 = -√(c.mu / c.Rfinal) * (x 1 / c.Rfinal) ∧ x 3 = √(c.mu / c.Rfinal) * (x 0 / c.Rfinal)) ↔
      (x 0 ^ 2 + x 1 ^ 2 = c.Rfinal ^ 2 → (p ↔ x 2 = -√(c.mu / c.Rfinal) * (x 1 / c.Rfinal) ∧
        x 3 = √(c.mu / c.Rfinal) * (x 0 / c.Rfinal))) := fun p => by tauto
  rw [this]
  refine ⟨fun h => ?_, fun h => ?_⟩ <;>
  · rw [sub_eq_zero]
    exact circular_iff hmu hR h

/-- C83: without thrust the circular motion is a solution, and it stays on the circular orbit. -/
theorem C83_orbit_circular (c : OrbitConsts) (hmu : 0 < c.mu) (R : ℝ) (hR : 0 < R) (m tf : ℝ) (u : Fin 3 → ℝ) (hu : u 0 = 0) :
    let w := √(c.mu / R) / R * tf
    let x := fun t : ℝ => (![R * Real.cos (w * t), R * Real.sin (w * t), -√(c.mu / R) * Real.sin (w * t),
      √(c.mu / R) * Real.cos (w * t), m] : Fin 5 → ℝ)
    ∀ t, HasDerivAt x (orbitF c (x t) u tf) t ∧ OnCircularOrbit c.mu R (x t) := by
  intro w x t
  have hq : 0 < c.mu / R := by positivity
  have hsq : √(c.mu / R) ^ 2 = c.mu / R := Real.sq_sqrt hq.le
  have hcs := Real.sin_sq_add_cos_sq (w * t)
  have hcirc : (R * Real.cos (w * t)) ^ 2 + (R * Real.sin (w * t)) ^ 2 = R ^ 2 := by
    linear_combination R ^ 2 * hcs
  have hR3 : (R ^ 2 : ℝ) ^ (1.5 : ℝ) = R ^ 3 := by
    rw [rpow_three_half (by positivity), Real.sqrt_sq hR.le]; ring
  have hSw : √(c.mu / R) * w = c.mu / R ^ 2 * tf := by
    rw [show √(c.mu / R) * w = √(c.mu / R) ^ 2 * tf / R by simp only [w]; ring, hsq]
    field_simp
  have hw : HasDerivAt (fun t : ℝ => w * t) w t := by simpa using (hasDerivAt_id' t).const_mul w
  constructor
  · rw [hasDerivAt_pi]
    intro i
    have hc := hw.cos
    have hs := hw.sin
    fin_cases i
    · refine (hc.const_mul R).congr_deriv ?_
      simp only [orbitF, x, Matrix.cons_val, w]
      field_simp
      rfl
    · refine (hs.const_mul R).congr_deriv ?_
      simp only [orbitF, x, Matrix.cons_val, w]
      field_simp
      rfl
    · refine (hs.const_mul (-√(c.mu / R))).congr_deriv ?_
      change _ = orbitF c (x t) u tf 2
      simp only [orbitF, x, Matrix.cons_val, hcirc, hR3, hu]
      rw [zero_mul, zero_mul, zero_div, add_zero]
      have e : ∀ C : ℝ, -c.mu * (R * C) / R ^ 3 * tf = -(c.mu / R ^ 2 * tf) * C := fun C => by field_simp
      rw [e, ← hSw]
      ring
    · refine (hc.const_mul (√(c.mu / R))).congr_deriv ?_
      change _ = orbitF c (x t) u tf 3
      simp only [orbitF, x, Matrix.cons_val, hcirc, hR3, hu]
      rw [zero_mul, zero_mul, zero_div, add_zero]
      have e : ∀ C : ℝ, -c.mu * (R * C) / R ^ 3 * tf = -(c.mu / R ^ 2 * tf) * C := fun C => by field_simp
      rw [e, ← hSw]
      ring
    · refine (hasDerivAt_const t m).congr_deriv ?_
      simp [orbitF, hu]
  · refine ⟨hcirc, ?_, ?_⟩ <;> simp only [x, Matrix.cons_val] <;> field_simp

/-- Any derivative is that of a straight line, so that trajectories with given values exist at a single time. -/
theorem exists_curve {n : ℕ} (a v : Fin n → ℝ) (t : ℝ) : ∃ x : ℝ → Fin n → ℝ, x t = a ∧ HasDerivAt x v t := by
  refine ⟨fun s => a + (s - t) • v, by simp, ?_⟩
  have h := (((hasDerivAt_id t).sub_const t).smul_const v).const_add a
  simpa using h

/-- The constants of the example: the orbit of radius 2 is reached with the speed `sqrt (1 / 2)`, and on it energy and momentum stay. -/
example : OnCircularOrbit 1 2 ![2, 0, 0, √(1 / 2), 1] ∧ orbitH ⟨1, 50, 0.05, 2⟩ ![2, 0, 0, √(1 / 2), 1] = 0 ∧
    orbitH ⟨1, 50, 0.05, 2⟩ ![2, 0, 0, -√(1 / 2), 1] ≠ 0 := by
  have h : OnCircularOrbit 1 2 ![2, 0, 0, √(1 / 2), 1] := by
    refine ⟨?_, ?_, ?_⟩ <;> simp only [Matrix.cons_val] <;> norm_num
  refine ⟨h, (C83_orbit_endpoint ⟨1, 50, 0.05, 2⟩ one_pos two_pos _).1.2 h, fun h' => ?_⟩
  have h2 := ((C83_orbit_endpoint ⟨1, 50, 0.05, 2⟩ one_pos two_pos _).1.1 h').2.2
  simp only [Matrix.cons_val] at h2
  have hs : 0 < √(1 / 2 : ℝ) := Real.sqrt_pos.2 (by norm_num)
  linarith

/-- A thrust along the velocity adds energy. -/
example : ∃ x : ℝ → Fin 5 → ℝ, HasDerivAt x (orbitF ⟨1, 50, 0.05, 2⟩ (x 0) ![1, 0, 1] 13) 0 ∧
    HasDerivAt (fun s => orbitEnergy 1 (x s)) (13 * 0.05) 0 := by
  obtain ⟨x, hx, hd⟩ := exists_curve ![1, 0, 0, 1, 1] (orbitF ⟨1, 50, 0.05, 2⟩ ![1, 0, 0, 1, 1] ![1, 0, 1] 13) 0
  rw [← hx] at hd
  refine ⟨x, hd, ?_⟩
  have := (C83_orbit_work ⟨1, 50, 0.05, 2⟩ x ![1, 0, 1] 13 0 hd (by rw [hx]; simp) (by rw [hx]; simp)).1
  rw [hx] at this
  simpa using this

/-- The cost of thrusting fully in the example, per unit of propellant. -/
example : orbitG ![1, 0, 1] = 0 ∧ orbitL ⟨1, 50, 0.05, 2⟩ ![1, 0, 1] 13 = 16.25 := by
  constructor
  · simp [orbitG]
  · simp only [orbitL, Matrix.cons_val]; norm_num

end Ceacoest.Ex
