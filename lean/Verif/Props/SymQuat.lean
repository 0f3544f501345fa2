import Verif.Model.SymQuat
import Verif.Spec.Rotations
import Mathlib.Analysis.Calculus.Deriv.Pow
import Mathlib.Analysis.Calculus.Deriv.Prod
import Mathlib.Analysis.Calculus.MeanValue
import Mathlib.Analysis.SpecialFunctions.ExpDeriv
import Mathlib.Analysis.SpecialFunctions.Trigonometric.Deriv
import Mathlib.MeasureTheory.Integral.IntervalIntegral.FundThmCalculus
import Mathlib.LinearAlgebra.Matrix.Determinant.Basic
import Mathlib.Tactic.FieldSimp
import Mathlib.Tactic.Linarith
import Mathlib.Tactic.LinearCombination

/-! # C50 – C52: quaternion kinematics and rotations -/

namespace Ceacoest.SymQuat
open Spec Matrix

/-- A differentiable quaternion trajectory that follows the kinematics for some (time-varying) rate. -/
def Follows (q : ℝ → Fin 4 → ℝ) (omega : ℝ → Fin 3 → ℝ) (gain : ℝ) : Prop :=
  ∀ t, HasDerivAt q (derivative (q t) (omega t) gain) t

/-- `d|q|²/dt = 2 gain (1 - |q|²) |q|²`, for every trajectory, rate and gain. -/
theorem C50_norm_deriv (q : ℝ → Fin 4 → ℝ) (omega : Fin 3 → ℝ) (gain t : ℝ)
    (h : HasDerivAt q (derivative (q t) omega gain) t) :
    HasDerivAt (fun s => normSq (q s)) (2 * gain * (1 - normSq (q t)) * normSq (q t)) t := by
  have hi := hasDerivAt_pi.1 h
  have hs := HasDerivAt.fun_sum (u := Finset.univ) fun i _ => (hi i).pow 2
  refine hs.congr_deriv ?_
  simp only [normSq, Fin.sum_univ_four, derivative]
  simp
  ring

/-- With zero gain the norm is conserved. -/
theorem C50_conserved (q : ℝ → Fin 4 → ℝ) (omega : ℝ → Fin 3 → ℝ) (h : Follows q omega 0) (s t : ℝ) :
    normSq (q s) = normSq (q t) := by
  have hd : ∀ t, HasDerivAt (fun s => normSq (q s)) 0 t := fun t => (C50_norm_deriv q (omega t) 0 t (h t)).congr_deriv (by ring)
  exact is_const_of_deriv_eq_zero (fun t => (hd t).differentiableAt) (fun t => (hd t).deriv) s t

/-- A solution of a homogeneous linear equation with continuous coefficient that is zero once is zero. -/
theorem linear_zero (w a : ℝ → ℝ) (ha : Continuous a) (hw : ∀ t, HasDerivAt w (a t * w t) t) (h0 : w 0 = 0) (t : ℝ) :
    w t = 0 := by
  have hA : ∀ t, HasDerivAt (fun t => ∫ s in (0 : ℝ)..t, a s) (a t) t := fun t =>
    intervalIntegral.integral_hasDerivAt_right (ha.intervalIntegrable _ _) (ha.stronglyMeasurableAtFilter _ _) ha.continuousAt
  have hz : ∀ t, HasDerivAt (fun t => w t * Real.exp (-∫ s in (0 : ℝ)..t, a s)) 0 t := fun t =>
    ((hw t).mul ((hA t).neg.exp)).congr_deriv (by ring)
  have := is_const_of_deriv_eq_zero (fun t => (hz t).differentiableAt) (fun t => (hz t).deriv) t 0
  simp only [h0, zero_mul] at this
  rcases mul_eq_zero.1 this with h | h
  · exact h
  · exact absurd h (Real.exp_pos _).ne'

/-- With any gain the squared norm follows the logistic curve. -/
theorem C50_logistic (q : ℝ → Fin 4 → ℝ) (omega : ℝ → Fin 3 → ℝ) (gain : ℝ) (h : Follows q omega gain) (t : ℝ) :
    normSq (q t) * (normSq (q 0) + (1 - normSq (q 0)) * Real.exp (-(2 * gain * t))) = normSq (q 0) := by
  have hN : ∀ t, HasDerivAt (fun s => normSq (q s)) (2 * gain * (1 - normSq (q t)) * normSq (q t)) t := fun t =>
    C50_norm_deriv q (omega t) gain t (h t)
  have hNc : Continuous fun s => normSq (q s) := continuous_iff_continuousAt.2 fun t => (hN t).continuousAt
  have hE : ∀ t, HasDerivAt (fun t => Real.exp (-(2 * gain * t))) (-(2 * gain) * Real.exp (-(2 * gain * t))) t := fun t =>
    (((hasDerivAt_id' t).const_mul (2 * gain)).fun_neg.exp).congr_deriv (by ring)
  have := linear_zero
    (fun t => normSq (q t) * (normSq (q 0) + (1 - normSq (q 0)) * Real.exp (-(2 * gain * t))) - normSq (q 0))
    (fun t => -(2 * gain * normSq (q t))) (by fun_prop)
    (fun t => (((hN t).mul (((hE t).const_mul (1 - normSq (q 0))).const_add (normSq (q 0)))).sub_const _).congr_deriv
      (by ring)) (by simp) t
  linarith

/-- With positive gain every nonzero quaternion is driven to unit norm. -/
theorem C50_driven_to_one (q : ℝ → Fin 4 → ℝ) (omega : ℝ → Fin 3 → ℝ) (gain : ℝ) (hg : 0 < gain)
    (h : Follows q omega gain) (h0 : q 0 ≠ 0) :
    Filter.Tendsto (fun t => normSq (q t)) Filter.atTop (nhds 1) := by
  have hN0 : 0 < normSq (q 0) := by
    obtain ⟨i, hi⟩ := Function.ne_iff.1 h0
    refine lt_of_lt_of_le (pow_pos (abs_pos.2 hi) 2) ?_
    rw [sq_abs]
    exact Finset.single_le_sum (f := fun i => q 0 i ^ 2) (fun i _ => sq_nonneg _) (Finset.mem_univ i)
  set N0 := normSq (q 0)
  have hE : Filter.Tendsto (fun t : ℝ => Real.exp (-(2 * gain * t))) Filter.atTop (nhds 0) :=
    Real.tendsto_exp_neg_atTop_nhds_zero.comp (Filter.tendsto_id.const_mul_atTop (by positivity))
  have hD : Filter.Tendsto (fun t : ℝ => N0 + (1 - N0) * Real.exp (-(2 * gain * t))) Filter.atTop (nhds N0) := by
    simpa using (hE.const_mul (1 - N0)).const_add N0
  have hq : Filter.Tendsto (fun t : ℝ => N0 / (N0 + (1 - N0) * Real.exp (-(2 * gain * t)))) Filter.atTop (nhds 1) := by
    have := (tendsto_const_nhds (x := N0)).div hD hN0.ne'
    rw [div_self hN0.ne'] at this
    exact this
  refine hq.congr' ?_
  filter_upwards [hD.eventually (lt_mem_nhds hN0)] with t ht
  rw [div_eq_iff ht.ne']
  exact (C50_logistic q omega gain h t).symm

/-- A trajectory for the constant rate `2` about the first axis. -/
example : Follows (fun t => ![Real.cos t, Real.sin t, 0, 0]) (fun _ => ![2, 0, 0]) 0 := by
  intro t
  rw [hasDerivAt_pi]
  intro i
  fin_cases i
  · simpa [derivative] using Real.hasDerivAt_cos t
  · simpa [derivative] using Real.hasDerivAt_sin t
  · simpa [derivative] using hasDerivAt_const t (0 : ℝ)
  · simpa [derivative] using hasDerivAt_const t (0 : ℝ)

/-! ## C51 -/

/-- `R Rᵀ = Rᵀ R = |q|⁴ I` and `det R = |q|⁶`, for every quaternion. -/
theorem C51_rotation (q : Fin 4 → ℝ) :
    rotmat q * (rotmat q)ᵀ = normSq q ^ 2 • (1 : Matrix (Fin 3) (Fin 3) ℝ) ∧
    (rotmat q)ᵀ * rotmat q = normSq q ^ 2 • (1 : Matrix (Fin 3) (Fin 3) ℝ) ∧
    (rotmat q).det = normSq q ^ 3 := by
  refine ⟨?_, ?_, ?_⟩
  · ext i j
    fin_cases i <;> fin_cases j <;> simp [rotmat, normSq, Fin.sum_univ_four, Matrix.mul_apply, Fin.sum_univ_three] <;> ring
  · ext i j
    fin_cases i <;> fin_cases j <;> simp [rotmat, normSq, Fin.sum_univ_four, Matrix.mul_apply, Fin.sum_univ_three] <;> ring
  · simp [rotmat, normSq, Fin.sum_univ_four, Matrix.det_fin_three]
    ring

/-- Unit quaternions give proper rotations. -/
theorem C51_unit (q : Fin 4 → ℝ) (h : normSq q = 1) :
    rotmat q * (rotmat q)ᵀ = 1 ∧ (rotmat q)ᵀ * rotmat q = 1 ∧ (rotmat q).det = 1 := by
  obtain ⟨h1, h2, h3⟩ := C51_rotation q
  rw [h] at h1 h2 h3
  exact ⟨by simpa using h1, by simpa using h2, by simpa using h3⟩

/-- A quaternion and its negative give the same rotation. -/
theorem C51_neg (q : Fin 4 → ℝ) : rotmat (-q) = rotmat q := by
  ext i j
  fin_cases i <;> fin_cases j <;> simp [rotmat]

/-- Along the kinematics, `dR/dt = -[ω]× R + 2 gain (1 - |q|²) R`. -/
theorem C51_kinematics (q : ℝ → Fin 4 → ℝ) (omega : Fin 3 → ℝ) (gain t : ℝ)
    (h : HasDerivAt q (derivative (q t) omega gain) t) (i j : Fin 3) :
    HasDerivAt (fun s => rotmat (q s) i j)
      ((-(crossMat omega * rotmat (q t)) + (2 * gain * (1 - normSq (q t))) • rotmat (q t)) i j) t := by
  have hi := hasDerivAt_pi.1 h
  have d0 := hi 0
  have d1 := hi 1
  have d2 := hi 2
  have d3 := hi 3
  simp only [derivative] at d0 d1 d2 d3
  fin_cases i <;> fin_cases j <;> simp only [rotmat]
  · refine (((d0.pow 2).add (d1.pow 2)).sub (d2.pow 2)).sub (d3.pow 2) |>.congr_deriv ?_
    simp [crossMat, normSq, Fin.sum_univ_four]; ring
  · refine ((d1.mul d2).add (d0.mul d3)).const_mul 2 |>.congr_deriv ?_
    simp [crossMat, normSq, Fin.sum_univ_four]; ring
  · refine ((d1.mul d3).sub (d0.mul d2)).const_mul 2 |>.congr_deriv ?_
    simp [crossMat, normSq, Fin.sum_univ_four]; ring
  · refine ((d1.mul d2).sub (d0.mul d3)).const_mul 2 |>.congr_deriv ?_
    simp [crossMat, normSq, Fin.sum_univ_four]; ring
  · refine (((d0.pow 2).sub (d1.pow 2)).add (d2.pow 2)).sub (d3.pow 2) |>.congr_deriv ?_
    simp [crossMat, normSq, Fin.sum_univ_four]; ring
  · refine ((d2.mul d3).add (d0.mul d1)).const_mul 2 |>.congr_deriv ?_
    simp [crossMat, normSq, Fin.sum_univ_four]; ring
  · refine ((d1.mul d3).add (d0.mul d2)).const_mul 2 |>.congr_deriv ?_
    simp [crossMat, normSq, Fin.sum_univ_four]; ring
  · refine ((d2.mul d3).sub (d0.mul d1)).const_mul 2 |>.congr_deriv ?_
    simp [crossMat, normSq, Fin.sum_univ_four]; ring
  · refine (((d0.pow 2).sub (d1.pow 2)).sub (d2.pow 2)).add (d3.pow 2) |>.congr_deriv ?_
    simp [crossMat, normSq, Fin.sum_univ_four]; ring

/-- For a unit quaternion (any gain) or zero gain (any norm), `dR/dt = -[ω]× R`. -/
theorem C51_kinematics_unit (q : ℝ → Fin 4 → ℝ) (omega : Fin 3 → ℝ) (gain t : ℝ)
    (h : HasDerivAt q (derivative (q t) omega gain) t) (hu : gain = 0 ∨ normSq (q t) = 1) (i j : Fin 3) :
    HasDerivAt (fun s => rotmat (q s) i j) ((-(crossMat omega * rotmat (q t))) i j) t := by
  refine (C51_kinematics q omega gain t h i j).congr_deriv ?_
  rcases hu with hu | hu <;> simp [hu]

/-- A unit quaternion with no zero entry. -/
example : normSq ![1 / 2, 1 / 2, 1 / 2, 1 / 2] = 1 ∧ rotmat ![1 / 2, 1 / 2, 1 / 2, 1 / 2] = !![0, 1, 0; 0, 0, 1; 1, 0, 0] := by
  constructor
  · simp [normSq, Fin.sum_univ_four]; norm_num
  · ext i j
    fin_cases i <;> fin_cases j <;> simp [rotmat] <;> norm_num

/-! ## C52 -/

theorem atan2_spec (y x c : ℝ) (hc : 0 < c) (h : x ^ 2 + y ^ 2 = c ^ 2) :
    c * Real.cos (atan2 y x) = x ∧ c * Real.sin (atan2 y x) = y := by
  have hn : ‖(⟨x, y⟩ : ℂ)‖ = c := by
    rw [Complex.norm_def, Complex.normSq_mk, ← sq, ← sq, h, Real.sqrt_sq hc.le]
  have hz : (⟨x, y⟩ : ℂ) ≠ 0 := by
    intro h0
    rw [h0] at hn
    simp at hn
    exact hc.ne hn
  unfold atan2
  rw [Complex.cos_arg hz, Complex.sin_arg, hn]
  constructor <;> field_simp

/-- For a unit quaternion away from gimbal lock, the roll-pitch-yaw rotation built from `toeuler(q)` is `rotmat(q)`. -/
theorem C52_toeuler (q : Fin 4 → ℝ) (h : normSq q = 1) (hg : |rotmat q 0 2| < 1) :
    rotX (toeuler q 0) * rotY (toeuler q 1) * rotZ (toeuler q 2) = rotmat q := by
  obtain ⟨a, b, c, d, rfl⟩ : ∃ a b c d, q = ![a, b, c, d] :=
    ⟨q 0, q 1, q 2, q 3, by funext i; fin_cases i <;> rfl⟩
  have hq : a ^ 2 + b ^ 2 + c ^ 2 + d ^ 2 = 1 := by simpa [normSq, Fin.sum_univ_four] using h
  have hg' : |2 * (b * d - a * c)| < 1 := by simpa [rotmat] using hg
  rw [abs_lt] at hg'
  set s := 2 * (b * d - a * c) with hs
  have hc0 : 0 < 1 - s ^ 2 := by nlinarith
  set k := Real.sqrt (1 - s ^ 2) with hk
  have hkp : 0 < k := Real.sqrt_pos.2 hc0
  have hk2 : k ^ 2 = 1 - s ^ 2 := Real.sq_sqrt hc0.le
  obtain ⟨r1, r2⟩ := atan2_spec (2 * (c * d + a * b)) (a ^ 2 - b ^ 2 - c ^ 2 + d ^ 2) k hkp (by
    rw [hk2, hs]
    linear_combination (a ^ 2 + b ^ 2 + c ^ 2 + d ^ 2 + 1) * hq)
  obtain ⟨y1, y2⟩ := atan2_spec (2 * (b * c + a * d)) (a ^ 2 + b ^ 2 - c ^ 2 - d ^ 2) k hkp (by
    rw [hk2, hs]
    linear_combination (a ^ 2 + b ^ 2 + c ^ 2 + d ^ 2 + 1) * hq)
  have hcos : Real.cos (-Real.arcsin s) = k := by rw [Real.cos_neg, Real.cos_arcsin]
  have hsin : Real.sin (-Real.arcsin s) = -s := by rw [Real.sin_neg, Real.sin_arcsin hg'.1.le hg'.2.le]
  have e0 : toeuler ![a, b, c, d] 0 = atan2 (2 * (c * d + a * b)) (a ^ 2 - b ^ 2 - c ^ 2 + d ^ 2) := by simp [toeuler]
  have e1 : toeuler ![a, b, c, d] 1 = -Real.arcsin s := by simp [toeuler, hs]
  have e2 : toeuler ![a, b, c, d] 2 = atan2 (2 * (b * c + a * d)) (a ^ 2 + b ^ 2 - c ^ 2 - d ^ 2) := by simp [toeuler]
  rw [e0, e1, e2]
  generalize atan2 (2 * (c * d + a * b)) (a ^ 2 - b ^ 2 - c ^ 2 + d ^ 2) = φ at r1 r2
  generalize atan2 (2 * (b * c + a * d)) (a ^ 2 + b ^ 2 - c ^ 2 - d ^ 2) = ψ at y1 y2
  have hk2' : k ^ 2 ≠ 0 := by positivity
  ext i j
  fin_cases i <;> fin_cases j <;>
    simp [rotX, rotY, rotZ, rotmat, Matrix.mul_apply, Fin.sum_univ_three, hcos, hsin]
  · exact y1
  · exact y2
  · exact hs
  · refine mul_left_cancel₀ hk2' ?_
    rw [show k ^ 2 * (-(Real.sin φ * s * Real.cos ψ) + -(Real.cos φ * Real.sin ψ)) = -((k * Real.sin φ) * s * (k * Real.cos ψ)) - (k * Real.cos φ) * (k * Real.sin ψ) by ring, r1, r2, y1, y2, hk2, hs]
    linear_combination ( ((a ^ 2 - b ^ 2 - c ^ 2 + d ^ 2) * (2 * (b * c + a * d))) + (a ^ 2 + b ^ 2 + c ^ 2 + d ^ 2 + 1) * (2 * (b * c - a * d))) * hq
  · refine mul_left_cancel₀ hk2' ?_
    rw [show k ^ 2 * (-(Real.sin φ * s * Real.sin ψ) + Real.cos φ * Real.cos ψ) = -((k * Real.sin φ) * s * (k * Real.sin ψ)) + (k * Real.cos φ) * (k * Real.cos ψ) by ring, r1, r2, y1, y2, hk2, hs]
    linear_combination (- ((a ^ 2 - b ^ 2 - c ^ 2 + d ^ 2) * (a ^ 2 + b ^ 2 - c ^ 2 - d ^ 2)) + (a ^ 2 + b ^ 2 + c ^ 2 + d ^ 2 + 1) * (a ^ 2 - b ^ 2 + c ^ 2 - d ^ 2)) * hq
  · rw [mul_comm]; exact r2
  · refine mul_left_cancel₀ hk2' ?_
    rw [show k ^ 2 * (-(Real.cos φ * s * Real.cos ψ) + Real.sin φ * Real.sin ψ) = -((k * Real.cos φ) * s * (k * Real.cos ψ)) + (k * Real.sin φ) * (k * Real.sin ψ) by ring, r1, r2, y1, y2, hk2, hs]
    linear_combination (- ((2 * (c * d + a * b)) * (2 * (b * c + a * d))) + (a ^ 2 + b ^ 2 + c ^ 2 + d ^ 2 + 1) * (2 * (b * d + a * c))) * hq
  · refine mul_left_cancel₀ hk2' ?_
    rw [show k ^ 2 * (-(Real.cos φ * s * Real.sin ψ) + -(Real.sin φ * Real.cos ψ)) = -((k * Real.cos φ) * s * (k * Real.sin ψ)) - (k * Real.sin φ) * (k * Real.cos ψ) by ring, r1, r2, y1, y2, hk2, hs]
    linear_combination ( ((2 * (c * d + a * b)) * (a ^ 2 + b ^ 2 - c ^ 2 - d ^ 2)) + (a ^ 2 + b ^ 2 + c ^ 2 + d ^ 2 + 1) * (2 * (c * d - a * b))) * hq
  · rw [mul_comm]; exact r1

/-- The recovered pitch is strictly between -90 and 90 degrees. -/
theorem C52_pitch_range (q : Fin 4 → ℝ) (hg : |rotmat q 0 2| < 1) :
    -(Real.pi / 2) < toeuler q 1 ∧ toeuler q 1 < Real.pi / 2 := by
  have hg' : |2 * (q 1 * q 3 - q 0 * q 2)| < 1 := by simpa [rotmat] using hg
  rw [abs_lt] at hg'
  have e1 : toeuler q 1 = -Real.arcsin (2 * (q 1 * q 3 - q 0 * q 2)) := by simp [toeuler]
  rw [e1]
  constructor
  · rw [neg_lt_neg_iff]; exact Real.arcsin_lt_pi_div_two.2 hg'.2
  · rw [neg_lt]; exact Real.neg_pi_div_two_lt_arcsin.2 hg'.1

/-- The converse composition: a quaternion whose rotation matrix is that of an Euler sequence gives the angles back. -/
theorem C52_angles (q : Fin 4 → ℝ) (φ θ ψ : ℝ) (hφ : φ ∈ Set.Ioc (-Real.pi) Real.pi) (hψ : ψ ∈ Set.Ioc (-Real.pi) Real.pi)
    (hθ : θ ∈ Set.Ioo (-(Real.pi / 2)) (Real.pi / 2)) (h : rotmat q = rotX φ * rotY θ * rotZ ψ) :
    toeuler q = ![φ, θ, ψ] := by
  have e : ∀ i j, rotmat q i j = (rotX φ * rotY θ * rotZ ψ) i j := fun i j => by rw [h]
  have hc : 0 < Real.cos θ := Real.cos_pos_of_mem_Ioo hθ
  have h00 := e 0 0
  have h01 := e 0 1
  have h02 := e 0 2
  have h12 := e 1 2
  have h22 := e 2 2
  simp [rotX, rotY, rotZ, rotmat, Matrix.mul_apply, Fin.sum_univ_three] at h00 h01 h02 h12 h22
  have arg : ∀ a, a ∈ Set.Ioc (-Real.pi) Real.pi → atan2 (Real.cos θ * Real.sin a) (Real.cos θ * Real.cos a) = a := by
    intro a ha
    unfold atan2
    have : (⟨Real.cos θ * Real.cos a, Real.cos θ * Real.sin a⟩ : ℂ) = (Real.cos θ : ℂ) * (Complex.cos a + Complex.sin a * Complex.I) := by
      rw [← Complex.ofReal_cos a, ← Complex.ofReal_sin a]
      apply Complex.ext <;> simp [-Complex.ofReal_cos, -Complex.ofReal_sin]
    rw [this, Complex.arg_mul_cos_add_sin_mul_I hc ha]
  simp only [toeuler]
  rw [h00, h01, h02, h12, h22, Real.arcsin_neg, neg_neg, Real.arcsin_sin hθ.1.le hθ.2.le, mul_comm (Real.sin φ), mul_comm (Real.cos φ),
    arg φ hφ, arg ψ hψ]

/-- The hypotheses hold for a tilted attitude. -/
example : normSq ![1 / 2, 1 / 2, 1 / 2, 1 / 2] = 1 ∧ |rotmat ![1 / 2, 1 / 2, 1 / 2, 1 / 2] 0 2| < 1 := by
  constructor
  · simp [normSq, Fin.sum_univ_four]; norm_num
  · simp [rotmat]

end Ceacoest.SymQuat
