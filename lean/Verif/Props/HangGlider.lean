import Verif.Model.ExamplePhysics
import Mathlib.Analysis.SpecialFunctions.Exp
import Mathlib.Tactic.LinearCombination
import Mathlib.Tactic.FieldSimp

/-! # C84: the equations of motion of the hang glider -/

namespace Ceacoest.Ex
open Real

/-- Newton's law for a glider of mass `m` with the velocity `(vx, vy)` in air that rises with `ua`: drag against the velocity relative to the
air, lift normal to it, each half the density times the area times the square of the airspeed times its coefficient, and weight. -/
noncomputable def gliderNewton (c : GliderConsts) (x : Fin 4 → ℝ) (CL CD tf : ℝ) : Fin 4 → ℝ :=
  let V : Fin 2 → ℝ := ![x 2, x 3 - gliderUa c (x 0)]
  let airspeed := √(V 0 ^ 2 + V 1 ^ 2)
  let along : Fin 2 → ℝ := fun i => V i / airspeed
  let normal : Fin 2 → ℝ := ![-along 1, along 0]
  let q := c.rho * airspeed ^ 2 / 2
  let force : Fin 2 → ℝ := fun i => q * c.S * CL * normal i - q * c.S * CD * along i
  ![tf * x 2, tf * x 3, tf * (force 0 / c.m), tf * (force 1 / c.m - c.g)]

/-- The vertical speed relative to the air. -/
noncomputable def gliderVy (c : GliderConsts) (x : Fin 4 → ℝ) : ℝ := x 3 - gliderUa c (x 0)

/-- The full claim: wherever the glider moves relative to the air, `f` is Newton's law. It is false, see `C84_iff` and `C84_nan`. -/
def GliderCorrect (c : GliderConsts) (x : Fin 4 → ℝ) (CL tf : ℝ) : Prop :=
  gliderF c x CL tf = some (gliderNewton c x CL (c.CD0 + c.k * CL ^ 2) tf)

theorem newton_eq (c : GliderConsts) (x : Fin 4 → ℝ) (CL CD tf : ℝ) (hV : 0 < x 2 ^ 2 + gliderVy c x ^ 2) :
    gliderNewton c x CL CD tf = ![x 2 * tf, x 3 * tf,
      (√(x 2 ^ 2 + gliderVy c x ^ 2) * (c.rho * c.S / 2 * (-CL * gliderVy c x - CD * x 2)) / c.m) * tf,
      (√(x 2 ^ 2 + gliderVy c x ^ 2) * (c.rho * c.S / 2 * (CL * x 2 - CD * gliderVy c x)) / c.m - c.g) * tf] := by
  have hs := (sqrt_pos.2 hV).ne'
  simp only [gliderNewton, Matrix.cons_val]
  change ![_, _, _, _] = _
  rw [show x 3 - gliderUa c (x 0) = gliderVy c x from rfl]
  generalize √(x 2 ^ 2 + gliderVy c x ^ 2) = V at *
  congr 1
  · ring
  congr 1
  · ring
  congr 1
  · field_simp
  congr 1
  · field_simp

theorem gliderF_eq (c : GliderConsts) (x : Fin 4 → ℝ) (CL tf : ℝ) (hm : c.m ≠ 0) (h : 0 ≤ x 2 ^ 2 + gliderVy c x) :
    gliderF c x CL tf = some ![x 2 * tf, x 3 * tf,
      (√(x 2 ^ 2 + gliderVy c x) * (c.rho * c.S / 2 * (-CL * gliderVy c x - (c.CD0 + c.k * CL ^ 2) * x 2)) / c.m) * tf,
      (√(x 2 ^ 2 + gliderVy c x) * (c.rho * c.S / 2 * (CL * x 2 - (c.CD0 + c.k * CL ^ 2) * gliderVy c x)) / c.m - c.g) * tf] := by
  unfold gliderF
  dsimp only
  rw [show x 3 - gliderUa c (x 0) = gliderVy c x from rfl, if_neg (not_lt.2 h)]
  have e : ∀ a : ℝ, √(x 2 ^ 2 + gliderVy c x) ^ 2 * (a / √(x 2 ^ 2 + gliderVy c x)) = √(x 2 ^ 2 + gliderVy c x) * a := by
    intro a
    rcases eq_or_ne (√(x 2 ^ 2 + gliderVy c x)) 0 with h0 | h0
    · rw [h0]; simp
    · field_simp
  congr 1
  congr 1
  congr 1
  congr 1
  · congr 2
    linear_combination -(0.5 * CL * c.rho * c.S) * e (gliderVy c x) - (0.5 * (c.CD0 + c.k * CL ^ 2) * c.rho * c.S) * e (x 2)
  congr 1
  · congr 1
    rw [sub_div, mul_div_cancel_left₀ _ hm]
    congr 2
    linear_combination (0.5 * CL * c.rho * c.S) * e (x 2) - (0.5 * (c.CD0 + c.k * CL ^ 2) * c.rho * c.S) * e (gliderVy c x)

/-- C84, restricted: where its square root exists, `f` is Newton's law with both coefficients multiplied by the same factor, the root of
`(vx ^ 2 + Vy) / (vx ^ 2 + Vy ^ 2)`. Missing from the full claim: that the factor is one. -/
theorem C84_scaled_partial (c : GliderConsts) (x : Fin 4 → ℝ) (CL tf : ℝ) (hm : c.m ≠ 0) (h : 0 ≤ x 2 ^ 2 + gliderVy c x)
    (hV : x 2 ≠ 0 ∨ gliderVy c x ≠ 0) :
    let k := √((x 2 ^ 2 + gliderVy c x) / (x 2 ^ 2 + gliderVy c x ^ 2))
    gliderF c x CL tf = some (gliderNewton c x (k * CL) (k * (c.CD0 + c.k * CL ^ 2)) tf) := by
  intro k
  have hp : 0 < x 2 ^ 2 + gliderVy c x ^ 2 := by
    rcases hV with h | h
    · have := sq_pos_of_ne_zero h; positivity
    · have := sq_pos_of_ne_zero h; positivity
  have hk : √(x 2 ^ 2 + gliderVy c x ^ 2) * k = √(x 2 ^ 2 + gliderVy c x) := by
    simp only [k]
    rw [← sqrt_mul hp.le]
    congr 1
    field_simp
  rw [gliderF_eq c x CL tf hm h, newton_eq c x _ _ tf hp, ← hk]
  congr 1
  congr 1
  congr 1
  congr 1
  · ring
  congr 1
  · ring

/-- C84, negation: for a glider in moving air with any lift or drag, `f` is Newton's law exactly when the vertical speed relative to the air is
zero or one. -/
theorem C84_iff (c : GliderConsts) (x : Fin 4 → ℝ) (CL tf : ℝ) (hm : c.m ≠ 0) (hrho : c.rho ≠ 0) (hS : c.S ≠ 0) (htf : tf ≠ 0)
    (hV : x 2 ≠ 0 ∨ gliderVy c x ≠ 0) (hC : CL ≠ 0 ∨ c.CD0 + c.k * CL ^ 2 ≠ 0) :
    GliderCorrect c x CL tf ↔ gliderVy c x = 0 ∨ gliderVy c x = 1 := by
  have hp : 0 < x 2 ^ 2 + gliderVy c x ^ 2 := by
    rcases hV with h | h
    · have := sq_pos_of_ne_zero h; positivity
    · have := sq_pos_of_ne_zero h; positivity
  have hq : 0 < CL ^ 2 + (c.CD0 + c.k * CL ^ 2) ^ 2 := by
    rcases hC with h | h
    · have := sq_pos_of_ne_zero h; positivity
    · have := sq_pos_of_ne_zero h; positivity
  unfold GliderCorrect
  rcases lt_or_ge (x 2 ^ 2 + gliderVy c x) 0 with hneg | hnn
  · have hnone : gliderF c x CL tf = none := by
      unfold gliderF
      dsimp only
      rw [show x 3 - gliderUa c (x 0) = gliderVy c x from rfl, if_pos hneg]
    rw [hnone]
    constructor
    · intro h; cases h
    · rintro (h | h) <;> · rw [h] at hneg; nlinarith [sq_nonneg (x 2)]
  · rw [gliderF_eq c x CL tf hm hnn, newton_eq c x _ _ tf hp]
    constructor
    · intro h
      have h' := Option.some.inj h
      have e2 := congrFun h' 2
      have e3 := congrFun h' 3
      simp only [Matrix.cons_val] at e2 e3
      generalize c.CD0 + c.k * CL ^ 2 = CD at *
      have a2 : (√(x 2 ^ 2 + gliderVy c x) - √(x 2 ^ 2 + gliderVy c x ^ 2)) * (-CL * gliderVy c x - CD * x 2) = 0 := by
        have := mul_right_cancel₀ htf e2
        field_simp at this
        linear_combination this
      have a3 : (√(x 2 ^ 2 + gliderVy c x) - √(x 2 ^ 2 + gliderVy c x ^ 2)) * (CL * x 2 - CD * gliderVy c x) = 0 := by
        have := sub_left_injective (mul_right_cancel₀ htf e3)
        field_simp at this
        linear_combination this
      rcases mul_eq_zero.1 a2 with a | a
      · have e := sub_eq_zero.1 a
        rw [sqrt_inj hnn hp.le] at e
        have : gliderVy c x * (gliderVy c x - 1) = 0 := by linear_combination -e
        rcases mul_eq_zero.1 this with h | h
        · exact Or.inl h
        · exact Or.inr (by linarith)
      · rcases mul_eq_zero.1 a3 with b | b
        · have e := sub_eq_zero.1 b
          rw [sqrt_inj hnn hp.le] at e
          have : gliderVy c x * (gliderVy c x - 1) = 0 := by linear_combination -e
          rcases mul_eq_zero.1 this with h | h
          · exact Or.inl h
          · exact Or.inr (by linarith)
        · exfalso
          have : (CL ^ 2 + CD ^ 2) * (x 2 ^ 2 + gliderVy c x ^ 2) = 0 := by
            linear_combination (-CL * gliderVy c x - CD * x 2) * a + (CL * x 2 - CD * gliderVy c x) * b
          exact (mul_pos hq hp).ne' this
    · intro h
      have : gliderVy c x ^ 2 = gliderVy c x := by rcases h with h | h <;> rw [h] <;> norm_num
      rw [this]

/-- C84, negation at the start: at the initial state that the example fixes, with its constants and any lift coefficient, `f` is not Newton's
law. -/
theorem C84_initial (CL tf : ℝ) (htf : tf ≠ 0) : ¬ GliderCorrect gliderConsts ![0, 1000, 13.2, -1.3] CL tf := by
  have he : 10.5 < exp 6.25 := by
    have := quadratic_le_exp_of_nonneg (show (0 : ℝ) ≤ 6.25 by norm_num)
    norm_num at this ⊢
    linarith
  have he' : exp (-6.25) < 1 / 10.5 := by
    rw [exp_neg, ← one_div]
    exact one_div_lt_one_div_of_lt (by norm_num) he
  have hVy : gliderVy gliderConsts ![0, 1000, 13.2, -1.3] = -1.3 + 13.125 * exp (-6.25) := by
    simp only [gliderVy, gliderUa, gliderConsts, Matrix.cons_val]
    rw [show ((0 : ℝ) / 100 - 2.5) ^ 2 = 6.25 by norm_num]
    ring
  have hneg : gliderVy gliderConsts ![0, 1000, 13.2, -1.3] < 0 := by
    rw [hVy]
    norm_num at he' ⊢
    linarith
  rw [C84_iff _ _ _ _ (by norm_num [gliderConsts]) (by norm_num [gliderConsts]) (by norm_num [gliderConsts]) htf
    (Or.inr hneg.ne) (Or.inr (by simp only [gliderConsts]; positivity))]
  rintro (h | h) <;> linarith

/-- C84, negation: within the bounds and the path constraint of the example there are states at which `f` has no value. -/
theorem C84_nan (CL tf : ℝ) : ∃ x : Fin 4 → ℝ, 0 ≤ x 0 ∧ 0 ≤ x 1 ∧ 0 ≤ x 2 ∧ 1 ≤ gliderG x ∧ gliderF gliderConsts x CL tf = none := by
  refine ⟨![250, 950, 1, -1.3], ?_, ?_, ?_, ?_, ?_⟩
  · simp
  · simp
  · simp
  · simp only [gliderG, Matrix.cons_val]
    norm_num
  · unfold gliderF
    dsimp only
    refine if_pos ?_
    simp only [gliderUa, gliderConsts, Matrix.cons_val]
    rw [show ((250 : ℝ) / 100 - 2.5) ^ 2 = 0 by norm_num, neg_zero, exp_zero]
    norm_num

/-- C84: the constants of the example are those of a glider of weight 980.665 that loses at least 1 of height in 10.28 of distance through still air
and, at the best lift coefficient, less than 1 in 10.27. -/
theorem C84_consts : gliderConsts.m * gliderConsts.g = 980.665 ∧
    (∀ CL : ℝ, 0 < CL → CL / (gliderConsts.CD0 + gliderConsts.k * CL ^ 2) < 10.28) ∧
    (∃ CL : ℝ, 0 < CL ∧ 10.27 < CL / (gliderConsts.CD0 + gliderConsts.k * CL ^ 2)) ∧
    0.5 * gliderConsts.rho * gliderConsts.S = 7.91 ∧ gliderUa gliderConsts 250 = 2.5 ∧ gliderUa gliderConsts 150 = 0 ∧ gliderUa gliderConsts 350 = 0 := by
  refine ⟨by norm_num [gliderConsts], fun CL h => ?_, ⟨0.7, by norm_num, by norm_num [gliderConsts]⟩, by norm_num [gliderConsts], by norm_num [gliderConsts, gliderUa], by norm_num [gliderConsts, gliderUa],
    by norm_num [gliderConsts, gliderUa]⟩
  simp only [gliderConsts]
  rw [div_lt_iff₀ (by positivity)]
  nlinarith [sq_nonneg (CL - 0.698)]


/-- A state with a horizontal flight relative to the air: the restricted claim applies, and there `f` is Newton's law. -/
example : GliderCorrect gliderConsts ![250, 950, 13.2, 2.5] 1 100 := by
  have hVy : gliderVy gliderConsts ![250, 950, 13.2, 2.5] = 0 := by
    simp only [gliderVy, gliderUa, gliderConsts, Matrix.cons_val]
    rw [show ((250 : ℝ) / 100 - 2.5) ^ 2 = 0 by norm_num, neg_zero, exp_zero]
    norm_num
  refine (C84_iff _ _ _ _ (by norm_num [gliderConsts]) (by norm_num [gliderConsts]) (by norm_num [gliderConsts]) (by norm_num)
    (Or.inl (by simp only [Matrix.cons_val]; norm_num)) (Or.inl (by norm_num))).2 (Or.inl hVy)

end Ceacoest.Ex
