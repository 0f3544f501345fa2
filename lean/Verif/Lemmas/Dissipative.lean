import Verif.Lemmas.Pade
import Verif.Spec.Dissipative
import Mathlib.Topology.Instances.Matrix
import Mathlib.Analysis.Calculus.Deriv.Prod

/-! # Collocation of dissipative linear systems, for steps of any length (C88) -/

namespace Ceacoest
open Polynomial Spec RK Matrix
variable {nx : Nat}

/-- A multiple of the Legendre polynomial of `[0, 1]`, by the formula of Rodrigues. -/
noncomputable def leg (N : Nat) : ℝ[X] := derivative^[N] ((X - C 0) ^ N * (X - C 1) ^ N)

theorem leg_eq (N : Nat) : leg N = C ((-1) ^ N * (N.factorial : ℝ)) * shiftedLeg N := by
  have h : ((X - C 0) ^ N * (X - C 1) ^ N : ℝ[X]) = C ((-1) ^ N) * bump N := by
    rw [← bump_eq, mul_pow]
    simp
  rw [leg, h, iterate_derivative_C_mul, iterate_bump, C_mul, mul_assoc]

theorem leg_orth (N : Nat) (p : ℝ[X]) (hp : p.natDegree < N) : integral (leg N * p) 0 1 = 0 := by
  rw [leg_eq, mul_assoc, integral_C_mul, shiftedLeg_orth N p hp, mul_zero]

theorem leg_natDegree (N : Nat) : (leg N).natDegree ≤ N := by
  have h : ((X - C 0) ^ N * (X - C 1) ^ N : ℝ[X]).natDegree = N + N := by
    rw [((monic_X_sub_C (0 : ℝ)).pow N).natDegree_mul ((monic_X_sub_C (1 : ℝ)).pow N), (monic_X_sub_C (0 : ℝ)).natDegree_pow, (monic_X_sub_C (1 : ℝ)).natDegree_pow,
      natDegree_X_sub_C, natDegree_X_sub_C, mul_one]
  have := natDegree_iterate_derivative ((X - C 0) ^ N * (X - C 1) ^ N : ℝ[X]) N
  rw [leg]
  omega

theorem leg_ends {N j : Nat} (hj : j ≤ N) : (derivative^[N - j] (leg N)).eval 0 = ((2 * N).factorial : ℝ) * (padeCoef N j * (-1) ^ j) ∧
    (derivative^[N - j] (leg N)).eval 1 = ((2 * N).factorial : ℝ) * padeCoef N j := by
  have hid : (((N + (N - j)).choose (N - j) : ℝ) * (N.factorial : ℝ) * (N.descFactorial (N - j) : ℝ)) = ((2 * N).factorial : ℝ) * padeCoef N j := by
    have := pade_identity hj
    field_simp at this
    linarith
  rw [leg, ← Function.iterate_add_apply, Nat.add_comm (N - j) N]
  constructor
  · rw [prod_pow_deriv _ _ (by omega), hid, show N - (N - j) = j by omega]
    norm_num
    ring
  · rw [mul_comm ((X - C 0) ^ N), prod_pow_deriv _ _ (by omega), hid]
    norm_num

/-- The polynomial of Gauss collocation with the ends `padeNum N (-M) w` and `padeNum N M w`. -/
noncomputable def stage (N : Nat) (M : Matrix (Fin nx) (Fin nx) ℝ) (w : Fin nx → ℝ) (s : ℝ) : Fin nx → ℝ :=
  ∑ j ∈ Finset.range (N + 1), (derivative^[N - j] (leg N)).eval s • (M ^ j *ᵥ w)

/-- Its part of lower degree. -/
noncomputable def lowStage (N : Nat) (M : Matrix (Fin nx) (Fin nx) ℝ) (w : Fin nx → ℝ) (s : ℝ) : Fin nx → ℝ :=
  ∑ j ∈ Finset.range N, (derivative^[N - j] (leg N)).eval s • (M ^ j *ᵥ w)

theorem stage_eq (N : Nat) (M : Matrix (Fin nx) (Fin nx) ℝ) (w : Fin nx → ℝ) (s : ℝ) :
    stage N M w s = lowStage N M w s + (leg N).eval s • (M ^ N *ᵥ w) := by
  rw [stage, Finset.sum_range_succ, lowStage, Nat.sub_self, Function.iterate_zero, id]

theorem stage_ends (N : Nat) (M : Matrix (Fin nx) (Fin nx) ℝ) (w : Fin nx → ℝ) :
    stage N M w 0 = ((2 * N).factorial : ℝ) • (padeNum N (-M) *ᵥ w) ∧ stage N M w 1 = ((2 * N).factorial : ℝ) • (padeNum N M *ᵥ w) := by
  unfold stage padeNum
  rw [sum_mulVec, sum_mulVec, Finset.smul_sum, Finset.smul_sum]
  constructor <;> refine Finset.sum_congr rfl fun j hj => ?_ <;> have hj := Nat.lt_succ_iff.1 (Finset.mem_range.1 hj)
  · rw [(leg_ends hj).1, smul_mulVec, smul_smul, show (-M) ^ j = (-1 : ℝ) ^ j • M ^ j by rw [← smul_pow, neg_one_smul], smul_mulVec, smul_smul, mul_assoc]
  · rw [(leg_ends hj).2, smul_mulVec, smul_smul]

theorem lowStage_cont (N : Nat) (M : Matrix (Fin nx) (Fin nx) ℝ) (w : Fin nx → ℝ) : Continuous (lowStage N M w) :=
  continuous_finset_sum _ fun _ _ => (Polynomial.continuous _).smul continuous_const

theorem stage_cont (N : Nat) (M : Matrix (Fin nx) (Fin nx) ℝ) (w : Fin nx → ℝ) : Continuous (stage N M w) :=
  continuous_finset_sum _ fun _ _ => (Polynomial.continuous _).smul continuous_const

theorem stage_deriv (N : Nat) (M : Matrix (Fin nx) (Fin nx) ℝ) (w : Fin nx → ℝ) (s : ℝ) : HasDerivAt (stage N M w) (M *ᵥ lowStage N M w s) s := by
  have h : HasDerivAt (stage N M w) (∑ j ∈ Finset.range (N + 1), (derivative (derivative^[N - j] (leg N))).eval s • (M ^ j *ᵥ w)) s :=
    HasDerivAt.fun_sum fun j _ => ((derivative^[N - j] (leg N)).hasDerivAt s).smul_const _
  refine h.congr_deriv ?_
  rw [Finset.sum_range_succ', lowStage, mulVec_sum, Nat.sub_zero, ← Function.iterate_succ_apply' derivative,
    iterate_derivative_eq_zero (Nat.lt_succ_of_le (leg_natDegree N)), eval_zero, zero_smul, add_zero]
  refine Finset.sum_congr rfl fun j hj => ?_
  have hj := Finset.mem_range.1 hj
  rw [← Function.iterate_succ_apply' derivative, show (N - (j + 1)).succ = N - j by omega, mulVec_smul, mulVec_mulVec, ← pow_succ']

/-- A quadratic form. -/
noncomputable def quadForm (H : Matrix (Fin nx) (Fin nx) ℝ) (x : Fin nx → ℝ) : ℝ := x ⬝ᵥ H *ᵥ x

theorem quadForm_deriv {H : Matrix (Fin nx) (Fin nx) ℝ} (hH : Hᵀ = H) {y : ℝ → Fin nx → ℝ} {y' : Fin nx → ℝ} {s : ℝ} (h : HasDerivAt y y' s) :
    HasDerivAt (fun s => quadForm H (y s)) (2 * (y s ⬝ᵥ H *ᵥ y')) s := by
  have h1 : ∀ i, HasDerivAt (fun s => y s i) (y' i) s := hasDerivAt_pi.1 h
  have h2 : ∀ i, HasDerivAt (fun s => (H *ᵥ y s) i) ((H *ᵥ y') i) s := fun i => by
    simp only [mulVec, dotProduct]
    exact HasDerivAt.fun_sum fun k _ => (h1 k).const_mul (H i k)
  have h3 : HasDerivAt (fun s => quadForm H (y s)) (∑ i, (y' i * (H *ᵥ y s) i + y s i * (H *ᵥ y') i)) s := by
    unfold quadForm
    simp only [dotProduct]
    exact HasDerivAt.fun_sum fun i _ => (h1 i).mul (h2 i)
  refine h3.congr_deriv ?_
  rw [Finset.sum_add_distrib]
  have e : y' ⬝ᵥ H *ᵥ y s = y s ⬝ᵥ H *ᵥ y' := by
    rw [dotProduct_mulVec, ← mulVec_transpose, hH, dotProduct_comm]
  change y' ⬝ᵥ H *ᵥ y s + y s ⬝ᵥ H *ᵥ y' = _
  rw [e]
  ring

theorem form_cont (H : Matrix (Fin nx) (Fin nx) ℝ) {a b : ℝ → Fin nx → ℝ} (ha : Continuous a) (hb : Continuous b) : Continuous fun s => a s ⬝ᵥ H *ᵥ b s :=
  ha.dotProduct (continuous_const.matrix_mulVec hb)

/-- The derivative of the quadratic form along the polynomial, with a weight. -/
theorem stage_integral {H : Matrix (Fin nx) (Fin nx) ℝ} (N : Nat) (M : Matrix (Fin nx) (Fin nx) ℝ) (w : Fin nx → ℝ) (ρ : ℝ[X]) :
    ∫ s in (0 : ℝ)..1, ρ.eval s * (stage N M w s ⬝ᵥ H *ᵥ (M *ᵥ lowStage N M w s)) =
      (∫ s in (0 : ℝ)..1, ρ.eval s * (lowStage N M w s ⬝ᵥ H *ᵥ (M *ᵥ lowStage N M w s))) +
        ∑ j ∈ Finset.range N, ((M ^ N *ᵥ w) ⬝ᵥ H *ᵥ (M ^ (j + 1) *ᵥ w)) * integral (leg N * (ρ * derivative^[N - j] (leg N))) 0 1 := by
  have hsum : ∑ j ∈ Finset.range N, ((M ^ N *ᵥ w) ⬝ᵥ H *ᵥ (M ^ (j + 1) *ᵥ w)) * integral (leg N * (ρ * derivative^[N - j] (leg N))) 0 1 =
      integral (∑ j ∈ Finset.range N, C ((M ^ N *ᵥ w) ⬝ᵥ H *ᵥ (M ^ (j + 1) *ᵥ w)) * (leg N * (ρ * derivative^[N - j] (leg N)))) 0 1 := by
    rw [integral_sum]
    exact Finset.sum_congr rfl fun j _ => (integral_C_mul _ _ _ _).symm
  rw [hsum, integral, ← intervalIntegral.integral_add]
  · refine intervalIntegral.integral_congr fun s _ => ?_
    simp only [stage_eq, add_dotProduct, mul_add, smul_dotProduct, eval_finset_sum, eval_mul, eval_C, add_right_inj]
    rw [lowStage, mulVec_sum, mulVec_sum, dotProduct_sum, Finset.smul_sum, Finset.mul_sum]
    refine Finset.sum_congr rfl fun j _ => ?_
    rw [mulVec_smul, mulVec_smul, dotProduct_smul, mulVec_mulVec (M := M), ← pow_succ', smul_eq_mul, smul_eq_mul]
    ring
  · exact ((Polynomial.continuous _).mul (form_cont H (lowStage_cont N M w) (continuous_const.matrix_mulVec (lowStage_cont N M w)))).intervalIntegrable _ _
  · exact (Polynomial.continuous _).intervalIntegrable _ _

theorem integral_nonpos' {f : ℝ → ℝ} {a b : ℝ} (hab : a ≤ b) (h : ∀ s ∈ Set.Icc a b, f s ≤ 0) : ∫ s in a..b, f s ≤ 0 := by
  have := intervalIntegral.integral_nonneg (f := fun s => -f s) (μ := MeasureTheory.volume) hab fun s hs => neg_nonneg.2 (h s hs)
  rw [intervalIntegral.integral_neg] at this
  linarith

/-- The approximant does not increase a quadratic form that the system does not increase. -/
theorem pade_contract {H M : Matrix (Fin nx) (Fin nx) ℝ} (hH : Hᵀ = H) (hM : ∀ v, v ⬝ᵥ H *ᵥ (M *ᵥ v) ≤ 0) (N : Nat) (w : Fin nx → ℝ) :
    quadForm H (padeNum N M *ᵥ w) ≤ quadForm H (padeNum N (-M) *ᵥ w) := by
  have hd := intervalIntegral.integral_eq_sub_of_hasDerivAt (a := 0) (b := 1) (fun s _ => quadForm_deriv hH (stage_deriv N M w s))
    ((continuous_const.mul (form_cont H (stage_cont N M w) (continuous_const.matrix_mulVec (lowStage_cont N M w)))).intervalIntegrable _ _)
  have hi := stage_integral (H := H) N M w 1
  simp only [eval_one, one_mul] at hi
  rw [intervalIntegral.integral_const_mul, hi, Finset.sum_eq_zero fun j hj => ?_, add_zero] at hd
  · have h0 : ∫ s in (0 : ℝ)..1, lowStage N M w s ⬝ᵥ H *ᵥ (M *ᵥ lowStage N M w s) ≤ 0 :=
      integral_nonpos' zero_le_one fun s _ => hM _
    obtain ⟨e0, e1⟩ := stage_ends N M w
    have hq : ∀ (r : ℝ) (x : Fin nx → ℝ), quadForm H (r • x) = r ^ 2 * quadForm H x := fun r x => by
      rw [quadForm, mulVec_smul, smul_dotProduct, dotProduct_smul, smul_eq_mul, smul_eq_mul, quadForm]; ring
    rw [e0, e1, hq, hq, ← mul_sub] at hd
    have hp : (0 : ℝ) < ((2 * N).factorial : ℝ) ^ 2 := by positivity
    by_contra hlt
    have := mul_pos hp (sub_pos.2 (not_le.1 hlt))
    linarith
  · have hj := Finset.mem_range.1 hj
    rw [leg_orth _ _ (lt_of_le_of_lt (natDegree_iterate_derivative _ _) (by have := leg_natDegree N; omega)), mul_zero]

theorem quadForm_smul (H : Matrix (Fin nx) (Fin nx) ℝ) (r : ℝ) (x : Fin nx → ℝ) : quadForm H (r • x) = r ^ 2 * quadForm H x := by
  rw [quadForm, mulVec_smul, smul_dotProduct, dotProduct_smul, smul_eq_mul, smul_eq_mul, quadForm]; ring

/-- The stage polynomial determines its vector. -/
theorem stage_zero {N : Nat} {M : Matrix (Fin nx) (Fin nx) ℝ} {w : Fin nx → ℝ} (h : ∀ s ∈ Set.Icc (0 : ℝ) 1, stage N M w s = 0) : w = 0 := by
  have hg : ∀ i, (∑ j ∈ Finset.range (N + 1), C ((M ^ j *ᵥ w) i) * derivative^[N - j] (leg N)) = 0 := fun i => by
    refine eq_zero_of_infinite_isRoot _ ((Set.Icc_infinite (zero_lt_one (α := ℝ))).mono fun s hs => ?_)
    have := congrFun (h s hs) i
    simp only [stage, Finset.sum_apply, Pi.smul_apply, smul_eq_mul, Pi.zero_apply] at this
    change eval s _ = 0
    rw [eval_finset_sum, ← this]
    exact Finset.sum_congr rfl fun j _ => by rw [eval_mul, eval_C, mul_comm]
  have key : ∀ k, ∀ j ≤ N, N < j + k → M ^ j *ᵥ w = 0 := by
    intro k
    induction k with
    | zero => intro j hj h; omega
    | succ k ih =>
      intro m hm hk
      rcases Nat.lt_or_ge N (m + k) with h | h
      · exact ih m hm h
      · funext i
        have := congrArg (fun p => (derivative^[m] p).eval 0) (hg i)
        simp only [iterate_derivative_sum, iterate_map_zero, eval_finset_sum, eval_zero, iterate_derivative_C_mul, eval_mul, eval_C,
          ← Function.iterate_add_apply] at this
        rw [Finset.sum_eq_single m (fun j hj hjm => ?_) fun hm' => absurd (Finset.mem_range.2 (by omega)) hm', show m + (N - m) = N - 0 by omega,
          (leg_ends (Nat.zero_le N)).1, padeCoef_zero] at this
        · have hp : ((2 * N).factorial : ℝ) * (1 * (-1) ^ 0) ≠ 0 := by positivity
          exact (mul_eq_zero.1 this).resolve_right hp
        · have hj := Finset.mem_range.1 hj
          rcases Nat.lt_or_ge m j with h' | h'
          · rw [ih j (by omega) (by omega), Pi.zero_apply, zero_mul]
          · rw [iterate_derivative_eq_zero (by have := leg_natDegree N; omega), eval_zero, mul_zero]
  have := key (N + 1) 0 (Nat.zero_le _) (by omega)
  rwa [pow_zero, one_mulVec] at this

theorem leg_moment {N i : Nat} (hi : 1 ≤ i) : 0 ≤ integral (leg N * ((X - 1) * derivative^[i] (leg N))) 0 1 ∧
    (i ≠ 1 → integral (leg N * ((X - 1) * derivative^[i] (leg N))) 0 1 = 0) := by
  have hX : (X - 1 : ℝ[X]).natDegree ≤ 1 := by rw [← C_1]; exact natDegree_X_sub_C_le 1
  have hN := leg_natDegree N
  rcases Nat.lt_or_ge N i with h | h
  · rw [iterate_derivative_eq_zero (by omega), mul_zero, mul_zero, integral_zero]
    exact ⟨le_rfl, fun _ => rfl⟩
  have hdeg : ((X - 1) * derivative^[i] (leg N) : ℝ[X]).natDegree ≤ 1 + (N - i) :=
    natDegree_mul_le.trans (Nat.add_le_add hX ((natDegree_iterate_derivative _ _).trans (by omega)))
  rcases (show i = 1 ∨ 2 ≤ i by omega) with rfl | hi2
  · refine ⟨?_, fun h => absurd rfl h⟩
    rw [Function.iterate_one]
    have hlow : ((X - 1) * derivative (leg N) - C (N : ℝ) * leg N : ℝ[X]).natDegree < N := by
      refine Nat.lt_of_le_of_ne ?_ fun he => ?_
      · refine (natDegree_sub_le _ _).trans (max_le ?_ ((natDegree_C_mul_le _ _).trans hN))
        rw [Function.iterate_one] at hdeg
        omega
      · have hc : ((X - 1) * derivative (leg N) - C (N : ℝ) * leg N : ℝ[X]).coeff N = 0 := by
          obtain ⟨n, rfl⟩ : ∃ n, N = n + 1 := ⟨N - 1, by omega⟩
          rw [sub_mul, one_mul, coeff_sub, coeff_sub, coeff_X_mul, coeff_derivative, coeff_derivative, coeff_C_mul,
            coeff_eq_zero_of_natDegree_lt (show (leg (n + 1)).natDegree < n + 1 + 1 by omega)]
          push_cast
          ring
        have hz := leadingCoeff_eq_zero.1 (show leadingCoeff ((X - 1) * derivative (leg N) - C (N : ℝ) * leg N : ℝ[X]) = 0 by rw [leadingCoeff, he, hc])
        rw [hz] at he
        simp at he
        omega
    have := leg_orth N _ hlow
    have e : leg N * ((X - 1) * derivative (leg N)) = leg N * ((X - 1) * derivative (leg N) - C (N : ℝ) * leg N) + C (N : ℝ) * (leg N * leg N) := by ring
    rw [e, integral_add, this, zero_add, integral_C_mul]
    refine mul_nonneg (Nat.cast_nonneg _) (intervalIntegral.integral_nonneg zero_le_one fun s _ => ?_)
    rw [eval_mul]
    exact mul_self_nonneg _
  · have := leg_orth N ((X - 1) * derivative^[i] (leg N)) (by omega)
    rw [this]
    exact ⟨le_rfl, fun _ => rfl⟩

/-- The denominator is invertible, for systems that do not increase a positive definite form. -/
theorem pade_unit {H M : Matrix (Fin nx) (Fin nx) ℝ} (hH : Hᵀ = H) (hpos : ∀ v, v ≠ 0 → 0 < v ⬝ᵥ H *ᵥ v) (hM : ∀ v, v ⬝ᵥ H *ᵥ (M *ᵥ v) ≤ 0) (N : Nat) :
    IsUnit (padeNum N (-M)) := by
  have hnn : ∀ v, 0 ≤ quadForm H v := fun v => by
    rcases eq_or_ne v 0 with rfl | h
    · simp [quadForm]
    · exact (hpos v h).le
  rw [← mulVec_injective_iff_isUnit]
  intro v1 v2 h12
  rw [← sub_eq_zero]
  set w := v1 - v2 with hw
  have h0 : stage N M w 0 = 0 := by
    rw [(stage_ends N M w).1, hw, mulVec_sub, sub_eq_zero.2 h12, smul_zero]
  have hsc : Continuous fun s => stage N M w s ⬝ᵥ H *ᵥ (M *ᵥ lowStage N M w s) :=
    form_cont H (stage_cont N M w) (continuous_const.matrix_mulVec (lowStage_cont N M w))
  have hqc : Continuous fun s => quadForm H (stage N M w s) := form_cont H (stage_cont N M w) (stage_cont N M w)
  have hd := intervalIntegral.integral_eq_sub_of_hasDerivAt (a := 0) (b := 1)
    (fun s _ => ((X - 1 : ℝ[X]).hasDerivAt s).mul (quadForm_deriv hH (stage_deriv N M w s)))
    (((Polynomial.continuous _).mul hqc |>.add ((Polynomial.continuous _).mul (continuous_const.mul hsc))).intervalIntegrable _ _)
  have e1 : eval 1 (X - 1 : ℝ[X]) = 0 := by simp
  have hI1 : IntervalIntegrable (fun y => eval y (derivative (X - 1 : ℝ[X])) * quadForm H (stage N M w y)) MeasureTheory.volume 0 1 :=
    ((Polynomial.continuous _).mul hqc).intervalIntegrable _ _
  have hI2 : IntervalIntegrable (fun y => eval y (X - 1 : ℝ[X]) * (2 * (stage N M w y ⬝ᵥ H *ᵥ (M *ᵥ lowStage N M w y)))) MeasureTheory.volume 0 1 :=
    ((Polynomial.continuous _).mul (continuous_const.mul hsc)).intervalIntegrable _ _
  rw [Pi.mul_apply, Pi.mul_apply, h0, e1, zero_mul, show quadForm H 0 = 0 by simp [quadForm], mul_zero, sub_zero, intervalIntegral.integral_add hI1 hI2] at hd
  have e2 : ∀ s, eval s (X - 1 : ℝ[X]) * (2 * (stage N M w s ⬝ᵥ H *ᵥ (M *ᵥ lowStage N M w s))) =
      2 * (eval s (X - 1 : ℝ[X]) * (stage N M w s ⬝ᵥ H *ᵥ (M *ᵥ lowStage N M w s))) := fun s => by ring
  simp only [e2, intervalIntegral.integral_const_mul, stage_integral] at hd
  have e3 : ∀ s, eval s (derivative (X - 1 : ℝ[X])) * quadForm H (stage N M w s) = quadForm H (stage N M w s) := fun s => by simp
  simp only [e3] at hd
  have i1 : 0 ≤ ∫ s in (0 : ℝ)..1, eval s (X - 1 : ℝ[X]) * (lowStage N M w s ⬝ᵥ H *ᵥ (M *ᵥ lowStage N M w s)) :=
    intervalIntegral.integral_nonneg zero_le_one fun s hs => by
      refine mul_nonneg_of_nonpos_of_nonpos ?_ (hM _)
      simp only [eval_sub, eval_X, eval_one]
      linarith [hs.2]
  have i2 : 0 ≤ ∑ j ∈ Finset.range N, ((M ^ N *ᵥ w) ⬝ᵥ H *ᵥ (M ^ (j + 1) *ᵥ w)) * integral (leg N * ((X - 1) * derivative^[N - j] (leg N))) 0 1 :=
    Finset.sum_nonneg fun j hj => by
      have hj := Finset.mem_range.1 hj
      obtain ⟨m1, m2⟩ := leg_moment (N := N) (i := N - j) (by omega)
      by_cases h : N - j = 1
      · refine mul_nonneg ?_ m1
        rw [show j + 1 = N by omega]
        exact hnn _
      · rw [m2 h, mul_zero]
  have i3 : 0 ≤ ∫ s in (0 : ℝ)..1, quadForm H (stage N M w s) := intervalIntegral.integral_nonneg zero_le_one fun s _ => hnn _
  refine stage_zero (N := N) (M := M) fun s hs => ?_
  by_contra hne
  have := intervalIntegral.integral_pos zero_lt_one hqc.continuousOn (fun s _ => hnn _) ⟨s, hs, hpos _ hne⟩
  linarith

/-! ### Solutions of the equations of a piece -/

/-- A homogeneous system that starts at zero. -/
theorem piece_zero {c K : List ℝ} {J : List (List ℝ)} {N : Nat} (h : PointsOK c J N)
    (hK : ∀ q : ℝ[X], q.natDegree ≤ 2 * N - 1 → ∑ l ∈ Finset.range (N + 1), K.getD l 0 * q.eval (c.getD l 0) = integral q 0 1) {len : ℝ}
    (hlen : 0 < len) {A : Matrix (Fin nx) (Fin nx) ℝ} (hunit : IsUnit (padeNum N (-(len • A)))) {x rhs : Nat → Fin nx → ℝ}
    (hd : ∀ j, ∀ k < N, x (k + 1) j - x k j - (∑ l ∈ Finset.range (N + 1), (J.getD k []).getD l 0 * rhs l j) * len = 0)
    (hr : ∀ l ≤ N, rhs l = A *ᵥ x l) (h0 : x 0 = 0) : ∀ l ≤ N, x l = 0 := by
  obtain ⟨y, u, hy1, hyl, hu⟩ := piece_hom h hlen hd hr
  have e0 : evalAt y 0 = 0 := by
    rw [← h0, ← hyl 0 (Nat.zero_le _), nodePoint, h.first, mul_zero, add_zero]
  have hrel := stage_rel hy1 hu 0
  rw [e0, mulVec_zero, neg_zero, (stageMat_ends h hK 0 hlen.ne' A).1, smul_mulVec] at hrel
  have hu0 : u = 0 := by
    have h1 := (smul_eq_zero.1 hrel).resolve_left (by positivity)
    exact mulVec_injective_iff_isUnit.2 hunit (by rw [h1, mulVec_zero])
  have hy0 : ∀ j, y j = 0 := fun j => poly_zero_of_derivs 0 fun k => by
    have := congrFun (stage_derivs hu 0 k) j
    rw [e0, hu0] at this
    simpa [evalAt, derivOf] using this
  intro l hl
  rw [← hyl l hl]
  funext j
  simp [evalAt, hy0]

/-- The equations of a piece of a linear system have a solution for every initial state. -/
theorem piece_linear_solution {c K : List ℝ} {J : List (List ℝ)} {N : Nat} (h : PointsOK c J N)
    (hK : ∀ q : ℝ[X], q.natDegree ≤ 2 * N - 1 → ∑ l ∈ Finset.range (N + 1), K.getD l 0 * q.eval (c.getD l 0) = integral q 0 1) {len : ℝ}
    (hlen : 0 < len) {A : Matrix (Fin nx) (Fin nx) ℝ} (hunit : IsUnit (padeNum N (-(len • A)))) (b : Nat → Fin nx → ℝ) (x0 : Fin nx → ℝ) :
    ∃ x : Nat → Fin nx → ℝ, x 0 = x0 ∧ ∀ k < N, ∀ j, x (k + 1) j - x k j -
      (∑ l ∈ Finset.range (N + 1), (J.getD k []).getD l 0 * (A *ᵥ x l + b l) j) * len = 0 := by
  let D : (Nat → Fin nx → ℝ) → Fin N → Fin nx → ℝ := fun x k j =>
    x (k + 1) j - x k j - (∑ l ∈ Finset.range (N + 1), (J.getD k []).getD l 0 * (A *ᵥ x l) j) * len
  have Dadd : ∀ x y, D (x + y) = D x + D y := fun x y => by
    funext k j
    simp only [D, Pi.add_apply, mulVec_add, mul_add, Finset.sum_add_distrib]
    ring
  have Dsmul : ∀ (r : ℝ) x, D (r • x) = r • D x := fun r x => by
    funext k j
    simp only [D, Pi.smul_apply, mulVec_smul, smul_eq_mul]
    rw [mul_sub, mul_sub, ← mul_assoc r (∑ l ∈ _, _), Finset.mul_sum]
    congr 2
    exact Finset.sum_congr rfl fun l _ => by ring
  let E : (Fin N → Fin nx → ℝ) → Nat → Fin nx → ℝ := fun ξ l => if h : l - 1 < N ∧ l ≠ 0 then ξ ⟨l - 1, h.1⟩ else 0
  have Eadd : ∀ ξ η, E (ξ + η) = E ξ + E η := fun ξ η => by
    funext l j
    by_cases h : l - 1 < N ∧ l ≠ 0 <;> simp [E, h]
  have Esmul : ∀ (r : ℝ) ξ, E (r • ξ) = r • E ξ := fun r ξ => by
    funext l j
    by_cases h : l - 1 < N ∧ l ≠ 0 <;> simp [E, h]
  have E0 : ∀ ξ, E ξ 0 = 0 := fun ξ => by simp [E]
  let T : (Fin N → Fin nx → ℝ) →ₗ[ℝ] Fin N → Fin nx → ℝ :=
    { toFun := fun ξ => D (E ξ), map_add' := fun ξ η => by rw [Eadd, Dadd], map_smul' := fun r ξ => by rw [Esmul, Dsmul]; rfl }
  have hinj : Function.Injective T := by
    rw [← LinearMap.ker_eq_bot, LinearMap.ker_eq_bot']
    intro ξ hξ
    have hz := piece_zero h hK hlen hunit (x := E ξ) (rhs := fun l => A *ᵥ E ξ l) (fun j k hk => congrFun (congrFun hξ ⟨k, hk⟩) j) (fun l _ => rfl) (E0 ξ)
    funext k
    have := hz (k + 1) k.2
    simpa [E] using this
  have hsurj := LinearMap.injective_iff_surjective.1 hinj
  let x1 : Nat → Fin nx → ℝ := fun l => if l = 0 then x0 else 0
  obtain ⟨ξ, hξ⟩ := hsurj fun k j => -(D x1 k j) + (∑ l ∈ Finset.range (N + 1), (J.getD k []).getD l 0 * b l j) * len
  refine ⟨x1 + E ξ, by simp [x1, E0], fun k hk j => ?_⟩
  have e1 := congrFun (congrFun (Dadd x1 (E ξ)) ⟨k, hk⟩) j
  have e2 : D (E ξ) ⟨k, hk⟩ j = -(D x1 ⟨k, hk⟩ j) + (∑ l ∈ Finset.range (N + 1), (J.getD k []).getD l 0 * b l j) * len := congrFun (congrFun hξ ⟨k, hk⟩) j
  rw [Pi.add_apply, Pi.add_apply, e2] at e1
  have e3 : D (x1 + E ξ) ⟨k, hk⟩ j = (x1 + E ξ) (k + 1) j - (x1 + E ξ) k j -
    (∑ l ∈ Finset.range (N + 1), (J.getD k []).getD l 0 * (A *ᵥ (x1 + E ξ) l) j) * len := rfl
  simp only [Pi.add_apply (A *ᵥ _), mul_add, Finset.sum_add_distrib, add_mul] at *
  linarith

/-! ### Lists of states -/

theorem dissipative_unit {H S : Matrix (Fin nx) (Fin nx) ℝ} (h : Dissipative H S) (N : Nat) {len : ℝ} (hlen : 0 < len) : IsUnit (padeNum N (-(len • S))) :=
  pade_unit h.symm h.pos (fun v => by
    rw [smul_mulVec, mulVec_smul, dotProduct_smul, smul_eq_mul]
    exact mul_nonpos_of_nonneg_of_nonpos hlen.le (h.decrease v)) N

theorem pade_step {H S : Matrix (Fin nx) (Fin nx) ℝ} (h : Dissipative H S) {N : Nat} {len : ℝ} (hlen : 0 < len) {x0 x1 : Fin nx → ℝ}
    (hx : padeNum N (-(len • S)) *ᵥ x1 = padeNum N (len • S) *ᵥ x0) : x1 ⬝ᵥ H *ᵥ x1 ≤ x0 ⬝ᵥ H *ᵥ x0 := by
  have hu := dissipative_unit h N hlen
  set M := len • S with hM
  set Q := padeNum N (-M) with hQ
  set P := padeNum N M with hP
  have hc : Q * P = P * Q := padeNum_comm N M
  have hinj := mulVec_injective_iff_isUnit.2 hu
  have hdet : IsUnit Q.det := (isUnit_iff_isUnit_det Q).1 hu
  obtain ⟨w, rfl⟩ : ∃ w, x0 = Q *ᵥ w := ⟨Q⁻¹ *ᵥ x0, by rw [mulVec_mulVec, mul_nonsing_inv _ hdet, one_mulVec]⟩
  obtain rfl : x1 = P *ᵥ w := hinj (by change Q *ᵥ x1 = Q *ᵥ (P *ᵥ w); rw [hx, mulVec_mulVec, mulVec_mulVec, hc])
  refine pade_contract h.symm (fun v => ?_) N w
  rw [hM, smul_mulVec, mulVec_smul, dotProduct_smul, smul_eq_mul]
  exact mul_nonpos_of_nonneg_of_nonpos hlen.le (h.decrease v)

theorem toVec_ofFn (a : Fin nx → ℝ) : toVec nx (List.ofFn a) = a := by
  funext j
  rw [toVec, getD_of_lt _ _ (by simp)]
  simp

theorem toVec_ext {x x' : List ℝ} (hx : x.length = nx) (hx' : x'.length = nx) (h : toVec nx x = toVec nx x') : x = x' := by
  refine List.ext_getElem (hx.trans hx'.symm) fun j h1 h2 => ?_
  have := congrFun h ⟨j, by omega⟩
  rwa [toVec, toVec, getD_of_lt _ _ h1, getD_of_lt _ _ h2] at this

theorem linear_states_exist {c K : List ℝ} {J : List (List ℝ)} {N : Nat} (h : PointsOK c J N)
    (hK : ∀ q : ℝ[X], q.natDegree ≤ 2 * N - 1 → ∑ l ∈ Finset.range (N + 1), K.getD l 0 * q.eval (c.getD l 0) = integral q 0 1) {t : List ℝ} {P : Nat}
    (ht : ∀ i < P, t.getD i 0 < t.getD (i + 1) 0) {H S : Matrix (Fin nx) (Fin nx) ℝ} (hS : Dissipative H S) {φ : Nat → Nat → List ℝ → List ℝ}
    (hφ : ∀ i < P, ∀ l ≤ N, AffineWith S (φ i l)) {x0 : List ℝ} (h0 : x0.length = nx) :
    ∃ x : Nat → List ℝ, (∀ r, (x r).length = nx) ∧ x 0 = x0 ∧
      ∀ i < P, ∀ a ∈ defects J (fun l => φ i l (x (i * N + l))) (fun l => x (i * N + l)) N nx 0 (t.getD (i + 1) 0 - t.getD i 0), a = 0 := by
  obtain ⟨y, y0, hy⟩ := glue_pieces J (N := N) (nx := nx) (len := fun i => t.getD (i + 1) 0 - t.getD i 0) P (fun i l a => toVec nx (φ i l (List.ofFn a)))
    (fun i hi x0 => by
      obtain ⟨x, hx0, hx⟩ := piece_linear_solution h hK (sub_pos.2 (ht i hi)) (dissipative_unit hS N (sub_pos.2 (ht i hi)))
        (fun l => toVec nx (φ i l (List.ofFn (0 : Fin nx → ℝ)))) x0
      refine ⟨x, hx0, fun k hk j => ?_⟩
      refine Eq.trans ?_ (hx k hk j)
      congr 2
      refine Finset.sum_congr rfl fun l hl => ?_
      have := hφ i hi l (by have := Finset.mem_range.1 hl; omega) (List.ofFn (x l)) (List.ofFn (0 : Fin nx → ℝ)) (by simp) (by simp)
      rw [toVec_ofFn, toVec_ofFn, sub_zero, sub_eq_iff_eq_add] at this
      rw [this]) (toVec nx x0)
  refine ⟨fun r => List.ofFn (y r), fun r => by simp, ?_, fun i hi => ?_⟩
  · exact toVec_ext (by simp) h0 (by rw [toVec_ofFn, y0])
  · rw [defects_zero_iff]
    intro j hj k hk
    have := hy i hi k hk ⟨j, hj⟩
    have hof : ∀ r, (List.ofFn (y r)).getD j 0 = y r ⟨j, hj⟩ := fun r => congrFun (toVec_ofFn (y r)) ⟨j, hj⟩
    simp only [hof, Nat.zero_add]
    exact this

theorem linear_states_step {c K : List ℝ} {J : List (List ℝ)} {N : Nat} (h : PointsOK c J N)
    (hK : ∀ q : ℝ[X], q.natDegree ≤ 2 * N - 1 → ∑ l ∈ Finset.range (N + 1), K.getD l 0 * q.eval (c.getD l 0) = integral q 0 1) {len : ℝ}
    (hlen : 0 < len) {H S : Matrix (Fin nx) (Fin nx) ℝ} (hS : Dissipative H S) {φ : Nat → List ℝ → List ℝ}
    (hφ : ∀ l ≤ N, AffineWith S (φ l)) {x x' : Nat → List ℝ} (hx : ∀ l ≤ N, (x l).length = nx) (hx' : ∀ l ≤ N, (x' l).length = nx)
    (hd : ∀ a ∈ defects J (fun l => φ l (x l)) x N nx 0 len, a = 0) (hd' : ∀ a ∈ defects J (fun l => φ l (x' l)) x' N nx 0 len, a = 0) :
    (toVec nx (x N) - toVec nx (x' N)) ⬝ᵥ H *ᵥ (toVec nx (x N) - toVec nx (x' N)) ≤ (toVec nx (x 0) - toVec nx (x' 0)) ⬝ᵥ H *ᵥ (toVec nx (x 0) - toVec nx (x' 0)) ∧
      (x 0 = x' 0 → ∀ l ≤ N, x l = x' l) := by
  have hdiff : ∀ l ≤ N, toVec nx (φ l (x l)) - toVec nx (φ l (x' l)) = S *ᵥ (toVec nx (x l) - toVec nx (x' l)) := fun l hl =>
    hφ l hl _ _ (hx l hl) (hx' l hl)
  refine ⟨pade_step hS hlen (piece_pade_defects h hK hlen hd hd' hdiff), fun h0 l hl => toVec_ext (hx l hl) (hx' l hl) (sub_eq_zero.1 ?_)⟩
  refine piece_zero h hK hlen (dissipative_unit hS N hlen) (x := fun l => toVec nx (x l) - toVec nx (x' l))
    (rhs := fun l => toVec nx (φ l (x l)) - toVec nx (φ l (x' l))) (fun j k hk => ?_) hdiff (by simp [h0]) l hl
  have h1 := defects_zero_iff.1 hd j j.2 k hk
  have h2 := defects_zero_iff.1 hd' j j.2 k hk
  simp only [Nat.zero_add] at h1 h2
  simp only [Pi.sub_apply, toVec, mul_sub, Finset.sum_sub_distrib]
  linear_combination h1 - h2

/-- Two feasible points of the same system: the distance at the ends of the pieces does not increase, and they are the same if they start at the same state. -/
theorem linear_states_stable {c K : List ℝ} {J : List (List ℝ)} {N : Nat} (h : PointsOK c J N)
    (hK : ∀ q : ℝ[X], q.natDegree ≤ 2 * N - 1 → ∑ l ∈ Finset.range (N + 1), K.getD l 0 * q.eval (c.getD l 0) = integral q 0 1) {t : List ℝ} {P : Nat}
    (hP : 1 ≤ P) (ht : ∀ i < P, t.getD i 0 < t.getD (i + 1) 0) {H S : Matrix (Fin nx) (Fin nx) ℝ} (hS : Dissipative H S) {φ : Nat → Nat → List ℝ → List ℝ}
    (hφ : ∀ i < P, ∀ l ≤ N, AffineWith S (φ i l)) {x x' : Nat → List ℝ} (hx : ∀ r ≤ P * N, (x r).length = nx) (hx' : ∀ r ≤ P * N, (x' r).length = nx)
    (hd : ∀ i < P, ∀ a ∈ defects J (fun l => φ i l (x (i * N + l))) (fun l => x (i * N + l)) N nx 0 (t.getD (i + 1) 0 - t.getD i 0), a = 0)
    (hd' : ∀ i < P, ∀ a ∈ defects J (fun l => φ i l (x' (i * N + l))) (fun l => x' (i * N + l)) N nx 0 (t.getD (i + 1) 0 - t.getD i 0), a = 0) :
    (∀ i < P, (toVec nx (x ((i + 1) * N)) - toVec nx (x' ((i + 1) * N))) ⬝ᵥ H *ᵥ (toVec nx (x ((i + 1) * N)) - toVec nx (x' ((i + 1) * N))) ≤
        (toVec nx (x (i * N)) - toVec nx (x' (i * N))) ⬝ᵥ H *ᵥ (toVec nx (x (i * N)) - toVec nx (x' (i * N)))) ∧
      (x 0 = x' 0 → ∀ r ≤ P * N, x r = x' r) := by
  have hle : ∀ i < P, ∀ l ≤ N, i * N + l ≤ P * N := fun i hi l hl => by
    have : (i + 1) * N ≤ P * N := Nat.mul_le_mul_right _ hi
    rw [Nat.add_mul] at this
    omega
  have hstep := fun i (hi : i < P) => linear_states_step h hK (sub_pos.2 (ht i hi)) hS (hφ i hi) (x := fun l => x (i * N + l)) (x' := fun l => x' (i * N + l))
    (fun l hl => hx _ (hle i hi l hl)) (fun l hl => hx' _ (hle i hi l hl)) (hd i hi) (hd' i hi)
  refine ⟨fun i hi => ?_, fun h0 => ?_⟩
  · rw [Nat.add_mul, Nat.one_mul]
    exact (hstep i hi).1
  · have hends : ∀ i ≤ P, x (i * N) = x' (i * N) := fun i => by
      induction i with
      | zero => intro _; rwa [Nat.zero_mul]
      | succ i ih =>
        intro hi
        rw [Nat.add_mul, Nat.one_mul]
        exact (hstep i hi).2 (ih (by omega)) N le_rfl
    intro r hr
    obtain ⟨i, hi, l, hl, rfl⟩ := nat_piece h.pos hP hr
    exact (hstep i hi).2 (hends i hi.le) l hl

end Ceacoest
