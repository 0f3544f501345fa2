import Mathlib.Analysis.Calculus.MeanValue
import Mathlib.Analysis.Calculus.Deriv.Pow
import Mathlib.Analysis.Calculus.Deriv.Comp
import Mathlib.Analysis.Normed.Operator.Basic
import Mathlib.Analysis.SpecialFunctions.Exp
import Mathlib.Topology.Order.Compact

/-! # Convergence of one-step methods for linear differential equations in a normed space -/

namespace Ceacoest.OneStep
open Set

variable {E : Type} [NormedAddCommGroup E] [NormedSpace ℝ E]

/-- A function whose derivative is at most `M s^k` is at most `M h^(k+1) / (k+1)`. -/
theorem integrate_bound (u u' : ℝ → E) (hu : ∀ s, HasDerivAt u (u' s) s) (h0 : u 0 = 0) (M : ℝ) (k : Nat) (h : ℝ) (hh : 0 ≤ h)
    (hb : ∀ s ∈ Icc 0 h, ‖u' s‖ ≤ M * s ^ k) : ‖u h‖ ≤ M * h ^ (k + 1) / (k + 1) := by
  have hB : ∀ s : ℝ, HasDerivAt (fun s => M * s ^ (k + 1) / (k + 1)) (M * s ^ k) s := by
    intro s
    have hk : ((k : ℝ) + 1) ≠ 0 := by positivity
    refine (((hasDerivAt_pow (k + 1) s).const_mul M).div_const _).congr_deriv ?_
    push_cast
    field_simp
  exact image_norm_le_of_norm_deriv_right_le_deriv_boundary (f := u) (f' := u') (a := 0) (b := h)
    (fun s _ => (hu s).continuousAt.continuousWithinAt) (fun s _ => (hu s).hasDerivWithinAt) (by simp [h0]) hB
    (fun s hs => hb s ⟨hs.1, hs.2.le⟩) ⟨hh, le_rfl⟩

/-- Taylor's formula with the first derivative … -/
theorem taylor_two (z z1 z2 : ℝ → E) (h1 : ∀ s, HasDerivAt z (z1 s) s) (h2 : ∀ s, HasDerivAt z1 (z2 s) s) (M t h : ℝ) (hh : 0 ≤ h)
    (hM : ∀ s ∈ Icc t (t + h), ‖z2 s‖ ≤ M) : ‖z (t + h) - (z t + h • z1 t)‖ ≤ M * h ^ 2 / 2 := by
  have hadd : ∀ s : ℝ, HasDerivAt (fun s => t + s) 1 s := fun s => (hasDerivAt_id' s).const_add t
  have d1 : ∀ s : ℝ, HasDerivAt (fun s => z (t + s)) (z1 (t + s)) s := fun s => by
    exact ((h1 (t + s)).scomp s (hadd s)).congr_deriv (one_smul _ _)
  have d2 : ∀ s : ℝ, HasDerivAt (fun s => z1 (t + s)) (z2 (t + s)) s := fun s => by
    exact ((h2 (t + s)).scomp s (hadd s)).congr_deriv (one_smul _ _)
  have b1 : ∀ r ∈ Icc 0 h, ‖z1 (t + r) - z1 t‖ ≤ M * r ^ 1 := by
    intro r hr
    have := integrate_bound (fun s => z1 (t + s) - z1 t) (fun s => z2 (t + s)) (fun s => (d2 s).sub_const _) (by simp) M 0 r hr.1
      (fun s hs => by simpa using hM (t + s) ⟨by linarith [hs.1], by linarith [hs.2, hr.2]⟩)
    simpa using this
  have := integrate_bound (fun s => z (t + s) - (z t + s • z1 t)) (fun s => z1 (t + s) - z1 t)
    (fun s => (d1 s).sub (by simpa using ((hasDerivAt_id' s).smul_const (z1 t)).const_add (z t))) (by simp) M 1 h hh b1
  refine this.trans (le_of_eq ?_)
  norm_num

/-- … and with the first two. -/
theorem taylor_three (z z1 z2 z3 : ℝ → E) (h1 : ∀ s, HasDerivAt z (z1 s) s) (h2 : ∀ s, HasDerivAt z1 (z2 s) s)
    (h3 : ∀ s, HasDerivAt z2 (z3 s) s) (M t h : ℝ) (hh : 0 ≤ h) (hM : ∀ s ∈ Icc t (t + h), ‖z3 s‖ ≤ M) :
    ‖z (t + h) - (z t + h • z1 t + (h ^ 2 / 2) • z2 t)‖ ≤ M * h ^ 3 / 6 := by
  have hadd : ∀ s : ℝ, HasDerivAt (fun s => t + s) 1 s := fun s => (hasDerivAt_id' s).const_add t
  have d1 : ∀ s : ℝ, HasDerivAt (fun s => z (t + s)) (z1 (t + s)) s := fun s => by
    exact ((h1 (t + s)).scomp s (hadd s)).congr_deriv (one_smul _ _)
  have b1 : ∀ r ∈ Icc 0 h, ‖z1 (t + r) - (z1 t + r • z2 t)‖ ≤ M / 2 * r ^ 2 := by
    intro r hr
    refine (taylor_two z1 z2 z3 h2 h3 M t r hr.1 fun s hs => hM s ⟨hs.1, by linarith [hs.2, hr.2]⟩).trans (le_of_eq (by ring))
  have dsq : ∀ s : ℝ, HasDerivAt (fun s : ℝ => s ^ 2 / 2) s s := fun s =>
    ((hasDerivAt_pow 2 s).div_const 2).congr_deriv (by norm_num)
  have := integrate_bound (fun s => z (t + s) - (z t + s • z1 t + (s ^ 2 / 2) • z2 t)) (fun s => z1 (t + s) - (z1 t + s • z2 t))
    (fun s => (d1 s).sub (((((hasDerivAt_id' s).smul_const (z1 t)).const_add (z t)).add ((dsq s).smul_const (z2 t))).congr_deriv (by rw [one_smul]))) (by simp) (M / 2) 2 h hh b1
  refine this.trans (le_of_eq ?_)
  push_cast
  ring

/-- A method that is consistent of order `p` along the solution and stable converges with order `p`. -/
theorem accumulate (S : E → E) (z : ℝ → E) (K c T h : ℝ) (p N : Nat) (hK : 0 ≤ K) (hc : 0 ≤ c) (hh : 0 ≤ h) (hN : N * h = T)
    (hstep : ∀ t ∈ Icc 0 T, t + h ≤ T → ‖S (z t) - z (t + h)‖ ≤ c * h ^ (p + 1))
    (hlip : ∀ v w, ‖S v - S w‖ ≤ (1 + K * h) * ‖v - w‖) (j : Nat) (hj : j ≤ N) :
    ‖S^[j] (z 0) - z (j * h)‖ ≤ c * T * Real.exp (K * T) * h ^ p := by
  have hKh : 0 ≤ K * h := mul_nonneg hK hh
  have key : ∀ j, j ≤ N → ‖S^[j] (z 0) - z (j * h)‖ ≤ j * (c * h ^ (p + 1)) * (1 + K * h) ^ j := by
    intro j
    induction j with
    | zero => intro _; simp
    | succ j ih =>
      intro hj
      have ih := ih (by omega)
      have hjN : ((j : ℝ) + 1) ≤ N := by exact_mod_cast hj
      have hjT : (j : ℝ) * h + h ≤ T := by
        rw [← hN]; nlinarith
      have e1 := hstep (j * h) ⟨by positivity, by linarith⟩ hjT
      have e2 := hlip (S^[j] (z 0)) (z (j * h))
      rw [Function.iterate_succ_apply']
      have e3 : z ((j + 1 : ℕ) * h) = z (j * h + h) := by congr 1; push_cast; ring
      rw [e3]
      have e4 : ‖S (S^[j] (z 0)) - z (j * h + h)‖ ≤ ‖S (S^[j] (z 0)) - S (z (j * h))‖ + ‖S (z (j * h)) - z (j * h + h)‖ := by
        refine le_trans (le_of_eq ?_) (norm_add_le _ _)
        congr 1
        abel
      have h1 : 1 ≤ (1 + K * h) ^ (j + 1) := one_le_pow₀ (by linarith)
      have hcp : 0 ≤ c * h ^ (p + 1) := by positivity
      have e5 : (1 + K * h) * ‖S^[j] (z 0) - z (j * h)‖ ≤ j * (c * h ^ (p + 1)) * (1 + K * h) ^ (j + 1) :=
        (mul_le_mul_of_nonneg_left ih (by linarith)).trans (le_of_eq (by ring))
      have e6 : c * h ^ (p + 1) ≤ c * h ^ (p + 1) * (1 + K * h) ^ (j + 1) := le_mul_of_one_le_right hcp h1
      push_cast
      linarith
  have hjN : (j : ℝ) ≤ N := by exact_mod_cast hj
  have hjT : (j : ℝ) * h ≤ T := by rw [← hN]; exact mul_le_mul_of_nonneg_right hjN hh
  have hT : 0 ≤ T := by rw [← hN]; positivity
  have hexp : (1 + K * h) ^ j ≤ Real.exp (K * T) := by
    have h1 : 1 + K * h ≤ Real.exp (K * h) := by linarith [Real.add_one_le_exp (K * h)]
    calc (1 + K * h) ^ j ≤ Real.exp (K * h) ^ j := pow_le_pow_left₀ (by linarith) h1 j
      _ = Real.exp (j * (K * h)) := (Real.exp_nat_mul _ _).symm
      _ ≤ Real.exp (K * T) := Real.exp_le_exp.2 (by nlinarith)
  calc _ ≤ j * (c * h ^ (p + 1)) * (1 + K * h) ^ j := key j hj
    _ = (j * h) * (c * h ^ p) * (1 + K * h) ^ j := by ring
    _ ≤ T * (c * h ^ p) * Real.exp (K * T) := by gcongr
    _ = _ := by ring

variable (A : E →L[ℝ] E) (b : E)

/-- The solution of a linear differential equation is bounded on an interval. -/
theorem solution_bounded (z : ℝ → E) (hz : ∀ s, HasDerivAt z (A (z s) + b) s) (T : ℝ) : ∃ B, 0 ≤ B ∧ ∀ s ∈ Icc 0 T, ‖z s‖ ≤ B := by
  have hcont : ContinuousOn (fun s => ‖z s‖) (Icc 0 T) := fun s _ => (hz s).continuousAt.norm.continuousWithinAt
  obtain ⟨B, hB⟩ := isCompact_Icc.bddAbove_image hcont
  exact ⟨max B 0, le_max_right _ _, fun s hs => (hB ⟨s, hs, rfl⟩).trans (le_max_left _ _)⟩

/-- The first-order method with a perturbation of second order. -/
theorem order_one (R : E →L[ℝ] E) (z : ℝ → E) (hz : ∀ s, HasDerivAt z (A (z s) + b) s) (T : ℝ) (hT : 0 ≤ T) :
    ∃ c K, 0 ≤ c ∧ 0 ≤ K ∧ ∀ h, 0 ≤ h → h ≤ T → ∀ S : E → E, (∀ v, S v = v + h • (A v + b) + h ^ 2 • R v) →
      (∀ t ∈ Icc 0 T, t + h ≤ T → ‖S (z t) - z (t + h)‖ ≤ c * h ^ 2) ∧ ∀ v w, ‖S v - S w‖ ≤ (1 + K * h) * ‖v - w‖ := by
  obtain ⟨B, hB0, hB⟩ := solution_bounded A b z hz T
  refine ⟨‖A‖ * (‖A‖ * B + ‖b‖) / 2 + ‖R‖ * B, ‖A‖ + T * ‖R‖, by positivity, by positivity, fun h hh hhT S hS => ⟨fun t ht htT => ?_, fun v w => ?_⟩⟩
  · have hd : ∀ s, HasDerivAt (fun s => A (z s) + b) (A (A (z s) + b)) s := fun s => (A.hasFDerivAt.comp_hasDerivAt s (hz s)).add_const b
    have htay := taylor_two z (fun s => A (z s) + b) (fun s => A (A (z s) + b)) hz hd (‖A‖ * (‖A‖ * B + ‖b‖)) t h hh fun s hs => by
      refine (A.le_opNorm _).trans ?_
      gcongr
      refine (norm_add_le _ _).trans ?_
      gcongr
      refine (A.le_opNorm _).trans ?_
      gcongr
      exact hB s ⟨ht.1.trans hs.1, hs.2.trans htT⟩
    have hr : ‖h ^ 2 • R (z t)‖ ≤ h ^ 2 * (‖R‖ * B) := by
      rw [norm_smul, Real.norm_of_nonneg (by positivity)]
      gcongr
      exact (R.le_opNorm _).trans (by gcongr; exact hB t ht)
    rw [hS]
    have e : z t + h • (A (z t) + b) + h ^ 2 • R (z t) - z (t + h) = h ^ 2 • R (z t) - (z (t + h) - (z t + h • (A (z t) + b))) := by abel
    rw [e]
    refine (norm_sub_le _ _).trans ?_
    linarith
  · rw [hS, hS]
    have e : v + h • (A v + b) + h ^ 2 • R v - (w + h • (A w + b) + h ^ 2 • R w) = (v - w) + h • A (v - w) + h ^ 2 • R (v - w) := by
      rw [map_sub, map_sub]; module
    rw [e]
    have n1 : ‖h • A (v - w)‖ ≤ h * (‖A‖ * ‖v - w‖) := by
      rw [norm_smul, Real.norm_of_nonneg hh]; gcongr; exact A.le_opNorm _
    have n2 : ‖h ^ 2 • R (v - w)‖ ≤ h * T * (‖R‖ * ‖v - w‖) := by
      rw [norm_smul, Real.norm_of_nonneg (by positivity), pow_two]; gcongr; exact R.le_opNorm _
    calc _ ≤ ‖v - w‖ + ‖h • A (v - w)‖ + ‖h ^ 2 • R (v - w)‖ := norm_add₃_le
      _ ≤ ‖v - w‖ + h * (‖A‖ * ‖v - w‖) + h * T * (‖R‖ * ‖v - w‖) := by gcongr
      _ = _ := by ring

/-- The second-order method with a perturbation of third order. -/
theorem order_two (R R' : E →L[ℝ] E) (r : E) (z : ℝ → E) (hz : ∀ s, HasDerivAt z (A (z s) + b) s) (T : ℝ) (hT : 0 ≤ T) :
    ∃ c K, 0 ≤ c ∧ 0 ≤ K ∧ ∀ h, 0 ≤ h → h ≤ T → ∀ S : E → E,
      (∀ v, S v = v + h • (A v + b) + (h ^ 2 / 2) • A (A v + b) + h ^ 3 • (R v + h • R' v + r)) →
      (∀ t ∈ Icc 0 T, t + h ≤ T → ‖S (z t) - z (t + h)‖ ≤ c * h ^ 3) ∧ ∀ v w, ‖S v - S w‖ ≤ (1 + K * h) * ‖v - w‖ := by
  obtain ⟨B, hB0, hB⟩ := solution_bounded A b z hz T
  refine ⟨‖A‖ * (‖A‖ * (‖A‖ * B + ‖b‖)) / 6 + (‖R‖ * B + T * (‖R'‖ * B) + ‖r‖), ‖A‖ + T / 2 * (‖A‖ * ‖A‖) + T ^ 2 * (‖R‖ + T * ‖R'‖),
    by positivity, by positivity, fun h hh hhT S hS => ⟨fun t ht htT => ?_, fun v w => ?_⟩⟩
  · have hd : ∀ s, HasDerivAt (fun s => A (z s) + b) (A (A (z s) + b)) s := fun s => (A.hasFDerivAt.comp_hasDerivAt s (hz s)).add_const b
    have hd2 : ∀ s, HasDerivAt (fun s => A (A (z s) + b)) (A (A (A (z s) + b))) s := fun s => A.hasFDerivAt.comp_hasDerivAt s (hd s)
    have htay := taylor_three z (fun s => A (z s) + b) (fun s => A (A (z s) + b)) (fun s => A (A (A (z s) + b))) hz hd hd2
      (‖A‖ * (‖A‖ * (‖A‖ * B + ‖b‖))) t h hh fun s hs => by
      refine (A.le_opNorm _).trans ?_
      gcongr
      refine (A.le_opNorm _).trans ?_
      gcongr
      refine (norm_add_le _ _).trans ?_
      gcongr
      refine (A.le_opNorm _).trans ?_
      gcongr
      exact hB s ⟨ht.1.trans hs.1, hs.2.trans htT⟩
    have hr : ‖h ^ 3 • (R (z t) + h • R' (z t) + r)‖ ≤ h ^ 3 * (‖R‖ * B + T * (‖R'‖ * B) + ‖r‖) := by
      rw [norm_smul, Real.norm_of_nonneg (by positivity)]
      gcongr
      refine norm_add₃_le.trans ?_
      gcongr
      · exact (R.le_opNorm _).trans (by gcongr; exact hB t ht)
      · rw [norm_smul, Real.norm_of_nonneg hh]
        gcongr
        exact (R'.le_opNorm _).trans (by gcongr; exact hB t ht)
    rw [hS]
    have e : z t + h • (A (z t) + b) + (h ^ 2 / 2) • A (A (z t) + b) + h ^ 3 • (R (z t) + h • R' (z t) + r) - z (t + h) =
        h ^ 3 • (R (z t) + h • R' (z t) + r) - (z (t + h) - (z t + h • (A (z t) + b) + (h ^ 2 / 2) • A (A (z t) + b))) := by abel
    rw [e]
    refine (norm_sub_le _ _).trans ?_
    linarith
  · rw [hS, hS]
    have e : v + h • (A v + b) + (h ^ 2 / 2) • A (A v + b) + h ^ 3 • (R v + h • R' v + r) -
        (w + h • (A w + b) + (h ^ 2 / 2) • A (A w + b) + h ^ 3 • (R w + h • R' w + r)) =
        (v - w) + h • A (v - w) + ((h ^ 2 / 2) • A (A (v - w)) + h ^ 3 • (R (v - w) + h • R' (v - w))) := by
      simp only [map_sub, map_add]; module
    rw [e]
    have n1 : ‖h • A (v - w)‖ ≤ h * (‖A‖ * ‖v - w‖) := by
      rw [norm_smul, Real.norm_of_nonneg hh]; gcongr; exact A.le_opNorm _
    have n2 : ‖(h ^ 2 / 2) • A (A (v - w))‖ ≤ h * T / 2 * (‖A‖ * (‖A‖ * ‖v - w‖)) := by
      rw [norm_smul, Real.norm_of_nonneg (by positivity), pow_two]
      gcongr
      refine (A.le_opNorm _).trans ?_
      gcongr
      exact A.le_opNorm _
    have n3 : ‖h ^ 3 • (R (v - w) + h • R' (v - w))‖ ≤ h * T ^ 2 * (‖R‖ * ‖v - w‖ + T * (‖R'‖ * ‖v - w‖)) := by
      rw [norm_smul, Real.norm_of_nonneg (by positivity), show h ^ 3 = h * h ^ 2 by ring]
      gcongr
      refine (norm_add_le _ _).trans ?_
      gcongr
      · exact R.le_opNorm _
      · rw [norm_smul, Real.norm_of_nonneg hh]
        gcongr
        exact R'.le_opNorm _
    calc _ ≤ ‖v - w‖ + ‖h • A (v - w)‖ + ‖(h ^ 2 / 2) • A (A (v - w)) + h ^ 3 • (R (v - w) + h • R' (v - w))‖ := norm_add₃_le
      _ ≤ ‖v - w‖ + ‖h • A (v - w)‖ + (‖(h ^ 2 / 2) • A (A (v - w))‖ + ‖h ^ 3 • (R (v - w) + h • R' (v - w))‖) := by
        gcongr; exact norm_add_le _ _
      _ ≤ ‖v - w‖ + h * (‖A‖ * ‖v - w‖) + (h * T / 2 * (‖A‖ * (‖A‖ * ‖v - w‖)) + h * T ^ 2 * (‖R‖ * ‖v - w‖ + T * (‖R'‖ * ‖v - w‖))) := by
        gcongr
      _ = _ := by ring

end Ceacoest.OneStep
