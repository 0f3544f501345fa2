import Verif.Lemmas.SmoothList
import Mathlib.Analysis.SpecialFunctions.Log.Deriv
import Mathlib.Analysis.Complex.ExponentialBounds

/-! # Bounds of derivatives up to the third -/

namespace Ceacoest
open Spec TestOptim

/-- `F` has three derivatives, and the sum of their absolute values, weighted as in the Taylor series with step `ρ`, is at most `b` on `S`. -/
def Jet (ρ : ℝ) (S : Set ℝ) (F : ℝ → ℝ) (b : ℝ) : Prop :=
  ∃ F1 F2 F3 : ℝ → ℝ, (∀ t, HasDerivAt F (F1 t) t ∧ HasDerivAt F1 (F2 t) t ∧ HasDerivAt F2 (F3 t) t) ∧
    ∀ t ∈ S, |F t| + |F1 t| * ρ + |F2 t| * ρ ^ 2 / 2 + |F3 t| * ρ ^ 3 / 6 ≤ b

variable {ρ : ℝ} {S : Set ℝ} {F G : ℝ → ℝ} {b b' : ℝ}

theorem Jet.mono (h : Jet ρ S F b) (hb : b ≤ b') : Jet ρ S F b' := by
  obtain ⟨F1, F2, F3, h1, h2⟩ := h
  exact ⟨F1, F2, F3, h1, fun t ht => (h2 t ht).trans hb⟩

theorem Jet.const (c : ℝ) (hc : |c| ≤ b) : Jet ρ S (fun _ => c) b :=
  ⟨fun _ => 0, fun _ => 0, fun _ => 0, fun t => ⟨hasDerivAt_const _ _, hasDerivAt_const _ _, hasDerivAt_const _ _⟩, fun t _ => by simpa using hc⟩

theorem Jet.id {R : ℝ} (hR : ∀ t ∈ S, |t| ≤ R) : Jet ρ S (fun t => t) (R + ρ) :=
  ⟨fun _ => 1, fun _ => 0, fun _ => 0, fun t => ⟨hasDerivAt_id t, hasDerivAt_const _ _, hasDerivAt_const _ _⟩, fun t ht => by simpa using hR t ht⟩

theorem Jet.add (hρ : 0 ≤ ρ) (hF : Jet ρ S F b) (hG : Jet ρ S G b') : Jet ρ S (fun t => F t + G t) (b + b') := by
  obtain ⟨F1, F2, F3, f1, f2⟩ := hF
  obtain ⟨G1, G2, G3, g1, g2⟩ := hG
  refine ⟨fun t => F1 t + G1 t, fun t => F2 t + G2 t, fun t => F3 t + G3 t,
    fun t => ⟨(f1 t).1.add (g1 t).1, (f1 t).2.1.add (g1 t).2.1, (f1 t).2.2.add (g1 t).2.2⟩, fun t ht => ?_⟩
  have h0 := abs_add_le (F t) (G t)
  have h1 := mul_le_mul_of_nonneg_right (abs_add_le (F1 t) (G1 t)) hρ
  have h2 := mul_le_mul_of_nonneg_right (abs_add_le (F2 t) (G2 t)) (pow_nonneg hρ 2)
  have h3 := mul_le_mul_of_nonneg_right (abs_add_le (F3 t) (G3 t)) (pow_nonneg hρ 3)
  have := f2 t ht
  have := g2 t ht
  linarith

theorem Jet.mul (hρ : 0 ≤ ρ) (hF : Jet ρ S F b) (hG : Jet ρ S G b') : Jet ρ S (fun t => F t * G t) (b * b') := by
  obtain ⟨F1, F2, F3, f1, f2⟩ := hF
  obtain ⟨G1, G2, G3, g1, g2⟩ := hG
  refine ⟨fun t => F1 t * G t + F t * G1 t, fun t => F2 t * G t + 2 * (F1 t * G1 t) + F t * G2 t,
    fun t => F3 t * G t + 3 * (F2 t * G1 t) + 3 * (F1 t * G2 t) + F t * G3 t, fun t => ⟨(f1 t).1.mul (g1 t).1, ?_, ?_⟩, fun t ht => ?_⟩
  · refine (((f1 t).2.1.mul (g1 t).1).add ((f1 t).1.mul (g1 t).2.1)).congr_deriv ?_
    ring
  · refine ((((f1 t).2.2.mul (g1 t).1).add (((f1 t).2.1.mul (g1 t).2.1).const_mul 2)).add ((f1 t).1.mul (g1 t).2.2)).congr_deriv ?_
    ring
  · have e0 : |F t * G t| = |F t| * |G t| := abs_mul _ _
    have e1 : |F1 t * G t + F t * G1 t| ≤ |F1 t| * |G t| + |F t| * |G1 t| := by
      rw [← abs_mul, ← abs_mul]
      exact abs_add_le _ _
    have e2 : |F2 t * G t + 2 * (F1 t * G1 t) + F t * G2 t| ≤ |F2 t| * |G t| + 2 * (|F1 t| * |G1 t|) + |F t| * |G2 t| := by
      have h2 : |2 * (F1 t * G1 t)| = 2 * (|F1 t| * |G1 t|) := by rw [abs_mul, abs_mul, abs_of_pos (by norm_num : (0 : ℝ) < 2)]
      rw [← abs_mul, ← h2, ← abs_mul (F t)]
      exact (abs_add_le _ _).trans (add_le_add_left (abs_add_le _ _) _)
    have e3 : |F3 t * G t + 3 * (F2 t * G1 t) + 3 * (F1 t * G2 t) + F t * G3 t| ≤
        |F3 t| * |G t| + 3 * (|F2 t| * |G1 t|) + 3 * (|F1 t| * |G2 t|) + |F t| * |G3 t| := by
      have h1 : |3 * (F2 t * G1 t)| = 3 * (|F2 t| * |G1 t|) := by rw [abs_mul, abs_mul, abs_of_pos (by norm_num : (0 : ℝ) < 3)]
      have h2 : |3 * (F1 t * G2 t)| = 3 * (|F1 t| * |G2 t|) := by rw [abs_mul, abs_mul, abs_of_pos (by norm_num : (0 : ℝ) < 3)]
      rw [← abs_mul, ← h1, ← h2, ← abs_mul (F t)]
      exact (abs_add_le _ _).trans (add_le_add_left ((abs_add_le _ _).trans (add_le_add_left (abs_add_le _ _) _)) _)
    have hf := f2 t ht
    have hg := g2 t ht
    have a0 := abs_nonneg (F t)
    have a1 := abs_nonneg (F1 t)
    have a2 := abs_nonneg (F2 t)
    have a3 := abs_nonneg (F3 t)
    have c0 := abs_nonneg (G t)
    have c1 := abs_nonneg (G1 t)
    have c2 := abs_nonneg (G2 t)
    have c3 := abs_nonneg (G3 t)
    have m1 := mul_le_mul_of_nonneg_right e1 hρ
    have m2 := mul_le_mul_of_nonneg_right e2 (pow_nonneg hρ 2)
    have m3 := mul_le_mul_of_nonneg_right e3 (pow_nonneg hρ 3)
    generalize |F t| = p0 at *
    generalize |F1 t| = p1 at *
    generalize |F2 t| = p2 at *
    generalize |F3 t| = p3 at *
    generalize |G t| = q0 at *
    generalize |G1 t| = q1 at *
    generalize |G2 t| = q2 at *
    generalize |G3 t| = q3 at *
    have hle : (p0 + p1 * ρ + p2 * ρ ^ 2 / 2 + p3 * ρ ^ 3 / 6) * (q0 + q1 * ρ + q2 * ρ ^ 2 / 2 + q3 * ρ ^ 3 / 6) ≤ b * b' :=
      mul_le_mul hf hg (by positivity) (le_trans (by positivity) hf)
    have hd : (p0 + p1 * ρ + p2 * ρ ^ 2 / 2 + p3 * ρ ^ 3 / 6) * (q0 + q1 * ρ + q2 * ρ ^ 2 / 2 + q3 * ρ ^ 3 / 6) =
        p0 * q0 + (p1 * q0 + p0 * q1) * ρ + (p2 * q0 + 2 * (p1 * q1) + p0 * q2) * ρ ^ 2 / 2 +
          (p3 * q0 + 3 * (p2 * q1) + 3 * (p1 * q2) + p0 * q3) * ρ ^ 3 / 6 +
        ρ ^ 4 * (p1 * q3 / 6 + p2 * q2 / 4 + p3 * q1 / 6 + ρ * (p2 * q3 / 12 + p3 * q2 / 12) + ρ ^ 2 * (p3 * q3 / 36)) := by ring
    have hn : 0 ≤ ρ ^ 4 * (p1 * q3 / 6 + p2 * q2 / 4 + p3 * q1 / 6 + ρ * (p2 * q3 / 12 + p3 * q2 / 12) + ρ ^ 2 * (p3 * q3 / 36)) := by positivity
    rw [e0]
    linarith

theorem exp_cubic {s : ℝ} (hs : 0 ≤ s) : 1 + s + s ^ 2 / 2 + s ^ 3 / 6 ≤ Real.exp s := by
  have := Real.sum_le_exp_of_nonneg hs 4
  simpa [Finset.sum_range_succ, Nat.factorial] using this

theorem Jet.exp (hρ : 0 ≤ ρ) (hF : Jet ρ S F b) : Jet ρ S (fun t => Real.exp (F t)) (Real.exp b) := by
  obtain ⟨F1, F2, F3, f1, f2⟩ := hF
  refine ⟨fun t => F1 t * Real.exp (F t), fun t => (F2 t + F1 t ^ 2) * Real.exp (F t), fun t => (F3 t + 3 * (F1 t * F2 t) + F1 t ^ 3) * Real.exp (F t),
    fun t => ⟨?_, ?_, ?_⟩, fun t ht => ?_⟩
  · exact (f1 t).1.exp.congr_deriv (mul_comm _ _)
  · refine ((f1 t).2.1.mul (f1 t).1.exp).congr_deriv ?_
    ring
  · refine (((f1 t).2.2.add ((f1 t).2.1.pow 2)).mul (f1 t).1.exp).congr_deriv ?_
    simp only [Pi.add_apply, Pi.pow_apply]
    push_cast
    ring
  · have hE := Real.exp_pos (F t)
    have e2 : |(F2 t + F1 t ^ 2)| ≤ |F2 t| + |F1 t| ^ 2 := (abs_add_le _ _).trans (by rw [abs_pow])
    have e3 : |F3 t + 3 * (F1 t * F2 t) + F1 t ^ 3| ≤ |F3 t| + 3 * (|F1 t| * |F2 t|) + |F1 t| ^ 3 := by
      have h1 : |3 * (F1 t * F2 t)| = 3 * (|F1 t| * |F2 t|) := by rw [abs_mul, abs_mul, abs_of_pos (by norm_num : (0 : ℝ) < 3)]
      rw [← h1, ← abs_pow]
      exact (abs_add_le _ _).trans (add_le_add_left (abs_add_le _ _) _)
    have hf := f2 t ht
    have hle := le_abs_self (F t)
    have a1 := abs_nonneg (F1 t)
    have a2 := abs_nonneg (F2 t)
    have a3 := abs_nonneg (F3 t)
    rw [abs_mul, abs_mul, abs_mul, abs_of_pos hE]
    have m2 := mul_le_mul_of_nonneg_right e2 (mul_nonneg hE.le (pow_nonneg hρ 2))
    have m3 := mul_le_mul_of_nonneg_right e3 (mul_nonneg hE.le (pow_nonneg hρ 3))
    generalize |F1 t| = p1 at *
    generalize |F2 t| = p2 at *
    generalize |F3 t| = p3 at *
    set s := p1 * ρ + p2 * ρ ^ 2 / 2 + p3 * ρ ^ 3 / 6 with hs
    have hs0 : 0 ≤ s := by positivity
    have h1 := exp_cubic hs0
    have hq : p1 * ρ + (p2 + p1 ^ 2) * ρ ^ 2 / 2 + (p3 + 3 * (p1 * p2) + p1 ^ 3) * ρ ^ 3 / 6 ≤ s + s ^ 2 / 2 + s ^ 3 / 6 := by
      have hlow : p1 * ρ + p2 * ρ ^ 2 / 2 ≤ s := by
        rw [hs]
        have : 0 ≤ p3 * ρ ^ 3 / 6 := by positivity
        linarith
      have hlow' : p1 * ρ ≤ s := by
        have : 0 ≤ p2 * ρ ^ 2 / 2 := by positivity
        linarith
      have k2 : (p1 * ρ + p2 * ρ ^ 2 / 2) ^ 2 ≤ s ^ 2 := pow_le_pow_left₀ (by positivity) hlow 2
      have k3 : (p1 * ρ) ^ 3 ≤ s ^ 3 := pow_le_pow_left₀ (by positivity) hlow' 3
      have e : (p1 * ρ + p2 * ρ ^ 2 / 2) ^ 2 = p1 ^ 2 * ρ ^ 2 + p1 * p2 * ρ ^ 3 + p2 ^ 2 * ρ ^ 4 / 4 := by ring
      have : 0 ≤ p2 ^ 2 * ρ ^ 4 / 4 := by positivity
      nlinarith
    have hfin : Real.exp (F t) * (1 + (p1 * ρ + (p2 + p1 ^ 2) * ρ ^ 2 / 2 + (p3 + 3 * (p1 * p2) + p1 ^ 3) * ρ ^ 3 / 6)) ≤ Real.exp b := by
      refine le_trans (mul_le_mul_of_nonneg_left (le_trans (by linarith) h1) hE.le) ?_
      rw [← Real.exp_add]
      exact Real.exp_le_exp.2 (by linarith)
    linarith

theorem Jet.nonneg (hρ : 0 ≤ ρ) (hF : Jet ρ S F b) (hS : S.Nonempty) : 0 ≤ b := by
  obtain ⟨F1, F2, F3, -, h⟩ := hF
  obtain ⟨t, ht⟩ := hS
  exact le_trans (by positivity) (h t ht)

theorem Jet.restrict {S' : Set ℝ} (hF : Jet ρ S F b) (h : S' ⊆ S) : Jet ρ S' F b := by
  obtain ⟨F1, F2, F3, f1, f2⟩ := hF
  exact ⟨F1, F2, F3, f1, fun t ht => f2 t (h ht)⟩

theorem Jet.abs_le (hρ : 0 ≤ ρ) (hF : Jet ρ S F b) {t : ℝ} (ht : t ∈ S) : |F t| ≤ b := by
  obtain ⟨F1, F2, F3, -, h⟩ := hF
  have := h t ht
  have h1 : 0 ≤ |F1 t| * ρ + |F2 t| * ρ ^ 2 / 2 + |F3 t| * ρ ^ 3 / 6 := by positivity
  linarith

theorem Jet.cos (hρ : 0 ≤ ρ) : Jet ρ S Real.cos (1 + ρ + ρ ^ 2 / 2 + ρ ^ 3 / 6) := by
  refine ⟨fun t => -Real.sin t, fun t => -Real.cos t, fun t => Real.sin t, fun t => ⟨Real.hasDerivAt_cos t, (Real.hasDerivAt_sin t).neg, ?_⟩, fun t _ => ?_⟩
  · exact (Real.hasDerivAt_cos t).neg.congr_deriv (neg_neg _)
  · have hs := Real.abs_sin_le_one t
    have hc := Real.abs_cos_le_one t
    rw [abs_neg, abs_neg]
    have m1 := mul_le_mul_of_nonneg_right hs hρ
    have m2 := mul_le_mul_of_nonneg_right hc (pow_nonneg hρ 2)
    have m3 := mul_le_mul_of_nonneg_right hs (pow_nonneg hρ 3)
    linarith

theorem Jet.negSin (hρ : 0 ≤ ρ) : Jet ρ S (fun t => -Real.sin t) (1 + ρ + ρ ^ 2 / 2 + ρ ^ 3 / 6) := by
  refine ⟨fun t => -Real.cos t, fun t => Real.sin t, fun t => Real.cos t, fun t => ⟨(Real.hasDerivAt_sin t).neg, ?_, Real.hasDerivAt_sin t⟩, fun t _ => ?_⟩
  · exact (Real.hasDerivAt_cos t).neg.congr_deriv (neg_neg _)
  · have hs := Real.abs_sin_le_one t
    have hc := Real.abs_cos_le_one t
    rw [abs_neg, abs_neg]
    have m1 := mul_le_mul_of_nonneg_right hc hρ
    have m2 := mul_le_mul_of_nonneg_right hs (pow_nonneg hρ 2)
    have m3 := mul_le_mul_of_nonneg_right hc (pow_nonneg hρ 3)
    linarith

/-! ### The logarithm of `t ^ 2 + 2` -/

theorem log_d1 (t : ℝ) : HasDerivAt (fun t : ℝ => Real.log (t ^ 2 + 2)) (2 * t / (t ^ 2 + 2)) t := by
  have h : HasDerivAt (fun t : ℝ => t ^ 2 + 2) (2 * t) t := ((hasDerivAt_pow 2 t).add_const 2).congr_deriv (by norm_num)
  exact h.log (by positivity)

theorem log_d2 (t : ℝ) : HasDerivAt (fun t : ℝ => 2 * t / (t ^ 2 + 2)) ((4 - 2 * t ^ 2) / (t ^ 2 + 2) ^ 2) t := by
  have h : HasDerivAt (fun t : ℝ => t ^ 2 + 2) (2 * t) t := ((hasDerivAt_pow 2 t).add_const 2).congr_deriv (by norm_num)
  refine (((hasDerivAt_id t).const_mul 2).div h (by positivity)).congr_deriv ?_
  simp only [id]
  congr 1
  ring

theorem log_d3 (t : ℝ) : HasDerivAt (fun t : ℝ => (4 - 2 * t ^ 2) / (t ^ 2 + 2) ^ 2) ((4 * t ^ 3 - 24 * t) / (t ^ 2 + 2) ^ 3) t := by
  have h : HasDerivAt (fun t : ℝ => t ^ 2 + 2) (2 * t) t := ((hasDerivAt_pow 2 t).add_const 2).congr_deriv (by norm_num)
  have hn : HasDerivAt (fun t : ℝ => 4 - 2 * t ^ 2) (-(4 * t)) t := (((hasDerivAt_pow 2 t).const_mul 2).const_sub 4).congr_deriv (by norm_num; ring)
  refine (hn.div (h.pow 2) (show ((t ^ 2 + 2) ^ 2 : ℝ) ≠ 0 by positivity)).congr_deriv ?_
  have : (t ^ 2 + 2 : ℝ) ≠ 0 := by positivity
  simp only [Pi.pow_apply]
  field_simp
  push_cast
  ring

theorem log_d4 (t : ℝ) : HasDerivAt (fun t : ℝ => (4 * t ^ 3 - 24 * t) / (t ^ 2 + 2) ^ 3) ((-12 * t ^ 4 + 144 * t ^ 2 - 48) / (t ^ 2 + 2) ^ 4) t := by
  have h : HasDerivAt (fun t : ℝ => t ^ 2 + 2) (2 * t) t := ((hasDerivAt_pow 2 t).add_const 2).congr_deriv (by norm_num)
  have hn : HasDerivAt (fun t : ℝ => 4 * t ^ 3 - 24 * t) (12 * t ^ 2 - 24) t :=
    (((hasDerivAt_pow 3 t).const_mul 4).sub ((hasDerivAt_id t).const_mul 24)).congr_deriv (by norm_num; ring)
  refine (hn.div (h.pow 3) (show ((t ^ 2 + 2) ^ 3 : ℝ) ≠ 0 by positivity)).congr_deriv ?_
  have : (t ^ 2 + 2 : ℝ) ≠ 0 := by positivity
  simp only [Pi.pow_apply]
  field_simp
  push_cast
  ring

theorem log_bounds {t : ℝ} (ht : |t| ≤ 101 / 100) : |Real.log (t ^ 2 + 2)| ≤ 121 / 100 ∧ |2 * t / (t ^ 2 + 2)| ≤ 1 ∧ |(4 - 2 * t ^ 2) / (t ^ 2 + 2) ^ 2| ≤ 1 ∧
    |(4 * t ^ 3 - 24 * t) / (t ^ 2 + 2) ^ 3| ≤ 4 ∧ |(-12 * t ^ 4 + 144 * t ^ 2 - 48) / (t ^ 2 + 2) ^ 4| ≤ 13 := by
  have h2 : t ^ 2 ≤ (101 / 100) ^ 2 := sq_le_sq' (by linarith [neg_abs_le t]) ((le_abs_self t).trans ht)
  have h0 := sq_nonneg t
  have ht1 := le_abs_self t
  have ht2 := neg_abs_le t
  have hpos : (0 : ℝ) < t ^ 2 + 2 := by positivity
  have hden : (2 : ℝ) ≤ t ^ 2 + 2 := by linarith
  have hd2 : (4 : ℝ) ≤ (t ^ 2 + 2) ^ 2 := by nlinarith
  have hd3 : (8 : ℝ) ≤ (t ^ 2 + 2) ^ 3 := by nlinarith
  have hd4 : (16 : ℝ) ≤ (t ^ 2 + 2) ^ 4 := by nlinarith
  refine ⟨?_, ?_, ?_, ?_, ?_⟩
  · rw [abs_of_nonneg (Real.log_nonneg (by linarith))]
    have h1 : Real.log (t ^ 2 + 2) = Real.log 2 + Real.log ((t ^ 2 + 2) / 2) := by
      rw [← Real.log_mul (by norm_num) (by positivity)]
      congr 1
      ring
    have h3 := Real.log_le_sub_one_of_pos (show 0 < (t ^ 2 + 2) / 2 by positivity)
    have h4 := Real.log_two_lt_d9
    rw [h1]
    norm_num at h2
    linarith
  · rw [abs_div, abs_of_pos hpos, div_le_one hpos, abs_mul, abs_of_pos (by norm_num : (0 : ℝ) < 2)]
    nlinarith [sq_nonneg (|t| - 1), sq_abs t]
  · rw [abs_div, abs_of_pos (by positivity : (0 : ℝ) < (t ^ 2 + 2) ^ 2), div_le_one (by positivity), abs_le]
    constructor <;> nlinarith
  · rw [abs_div, abs_of_pos (by positivity : (0 : ℝ) < (t ^ 2 + 2) ^ 3), div_le_iff₀ (by positivity)]
    have : |4 * t ^ 3 - 24 * t| ≤ 32 := by
      rw [show 4 * t ^ 3 - 24 * t = t * (4 * t ^ 2 - 24) by ring, abs_mul, abs_of_neg (show 4 * t ^ 2 - 24 < 0 by nlinarith)]
      nlinarith [abs_nonneg t]
    linarith
  · rw [abs_div, abs_of_pos (by positivity : (0 : ℝ) < (t ^ 2 + 2) ^ 4), div_le_iff₀ (by positivity)]
    have : |-12 * t ^ 4 + 144 * t ^ 2 - 48| ≤ 208 := by
      rw [abs_le]
      constructor <;> nlinarith
    linarith

theorem Jet.log (hS : ∀ t ∈ S, |t| ≤ 101 / 100) : Jet (1 / 4) S (fun t => Real.log (t ^ 2 + 2)) (151 / 100) :=
  ⟨_, _, _, fun t => ⟨log_d1 t, log_d2 t, log_d3 t⟩, fun t ht => by
    obtain ⟨h0, h1, h2, h3, -⟩ := log_bounds (hS t ht)
    linarith⟩

theorem Jet.log' (hS : ∀ t ∈ S, |t| ≤ 101 / 100) : Jet (1 / 4) S (fun t => 2 * t / (t ^ 2 + 2)) (142 / 100) :=
  ⟨_, _, _, fun t => ⟨log_d2 t, log_d3 t, log_d4 t⟩, fun t ht => by
    obtain ⟨-, h0, h1, h2, h3⟩ := log_bounds (hS t ht)
    linarith⟩

/-! ### Functions of lists -/

/-- The values of the entry `i` between which differences are taken. -/
noncomputable def around (dec : List ℝ) (i : Nat) : Set ℝ := Set.Icc (dec.getD i 0 - step dec i) (dec.getD i 0 + step dec i)

/-- `φ` has partial derivatives everywhere, and along every entry `φ` and the partial derivatives have bounded derivatives. -/
def Tame (n : Nat) (dec : List ℝ) (ρ : ℝ) (φ : List ℝ → ℝ) (B : ℝ) : Prop :=
  ∃ (D : Nat → List ℝ → ℝ) (b c : ℝ), 0 ≤ b ∧ 0 ≤ c ∧ b + c * ρ ≤ B ∧
    (∀ d : List ℝ, d.length = n → ∀ j < n, HasDerivAt (fun t => φ (d.set j t)) (D j d) (d.getD j 0)) ∧
    (∀ i < n, Jet ρ (around dec i) (fun t => φ (dec.set i t)) b) ∧ ∀ i < n, ∀ j < n, Jet ρ (around dec i) (fun t => D j (dec.set i t)) c

variable {n : Nat} {dec : List ℝ} {φ ψ : List ℝ → ℝ} {B B' : ℝ}

theorem Tame.mono (h : Tame n dec ρ φ B) (hB : B ≤ B') : Tame n dec ρ φ B' := by
  obtain ⟨D, b, c, h1, h2, h3, h4⟩ := h
  exact ⟨D, b, c, h1, h2, h3.trans hB, h4⟩

theorem Tame.const (x : ℝ) (hB : |x| ≤ B) : Tame n dec ρ (fun _ => x) B :=
  ⟨fun _ _ => 0, |x|, 0, abs_nonneg _, le_rfl, by simpa using hB, fun d _ j _ => hasDerivAt_const _ _, fun i _ => Jet.const x le_rfl,
    fun i _ j _ => Jet.const 0 (by simp)⟩

theorem Tame.add (hρ : 0 ≤ ρ) (h : Tame n dec ρ φ B) (h' : Tame n dec ρ ψ B') : Tame n dec ρ (fun d => φ d + ψ d) (B + B') := by
  obtain ⟨D, b, c, h1, h2, h3, h4, h5, h6⟩ := h
  obtain ⟨D', b', c', h1', h2', h3', h4', h5', h6'⟩ := h'
  exact ⟨fun j d => D j d + D' j d, b + b', c + c', by positivity, by positivity, by linarith, fun d hd j hj => (h4 d hd j hj).add (h4' d hd j hj),
    fun i hi => (h5 i hi).add hρ (h5' i hi), fun i hi j hj => (h6 i hi j hj).add hρ (h6' i hi j hj)⟩

theorem self_set {d : List ℝ} {j : Nat} (hj : j < d.length) : d.set j (d.getD j 0) = d := by
  rw [List.getD_eq_getElem?_getD, List.getElem?_eq_getElem hj]
  exact List.set_getElem_self hj

theorem Tame.mul (hρ : 0 ≤ ρ) (h : Tame n dec ρ φ B) (h' : Tame n dec ρ ψ B') : Tame n dec ρ (fun d => φ d * ψ d) (B * B') := by
  obtain ⟨D, b, c, h1, h2, h3, h4, h5, h6⟩ := h
  obtain ⟨D', b', c', h1', h2', h3', h4', h5', h6'⟩ := h'
  refine ⟨fun j d => D j d * ψ d + φ d * D' j d, b * b', c * b' + b * c', by positivity, by positivity, ?_, fun d hd j hj => ?_,
    fun i hi => (h5 i hi).mul hρ (h5' i hi), fun i hi j hj => ((h6 i hi j hj).mul hρ (h5' i hi)).add hρ ((h5 i hi).mul hρ (h6' i hi j hj))⟩
  · have : (b + c * ρ) * (b' + c' * ρ) ≤ B * B' := mul_le_mul h3 h3' (by positivity) (le_trans (by positivity) h3)
    have h0 : 0 ≤ c * ρ * (c' * ρ) := by positivity
    nlinarith
  · have := (h4 d hd j hj).mul (h4' d hd j hj)
    simp only [self_set (show j < d.length by omega)] at this
    exact this

theorem Tame.exp (hρ : 0 ≤ ρ) (h : Tame n dec ρ φ B) : Tame n dec ρ (fun d => Real.exp (φ d)) (Real.exp B) := by
  obtain ⟨D, b, c, h1, h2, h3, h4, h5, h6⟩ := h
  refine ⟨fun j d => Real.exp (φ d) * D j d, Real.exp b, Real.exp b * c, (Real.exp_pos _).le, by positivity, ?_, fun d hd j hj => ?_,
    fun i hi => (h5 i hi).exp hρ, fun i hi j hj => ((h5 i hi).exp hρ).mul hρ (h6 i hi j hj)⟩
  · refine le_trans ?_ (Real.exp_le_exp.2 h3)
    rw [Real.exp_add, mul_assoc, ← mul_one_add]
    refine mul_le_mul_of_nonneg_left ?_ (Real.exp_pos b).le
    have := Real.add_one_le_exp (c * ρ)
    linarith
  · have := (h4 d hd j hj).exp
    simp only [self_set (show j < d.length by omega)] at this
    exact this

/-- All entries are between `-1` and `1`. -/
structure UnitBox (n : Nat) (dec : List ℝ) : Prop where
  length : dec.length = n
  le : ∀ i < n, |dec.getD i 0| ≤ 1

theorem UnitBox.step (h : UnitBox n dec) {i : Nat} (hi : i < n) : step dec i = 1 / 10 ^ 7 := by
  unfold TestOptim.step
  refine max_eq_right ?_
  have := (le_abs_self _).trans (h.le i hi)
  nlinarith

theorem UnitBox.around (h : UnitBox n dec) {i : Nat} (hi : i < n) : ∀ t ∈ around dec i, |t| ≤ 101 / 100 := fun t ht => by
  have h1 := abs_le.1 (h.le i hi)
  unfold Ceacoest.around at ht
  rw [h.step hi] at ht
  exact abs_le.2 ⟨by linarith [ht.1], by linarith [ht.2]⟩

theorem UnitBox.getD (h : UnitBox n dec) (k : Nat) : |dec.getD k 0| ≤ 101 / 100 := by
  by_cases hk : k < n
  · exact (h.le k hk).trans (by norm_num)
  · rw [List.getD_eq_getElem?_getD, List.getElem?_eq_none (by rw [h.length]; omega)]
    norm_num

/-- A function of one entry. -/
theorem Tame.entry (hρ : 0 ≤ ρ) (hbox : UnitBox n dec) {g g' : ℝ → ℝ} (hg : ∀ t, HasDerivAt g (g' t) t) (hb : Jet ρ {t | |t| ≤ 101 / 100} g b)
    (hc : Jet ρ {t | |t| ≤ 101 / 100} g' b') (k : Nat) : Tame n dec ρ (fun d => g (d.getD k 0)) (b + b' * ρ) := by
  have hne : ({t : ℝ | |t| ≤ 101 / 100}).Nonempty := ⟨0, by norm_num⟩
  have hb0 := hb.nonneg hρ hne
  have hc0 := hc.nonneg hρ hne
  refine ⟨fun j d => if k = j then g' (d.getD k 0) else 0, b, b', hb0, hc0, le_rfl, fun d hd j hj => ?_, fun i hi => ?_, fun i hi j hj => ?_⟩
  · by_cases h : k = j
    · subst h
      simp only [getD_set d (show k < d.length by omega), if_true]
      exact hg _
    · simp only [getD_set d (show j < d.length by omega), if_neg h]
      exact hasDerivAt_const _ _
  · simp only [getD_set dec (show i < dec.length by rw [hbox.length]; exact hi)]
    by_cases h : k = i
    · simp only [if_pos h]
      exact hb.restrict (hbox.around hi)
    · simp only [if_neg h]
      exact Jet.const _ (hb.abs_le hρ (hbox.getD k))
  · by_cases hkj : k = j
    · simp only [if_pos hkj, getD_set dec (show i < dec.length by rw [hbox.length]; exact hi)]
      by_cases h : k = i
      · simp only [if_pos h]
        exact hc.restrict (hbox.around hi)
      · simp only [if_neg h]
        exact Jet.const _ (hc.abs_le hρ (hbox.getD k))
    · simp only [if_neg hkj]
      exact Jet.const 0 (by simpa using hc0)

/-- A sum with weights. -/
theorem Tame.sum (hρ : 0 ≤ ρ) (w : Nat → ℝ) {f : Nat → List ℝ → ℝ} (m : Nat) (h : ∀ k < m, Tame n dec ρ (f k) B) :
    Tame n dec ρ (fun d => ∑ k ∈ Finset.range m, w k * f k d) ((∑ k ∈ Finset.range m, |w k|) * B) := by
  induction m with
  | zero => simpa using Tame.const 0 (by simp)
  | succ m ih =>
    simp only [Finset.sum_range_succ, add_mul]
    exact (ih fun k hk => h k (by omega)).add hρ ((Tame.const (w m) le_rfl).mul hρ (h m (by omega)))

/-- Tame functions are smooth in the sense of the tests. -/
theorem Tame.around (hρ : 0 < ρ) (hρ1 : ρ ≤ 1) (hdec : dec.length = n) (h : Tame n dec ρ φ B) : SmoothAround φ n dec (6 * B / ρ ^ 4) := by
  obtain ⟨D, b, c, h1, h2, h3, h4, h5, h6⟩ := h
  have key : ∀ {F : ℝ → ℝ} {x h a : ℝ}, 0 ≤ a → a * ρ ≤ B → Jet ρ (Set.Icc (x - h) (x + h)) F a → ∃ D, Thrice F x h D (6 * B / ρ ^ 4) := by
    intro F x h a ha haB hF
    obtain ⟨F1, F2, F3, f1, f2⟩ := hF
    refine ⟨F1 x, F1, F2, F3, rfl, fun t ht => ⟨(f1 t).1, (f1 t).2.1, (f1 t).2.2, ?_⟩⟩
    have h3 := f2 t ht
    have hn : 0 ≤ |F t| + |F1 t| * ρ + |F2 t| * ρ ^ 2 / 2 := by positivity
    have h4 : |F3 t| * ρ ^ 3 ≤ 6 * a := by linarith
    rw [le_div_iff₀ (by positivity)]
    have := mul_le_mul_of_nonneg_right h4 hρ.le
    nlinarith
  have hcρ : 0 ≤ c * ρ := by positivity
  refine fun i hi => ⟨key h1 (by nlinarith) (h5 i hi), fun j hj => ?_⟩
  have e : (fun t => pdAt φ j (dec.set i t)) = fun t => D j (dec.set i t) := funext fun t => (h4 (dec.set i t) (by simpa using hdec) j hj).deriv
  rw [e]
  exact key h2 (by linarith) (h6 i hi j hj)

/-! ### Rows -/

/-- A list of constant length, the functions that give its entries having the property `Q`. -/
structure RowOf (Q : (List ℝ → ℝ) → Prop) (m : Nat) (L : List ℝ → List ℝ) : Prop where
  length : ∀ d, (L d).length = m
  entry : ∀ q, Q fun d => (L d).getD q 0

variable {Q : (List ℝ → ℝ) → Prop} {m m' : Nat} {L L' : List ℝ → List ℝ}

theorem RowOf.nil (h0 : Q fun _ => 0) : RowOf Q 0 fun _ => [] := ⟨fun _ => rfl, fun q => by simpa using h0⟩

theorem RowOf.cons (hφ : Q φ) (hL : RowOf Q m L) : RowOf Q (m + 1) fun d => φ d :: L d :=
  ⟨fun d => by rw [List.length_cons, hL.length], fun q => by
    cases q with
    | zero => simpa using hφ
    | succ q => simpa using hL.entry q⟩

theorem RowOf.append (h : RowOf Q m L) (h' : RowOf Q m' L') : RowOf Q (m + m') fun d => L d ++ L' d :=
  ⟨fun d => by rw [List.length_append, h.length, h'.length], fun q => by
    by_cases hq : q < m
    · have : (fun d => (L d ++ L' d).getD q 0) = fun d => (L d).getD q 0 := funext fun d => by
        rw [List.getD_eq_getElem?_getD, List.getElem?_append_left (by rw [h.length]; exact hq), List.getD_eq_getElem?_getD]
      rw [this]
      exact h.entry q
    · have : (fun d => (L d ++ L' d).getD q 0) = fun d => (L' d).getD (q - m) 0 := funext fun d => by
        rw [List.getD_eq_getElem?_getD, List.getElem?_append_right (by rw [h.length]; omega), h.length, List.getD_eq_getElem?_getD]
      rw [this]
      exact h'.entry _⟩

theorem RowOf.flatMap (h0 : Q fun _ => 0) {g : Nat → List ℝ → List ℝ} (p : Nat) (h : ∀ k, RowOf Q m (g k)) :
    RowOf Q (p * m) fun d => (List.range p).flatMap fun k => g k d := by
  induction p with
  | zero => simpa using RowOf.nil h0
  | succ p ih =>
    have := ih.append (h p)
    simp only [List.range_succ, List.flatMap_append, List.flatMap_cons, List.flatMap_nil, List.append_nil, Nat.succ_mul]
    exact this

theorem RowOf.map (h0 : Q fun _ => 0) {g : Nat → List ℝ → ℝ} (p : Nat) (h : ∀ k, Q (g k)) : RowOf Q p fun d => (List.range p).map fun k => g k d := by
  have h1 := RowOf.flatMap (m := 1) h0 (g := fun k d => [g k d]) p fun k => RowOf.cons (h k) (RowOf.nil h0)
  simp only [Nat.mul_one] at h1
  have : (fun d => (List.range p).map fun k => g k d) = fun d => (List.range p).flatMap fun k => [g k d] := funext fun d => (List.flatMap_pure_eq_map _ _).symm
  rw [this]
  exact h1

end Ceacoest
