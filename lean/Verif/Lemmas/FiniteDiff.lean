import Verif.Spec.FiniteDiff
import Mathlib.Analysis.Calculus.MeanValue
import Mathlib.Analysis.Calculus.Deriv.Add
import Mathlib.Analysis.Calculus.Deriv.Mul
import Mathlib.Analysis.Calculus.Deriv.Pow
import Mathlib.Analysis.Calculus.Deriv.Comp
import Mathlib.Tactic.Linarith
import Mathlib.Tactic.Ring
import Mathlib.Tactic.FieldSimp

/-! # The errors of finite differences -/

namespace Ceacoest
open Set Spec

/-- A function that is zero at zero and whose derivative grows like `C s ^ n`. -/
theorem bound_step {φ φ' : ℝ → ℝ} {h C : ℝ} (n : Nat) (h0 : φ 0 = 0) (hd : ∀ s ∈ Icc (0 : ℝ) h, HasDerivAt φ (φ' s) s) (hb : ∀ s ∈ Icc (0 : ℝ) h, |φ' s| ≤ C * s ^ n) :
    ∀ s ∈ Icc (0 : ℝ) h, |φ s| ≤ C / (n + 1) * s ^ (n + 1) := by
  have hn : (n : ℝ) + 1 ≠ 0 := by positivity
  refine image_norm_le_of_norm_deriv_right_le_deriv_boundary (f' := φ') (B' := fun s => C * s ^ n) (fun s hs => (hd s hs).continuousAt.continuousWithinAt)
    (fun s hs => (hd s (Ico_subset_Icc_self hs)).hasDerivWithinAt) (by simp [h0]) (fun s => ?_) (fun s hs => hb s (Ico_subset_Icc_self hs))
  refine ((hasDerivAt_pow (n + 1) s).const_mul _).congr_deriv ?_
  push_cast
  field_simp

theorem central_error {F : ℝ → ℝ} {x h D M : ℝ} (hh : 0 < h) (hF : Thrice F x h D M) : |1 / 2 * (F (x + h) - F (x - h)) / h - D| ≤ M * h ^ 2 / 6 := by
  obtain ⟨F1, F2, F3, rfl, hF⟩ := hF
  have mp : ∀ s ∈ Icc (0 : ℝ) h, x + s ∈ Icc (x - h) (x + h) := fun s hs => ⟨by linarith [hs.1], by linarith [hs.2]⟩
  have mm : ∀ s ∈ Icc (0 : ℝ) h, x - s ∈ Icc (x - h) (x + h) := fun s hs => ⟨by linarith [hs.2], by linarith [hs.1]⟩
  have dp : ∀ {G G' : ℝ → ℝ} {s : ℝ}, HasDerivAt G (G' (x + s)) (x + s) → HasDerivAt (fun s => G (x + s)) (G' (x + s)) s := fun {G G' s} hg => by
    exact (hg.comp s ((hasDerivAt_id s).const_add x)).congr_deriv (by simp)
  have dm : ∀ {G G' : ℝ → ℝ} {s : ℝ}, HasDerivAt G (G' (x - s)) (x - s) → HasDerivAt (fun s => G (x - s)) (-G' (x - s)) s := fun {G G' s} hg => by
    exact (hg.comp s ((hasDerivAt_id s).const_sub x)).congr_deriv (by simp)
  have s2 := bound_step (φ := fun s => F2 (x + s) - F2 (x - s)) (φ' := fun s => F3 (x + s) + F3 (x - s)) (C := 2 * M) (h := h) 0 (by simp)
    (fun s hs => ((dp (hF _ (mp s hs)).2.2.1).sub (dm (hF _ (mm s hs)).2.2.1)).congr_deriv (by ring)) (fun s hs => by
      have h1 := (hF _ (mp s hs)).2.2.2
      have h2 := (hF _ (mm s hs)).2.2.2
      calc |F3 (x + s) + F3 (x - s)| ≤ |F3 (x + s)| + |F3 (x - s)| := abs_add_le _ _
        _ ≤ 2 * M * s ^ 0 := by rw [pow_zero, mul_one]; linarith)
  have s1 := bound_step (φ := fun s => F1 (x + s) + F1 (x - s) - 2 * F1 x) (φ' := fun s => F2 (x + s) - F2 (x - s)) (C := 2 * M) (h := h) 1 (by simp; ring)
    (fun s hs => (((dp (hF _ (mp s hs)).2.1).add (dm (hF _ (mm s hs)).2.1)).sub_const _).congr_deriv (by ring)) (fun s hs => by simpa using s2 s hs)
  have s0 := bound_step (φ := fun s => F (x + s) - F (x - s) - 2 * F1 x * s) (φ' := fun s => F1 (x + s) + F1 (x - s) - 2 * F1 x) (C := M) (h := h) 2 (by simp)
    (fun s hs => (((dp (hF _ (mp s hs)).1).sub (dm (hF _ (mm s hs)).1)).sub ((hasDerivAt_id s).const_mul (2 * F1 x))).congr_deriv (by simp)) (fun s hs => by
      refine (s1 s hs).trans_eq ?_
      push_cast
      ring)
  have e := s0 h ⟨hh.le, le_rfl⟩
  have e1 : 1 / 2 * (F (x + h) - F (x - h)) / h - F1 x = (F (x + h) - F (x - h) - 2 * F1 x * h) / (2 * h) := by field_simp
  rw [e1, abs_div, abs_of_pos (show 0 < 2 * h by linarith), div_le_iff₀ (by linarith)]
  refine e.trans_eq ?_
  push_cast
  ring

theorem forward_error {F : ℝ → ℝ} {x h D M : ℝ} (hh : 0 < h) (hF : Twice F x h D M) : |(F (x + h) - F x) / h - D| ≤ M * h / 2 := by
  obtain ⟨F1, F2, rfl, hF⟩ := hF
  have mp : ∀ s ∈ Icc (0 : ℝ) h, x + s ∈ Icc x (x + h) := fun s hs => ⟨by linarith [hs.1], by linarith [hs.2]⟩
  have dp : ∀ {G G' : ℝ → ℝ} {s : ℝ}, HasDerivAt G (G' (x + s)) (x + s) → HasDerivAt (fun s => G (x + s)) (G' (x + s)) s := fun {G G' s} hg => by
    exact (hg.comp s ((hasDerivAt_id s).const_add x)).congr_deriv (by simp)
  have s1 := bound_step (φ := fun s => F1 (x + s) - F1 x) (φ' := fun s => F2 (x + s)) (C := M) (h := h) 0 (by simp)
    (fun s hs => (dp (hF _ (mp s hs)).2.1).sub_const _) (fun s hs => by simpa using (hF _ (mp s hs)).2.2)
  have s0 := bound_step (φ := fun s => F (x + s) - F x - F1 x * s) (φ' := fun s => F1 (x + s) - F1 x) (C := M) (h := h) 1 (by simp)
    (fun s hs => (((dp (hF _ (mp s hs)).1).sub_const _).sub ((hasDerivAt_id s).const_mul (F1 x))).congr_deriv (by simp)) (fun s hs => by simpa using s1 s hs)
  have e := s0 h ⟨hh.le, le_rfl⟩
  have e1 : (F (x + h) - F x) / h - F1 x = (F (x + h) - F x - F1 x * h) / h := by field_simp
  rw [e1, abs_div, abs_of_pos hh, div_le_iff₀ hh]
  refine e.trans_eq ?_
  push_cast
  ring

end Ceacoest
