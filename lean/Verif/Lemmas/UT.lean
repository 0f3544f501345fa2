import Verif.Model.UT
import Verif.Spec.Kalman
import Mathlib.Algebra.BigOperators.Fin
import Mathlib.Algebra.BigOperators.Field
import Verif.Lemmas.Lists
import Mathlib.Tactic.Ring
import Mathlib.Tactic.FieldSimp
import Mathlib.Tactic.Linarith

/-! # Sums over sigma points -/

namespace Ceacoest
open Matrix Spec

/-- What the constructor gives. -/
theorem ut_init_ok {ni : Nat} {kind : SqrtKind (Fin ni)} {kappa : ℝ} {ut : UT ni} (h : UT.init ni kind kappa = .ok ut) :
    (ni : ℝ) + kappa ≠ 0 ∧ ut.kappa = kappa ∧ ut.kind = kind ∧
    ∀ {β : Type} [Zero β] [Neg β] (F : β → ℝ) (A : Fin ni → β), ∑ k, ut.weights k * F (UT.spread ut.nsigma A k) =
      (∑ i, 0.5 / (ni + kappa) * (F (A i) + F (-A i))) + kappa / (ni + kappa) * F 0 := by
  unfold UT.init at h
  split at h
  · cases h
  · rename_i hne
    simp only [py_pure] at h
    obtain rfl := Except.ok.inj h
    refine ⟨hne, rfl, rfl, ?_⟩
    intro β _ _ F A
    by_cases hk : kappa = 0
    · subst hk
      have hc : 2 * ni + (if (0 : ℝ) ≠ 0 then 1 else 0) = ni + ni := by simp; omega
      simp only [ne_eq, not_true_eq_false, if_false, zero_div, zero_mul, add_zero]
      let g : ℕ → ℝ := fun k => 0.5 / (ni : ℝ) *
        F (if h : k < ni then A ⟨k, h⟩ else if h' : k < 2 * ni then -A ⟨k - ni, by omega⟩ else 0)
      refine Eq.trans (Fin.sum_univ_eq_sum_range g (2 * ni + if (0 : ℝ) ≠ 0 then 1 else 0)) ?_
      rw [hc, Finset.sum_range_add]
      rw [← Fin.sum_univ_eq_sum_range, ← Fin.sum_univ_eq_sum_range (fun x => g (ni + x)), ← Finset.sum_add_distrib]
      refine Finset.sum_congr rfl fun i _ => ?_
      have h1 : g i.1 = 0.5 / (ni : ℝ) * F (A i) := by simp only [g]; rw [dif_pos i.2]
      have h2 : g (ni + i.1) = 0.5 / (ni : ℝ) * F (-A i) := by
        simp only [g]
        rw [dif_neg (by omega), dif_pos (by have := i.2; omega)]
        congr 4
        ext
        simp
      rw [h1, h2]; ring
    · have hc : 2 * ni + (if kappa ≠ 0 then 1 else 0) = ni + ni + 1 := by simp [hk]; omega
      have hc' : ∀ k : ℕ, (k + 1 = 2 * ni + if ¬kappa = 0 then 1 else 0) = (k + 1 = 2 * ni + 1) := fun k => by simp [hk]
      simp only [ne_eq, hk, not_false_eq_true, if_true]
      let g : ℕ → ℝ := fun k => (if k + 1 = 2 * ni + 1 then kappa / (ni + kappa) else 0.5 / ((ni : ℝ) + kappa)) *
        F (if h : k < ni then A ⟨k, h⟩ else if h' : k < 2 * ni then -A ⟨k - ni, by omega⟩ else 0)
      refine Eq.trans (Fin.sum_univ_eq_sum_range g (2 * ni + if kappa ≠ 0 then 1 else 0)) ?_
      rw [hc, Finset.sum_range_succ, Finset.sum_range_add]
      rw [← Fin.sum_univ_eq_sum_range, ← Fin.sum_univ_eq_sum_range (fun x => g (ni + x)), ← Finset.sum_add_distrib]
      congr 1
      · refine Finset.sum_congr rfl fun i _ => ?_
        have h1 : g i.1 = 0.5 / ((ni : ℝ) + kappa) * F (A i) := by
          simp only [g]; rw [dif_pos i.2, if_neg (by have := i.2; omega)]
        have h2 : g (ni + i.1) = 0.5 / ((ni : ℝ) + kappa) * F (-A i) := by
          simp only [g]
          rw [dif_neg (by omega), dif_pos (by have := i.2; omega), if_neg (by have := i.2; omega)]
          congr 4
          ext
          simp
        rw [h1, h2]; ring
      · simp only [g]
        rw [dif_neg (by omega), dif_neg (by omega), if_pos (by omega)]

variable {ni : Nat} {kind : SqrtKind (Fin ni)} {kappa : ℝ} {ut : UT ni}

theorem weights_sum (h : UT.init ni kind kappa = .ok ut) : ∑ k, ut.weights k = 1 := by
  obtain ⟨hne, -, -, hs⟩ := ut_init_ok h
  have := hs (fun _ : ℝ => 1) (fun _ => (0 : ℝ))
  simp only [mul_one] at this
  rw [this]
  simp only [Finset.sum_const, Finset.card_univ, Fintype.card_fin, nsmul_eq_mul]
  field_simp
  ring

theorem idev_mean (h : UT.init ni kind kappa = .ok ut) (S : Matrix (Fin ni) (Fin ni) ℝ) (i : Fin ni) :
    ∑ k, ut.weights k * UT.spread ut.nsigma (fun k => S k) k i = 0 := by
  obtain ⟨hne, -, -, hs⟩ := ut_init_ok h
  have := hs (fun v : Fin ni → ℝ => v i) (fun k => S k)
  rw [this]
  simp

theorem idev_cov (h : UT.init ni kind kappa = .ok ut) (S : Matrix (Fin ni) (Fin ni) ℝ) (i j : Fin ni) :
    ∑ k, ut.weights k * (UT.spread ut.nsigma (fun k => S k) k i * UT.spread ut.nsigma (fun k => S k) k j) =
      (Sᵀ * S) i j / (ni + kappa) := by
  obtain ⟨hne, -, -, hs⟩ := ut_init_ok h
  have := hs (fun v : Fin ni → ℝ => v i * v j) (fun k => S k)
  rw [this, mul_apply, Finset.sum_div]
  simp only [Pi.neg_apply, Pi.zero_apply, mul_zero, add_zero, transpose_apply]
  refine Finset.sum_congr rfl fun k _ => ?_
  field_simp
  ring

end Ceacoest
