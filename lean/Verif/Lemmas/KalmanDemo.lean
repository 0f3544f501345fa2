import Verif.Spec.KalmanInputs
import Verif.Lemmas.KalmanCore
import Mathlib.Tactic.NormNum

/-! # A concrete filter, for the examples: one state, two outputs, one parameter -/

namespace Ceacoest.Demo
open Matrix

/-- `x' = q x + w`, `y = (x + v₁, x + v₂)`. -/
noncomputable def model (q : Fin 1 → ℝ) : KModel 1 (Fin 2) (Fin 1) where
  f _ x _ := q 0 * x 0
  h _ x _ := x 0
  Q _ _ := 1
  R := 1
  df_dx _ _ _ _ := q 0
  dh_dx _ _ _ _ := 1
  df_dq _ x _ _ := x 0
  dh_dq _ _ _ _ := 0
  dQ_dq _ _ _ := 0
  dQ_dx _ _ _ := 0
  dR_dq _ := 0
  d2f_dq2 _ _ _ _ _ := 0
  d2f_dx2 _ _ _ _ _ := 0
  d2f_dx_dq _ _ _ _ _ := 1
  d2h_dq2 _ _ _ _ _ := 0
  d2h_dx2 _ _ _ _ _ := 0
  d2h_dx_dq _ _ _ _ _ := 0
  d2Q_dq2 _ _ _ _ := 0
  d2Q_dx2 _ _ _ _ := 0
  d2Q_dx_dq _ _ _ _ := 0
  d2R_dq2 _ _ := 0

/-- Mean 1, variance 1, at time 0. -/
noncomputable def attrs : FilterAttrs 1 (Fin 1) := ⟨fun _ => 1, 1, 0, 0, 0, 0, 0, 0, 0, 0⟩

noncomputable def ekf : EKF 1 (Fin 2) (Fin 1) := { attrs with }

noncomputable def ukf (ns ns' : Nat) : UKF 1 ns ns' (Fin 2) (Fin 1) := { attrs with }

/-- The second entry is masked, and its number is garbage. -/
def half : MaskedRow (Fin 2) := ⟨![2, 77], ![false, true]⟩

def none : MaskedRow (Fin 2) := ⟨![2, 77], ![true, true]⟩

def both : MaskedRow (Fin 2) := ⟨![2, 3], ![false, false]⟩

theorem half_active : ¬∀ j, half.mask j = true := fun h => by have := h 0; simp [half] at this

theorem none_masked : ∀ j, none.mask j = true := by intro j; fin_cases j <;> rfl

theorem exists_ut : ∃ ut, UT.init 1 .cholesky (1 : ℝ) = .ok ut := by
  unfold UT.init
  rw [if_neg (by norm_num)]
  exact ⟨_, rfl⟩

theorem pd_one : (1 : Matrix (Fin 1) (Fin 1) ℝ).PosDef := PosDef.one

end Ceacoest.Demo
