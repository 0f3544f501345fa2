import Verif.Model.TestKalmanDiff
import Verif.Spec.KalmanGrad

/-! # What the tests of derivatives in test_kalman.py are to establish (C102) -/

namespace Ceacoest.Spec
open TestKalman Filter Topology

/-- Whenever the steps of `central_diff` are small enough. -/
def ForSmallSteps (P : Steps → Prop) : Prop := ∃ ε > 0, ∀ c : Steps, 0 < c.minStep → c.minStep < ε → |c.relStep| < ε → P c

/-- The functions of the model called derivatives are derivatives. -/
structure RightSetup {nx ny nq : Nat} (T : Setup nx ny nq) (q₀ : Fin nq → ℝ) : Prop where
  M : SmoothModel2 T.M q₀
  v : ∀ᶠ q in 𝓝 q₀, ∀ i, HasGrad (fun q => T.v q i) (fun a => T.dv_dq q a i) q
  Pv : ∀ᶠ q in 𝓝 q₀, ∀ i j, HasGrad (fun q => T.Pv q i j) (fun a => T.dPv_dq q a i j) q
  dv : ∀ b i, HasGrad (fun q => T.dv_dq q b i) (fun a => T.d2v_dq2 q₀ a b i) q₀
  dPv : ∀ b i j, HasGrad (fun q => T.dPv_dq q b i j) (fun a => T.d2Pv_dq2 q₀ a b i j) q₀

/-- Near `q₀` the arrays `G q` have shape `sh`, and `D a` holds the derivatives of their entries with respect to parameter `a`. -/
structure GradArr {nq : Nat} (G : (Fin nq → ℝ) → NDArray ℝ) (D : Fin nq → NDArray ℝ) (sh : List Nat) (q₀ : Fin nq → ℝ) : Prop where
  near : ∀ᶠ q in 𝓝 q₀, (G q).shape = sh ∧ (G q).WF
  shape : ∀ a, (D a).shape = sh ∧ (D a).WF
  grad : ∀ r < sh.prod, HasGrad (fun q => (G q).data.getD r 0) (fun a => (D a).data.getD r 0) q₀

end Ceacoest.Spec
