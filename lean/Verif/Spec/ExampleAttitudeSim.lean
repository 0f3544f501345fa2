import Verif.Model.Kalman

/-! # Specification for C117: difference equations of second order -/

namespace Ceacoest.Pem

/-- The number `n` places before place `k`; zero before the beginning. -/
def past (l : List ℝ) (k n : Nat) : ℝ := if n ≤ k then l.getD (k - n) 0 else 0

end Ceacoest.Pem
