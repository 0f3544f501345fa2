import Verif.Model.Kalman

/-! # Measurements in parts (C105) -/

namespace Ceacoest.Spec
open Matrix
variable {o : Type}

/-- The rows `ys` have together the entries of the row `y`, and the noises of entries in different ones are uncorrelated. -/
structure Parts (R : Matrix o o ℝ) (y : MaskedRow o) (ys : List (MaskedRow o)) : Prop where
  data : ∀ r ∈ ys, ∀ j, r.mask j = false → r.data j = y.data j
  mask : ∀ j, y.mask j = false ↔ ∃ r ∈ ys, r.mask j = false
  noise : ys.Pairwise fun a b => ∀ i j, a.mask i = false → b.mask j = false → R i j = 0

/-- Correct with each row in turn, all at the same time: the moments in the end. -/
def corrections {Y M σ : Type} (correct : Y → σ → Py (M × σ)) (view : σ → M) : List Y → σ → Py (M × σ)
  | [], s => .ok (view s, s)
  | y :: ys, s => do
    let (_, s) ← correct y s
    corrections correct view ys s

/-- The outputs are affine functions of the state at time `k`, and the derivative is theirs. -/
structure AffineOutputs {nx : Nat} {p : Type} (M : KModel nx o p) (k : ℤ) (C : Matrix o (Fin nx) ℝ) (c : o → ℝ) : Prop where
  h : ∀ x, M.h k x = C *ᵥ x + c
  dh_dx : ∀ x i j, M.dh_dx k x i j = C j i

end Ceacoest.Spec
