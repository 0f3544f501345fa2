import Verif.Model.Kalman

/-! # Measurements of which only some count (C115) -/

namespace Ceacoest.Spec

/-- The rows are the same, or nothing of either is there. -/
def SameRow {o : Type} (r r' : MaskedRow o) : Prop := r = r' ∨ (∀ j, r.mask j = true) ∧ ∀ j, r'.mask j = true

end Ceacoest.Spec
