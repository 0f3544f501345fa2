import Verif.Model.KalmanShapes
import Verif.Model.KalmanBatchDiff

/-!
# `ceacoest/kalman`: measurements of any shape for filters of a stack of states

As in `Model.KalmanShapes`: `np.ix_(active, active)` indexes `model.R()`, which is not a stack, so what it checks does not depend on the stack.
-/

namespace Ceacoest
open Matrix MArray
variable {nx ny : Nat} {p : Type}

/-- extended.py:124-162 `correct` -/
noncomputable def BEKF.correctArr (model : KModel nx (Fin ny) p) (y : MArray) (s : BEKF nx) : Py (BMoments nx × BEKF nx) := do
  if y.allMasked then return ((s.x, s.Px), { s with last := .masked })
  ixCheck ny y
  boolCheck ny y
  BEKF.correct model (y.toRow ny) s

/-- unscented.py:407-450 `correct`: the sigma points are computed before `h_fun` is called. -/
noncomputable def BUKF.correctArr (cut : UT nx) (model : KModel nx (Fin ny) p) (y : MArray) (s : BUKF nx (Fin ny) p) : Py (BMoments nx × BUKF nx (Fin ny) p) := do
  if y.allMasked then return ((s.x, s.Px), { s with last := .masked })
  ixCheck ny y
  let _ ← cut.bSigmaPoints s.x s.Px
  boolCheck ny y
  BUKF.correct cut model (y.toRow ny) s

/-- A class that corrects with `Y'` in place of `Y`. -/
def BFilterClass.onArrays {Y Y' σ : Type} (F : BFilterClass nx Y σ) (correct : Y' → σ → Py (BMoments nx × σ)) : BFilterClass nx Y' σ :=
  ⟨F.x, F.Px, F.L, correct, F.predict, F.predictionCrosscov, F.updateLikelihood⟩

/-- The same for a class with derivatives. -/
def BDFilterClass.onArrays {Y Y' σ : Type} (F : BDFilterClass nx Y p σ) (correct : Y' → σ → Py (BMoments nx × σ)) : BDFilterClass nx Y' p σ :=
  ⟨F.toBFilterClass.onArrays correct, F.dL_dq, F.d2L_dq2, F.correctionDiff, F.correctionDiff2, F.likelihoodDiff, F.likelihoodDiff2, F.predictionDiff, F.predictionDiff2⟩

/-- The class of extended filters, for arrays. -/
noncomputable def BEKF.arrCls (model : KModel nx (Fin ny) p) : BFilterClass nx MArray (BEKF nx) := (BEKF.cls model).onArrays (BEKF.correctArr model)

/-- The class of unscented filters, for arrays. -/
noncomputable def BUKF.arrCls (put cut : UT nx) (model : KModel nx (Fin ny) p) : BDFilterClass nx MArray p (BUKF nx (Fin ny) p) :=
  (BUKF.dcls put cut model).onArrays (BUKF.correctArr cut model)

end Ceacoest
