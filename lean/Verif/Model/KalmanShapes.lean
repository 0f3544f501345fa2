import Verif.Model.Kalman
import Verif.NumPy.Basic

/-!
# `ceacoest/kalman`: measurements as arrays of any shape

`Model.Kalman` takes rows that have the right shape. Here a measurement is a masked array of any shape, and the model has what NumPy checks when it is used as an index. An entry is a number
and whether it is masked; arrays that are not masked have no masked entries. One state, not a stack (`base_shape = ()`).
-/

namespace Ceacoest
open Matrix

/-- A masked array. -/
abbrev MArray := NDArray (ℝ × Bool)

namespace MArray

/-- `np.all(ma.getmaskarray(y))` -/
def allMasked (y : MArray) : Bool := y.data.all Prod.snd

/-- What `np.ix_(active, active)` and indexing an array with `ny` rows and columns by the result raise: `active` must have one axis; it is converted to the numbers of its true entries, which
must be in range. -/
def ixCheck (ny : Nat) (y : MArray) : Py Unit := match y.shape with
  | [_] => if (y.data.drop ny).all Prod.snd then .ok () else .error .indexError
  | _ => .error .valueError

/-- What indexing by `[..., active]` raises, for an array whose only axis has length `ny`: the shape of a boolean array must be that of the axes that it indexes. -/
def boolCheck (ny : Nat) (y : MArray) : Py Unit := if y.shape = [ny] then .ok () else .error .indexError

/-- A measurement of the right shape as a row. -/
def toRow (ny : Nat) (y : MArray) : MaskedRow (Fin ny) := ⟨fun j => (y.data.getD j (0, true)).1, fun j => (y.data.getD j (0, true)).2⟩

/-- base.py:95-96: `len(y)` and `y[k]` for all `k`; an array without axes has no length. -/
def rows (y : MArray) : Py (List MArray) := match y.shape with
  | [] => .error .typeError
  | n :: t => .ok ((List.range n).map fun k => ⟨t, (y.data.drop (k * t.prod)).take t.prod⟩)

end MArray

open MArray
variable {nx ny : Nat} {p : Type}

/-- extended.py:124-162 `correct` -/
noncomputable def EKF.correctArr (model : KModel nx (Fin ny) p) (y : MArray) (s : EKF nx (Fin ny) p) : Py (Moments nx × EKF nx (Fin ny) p) := do
  if y.allMasked then return ((s.x, s.Px), { s with last := .masked })
  ixCheck ny y
  boolCheck ny y
  EKF.correct model (y.toRow ny) s

/-- unscented.py:407-450 `correct`: the sigma points are computed before `h_fun` is called. -/
noncomputable def UKF.correctArr {ns' : Nat} (cut : UT nx) (model : KModel nx (Fin ny) p) (y : MArray) (s : UKF nx cut.nsigma ns' (Fin ny) p) :
    Py (Moments nx × UKF nx cut.nsigma ns' (Fin ny) p) := do
  if y.allMasked then return ((s.x, s.Px), { s with last := .masked })
  ixCheck ny y
  let _ ← cut.sigmaPoints s.x s.Px
  boolCheck ny y
  UKF.correct cut model (y.toRow ny) s

/-- A class that corrects with `Y'` in place of `Y`. -/
def FilterClass.onArrays {Y Y' σ : Type} (F : FilterClass nx Y p σ) (correct : Y' → σ → Py (Moments nx × σ)) : FilterClass nx Y' p σ :=
  ⟨F.attrs, correct, F.predict, F.predictionCrosscov, F.correctionDiff, F.correctionDiff2, F.updateLikelihood, F.likelihoodDiff, F.likelihoodDiff2, F.predictionDiff, F.predictionDiff2⟩

/-- The class of extended filters, for arrays. -/
noncomputable def EKF.arrCls (model : KModel nx (Fin ny) p) : FilterClass nx MArray p (EKF nx (Fin ny) p) := (EKF.cls model).onArrays (EKF.correctArr model)

/-- The class of unscented filters, for arrays. -/
noncomputable def UKF.arrCls (put cut : UT nx) (model : KModel nx (Fin ny) p) : FilterClass nx MArray p (UKF nx cut.nsigma put.nsigma (Fin ny) p) :=
  (UKF.cls put cut model).onArrays (UKF.correctArr cut model)

/-- base.py:94-176: a method called with an array. -/
def MArray.run {α σ : Type} (method : List MArray → σ → Py α) (y : MArray) (s : σ) : Py α := do
  method (← y.rows) s

end Ceacoest
