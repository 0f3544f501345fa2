import Verif.Model.UT
import Verif.Model.Utils
import Mathlib.Analysis.SpecialFunctions.Log.Basic

/-!
# `ceacoest/kalman/base.py`, `ceacoest/kalman/extended.py` and `ceacoest/kalman/unscented.py`, lines 314-598: Kalman filters

Arrays are over `ℝ` and unbatched, as in `Model.UT`.  A filter object is a value; every method takes it and returns the changed one.
Attributes which a method saves for later ones are kept with the data of the last correction (or prediction) and are not set before.
In Python such attributes outlive the sample they were made for: that is not modelled, and in the loops of base.py nothing reads
them then.  For the same reason a correction with every output masked drops them.
-/

namespace Ceacoest
open Matrix

/-- What a filter may ask of a model with `nx` states, outputs `o` and parameters `p`.
The derivative axes come first: `df_dx k x i j` is `∂f_j/∂x_i`. -/
structure KModel (nx : Nat) (o p : Type) where
  f : ℤ → (Fin nx → ℝ) → Fin nx → ℝ
  h : ℤ → (Fin nx → ℝ) → o → ℝ
  Q : ℤ → (Fin nx → ℝ) → Matrix (Fin nx) (Fin nx) ℝ
  R : Matrix o o ℝ
  df_dx : ℤ → (Fin nx → ℝ) → Fin nx → Fin nx → ℝ
  dh_dx : ℤ → (Fin nx → ℝ) → Fin nx → o → ℝ
  df_dq : ℤ → (Fin nx → ℝ) → p → Fin nx → ℝ
  dh_dq : ℤ → (Fin nx → ℝ) → p → o → ℝ
  dQ_dq : ℤ → (Fin nx → ℝ) → p → Matrix (Fin nx) (Fin nx) ℝ
  dQ_dx : ℤ → (Fin nx → ℝ) → Fin nx → Matrix (Fin nx) (Fin nx) ℝ
  dR_dq : p → Matrix o o ℝ
  d2f_dq2 : ℤ → (Fin nx → ℝ) → p → p → Fin nx → ℝ
  d2f_dx2 : ℤ → (Fin nx → ℝ) → Fin nx → Fin nx → Fin nx → ℝ
  d2f_dx_dq : ℤ → (Fin nx → ℝ) → p → Fin nx → Fin nx → ℝ
  d2h_dq2 : ℤ → (Fin nx → ℝ) → p → p → o → ℝ
  d2h_dx2 : ℤ → (Fin nx → ℝ) → Fin nx → Fin nx → o → ℝ
  d2h_dx_dq : ℤ → (Fin nx → ℝ) → p → Fin nx → o → ℝ
  d2Q_dq2 : ℤ → (Fin nx → ℝ) → p → p → Matrix (Fin nx) (Fin nx) ℝ
  d2Q_dx2 : ℤ → (Fin nx → ℝ) → Fin nx → Fin nx → Matrix (Fin nx) (Fin nx) ℝ
  d2Q_dx_dq : ℤ → (Fin nx → ℝ) → p → Fin nx → Matrix (Fin nx) (Fin nx) ℝ
  d2R_dq2 : p → p → Matrix o o ℝ

/-- One row of a masked array: the numbers, and which of them are masked. -/
structure MaskedRow (o : Type) where
  data : o → ℝ
  mask : o → Bool

/-- The unmasked outputs. -/
abbrev MaskedRow.Active {o : Type} (y : MaskedRow o) := {j : o // y.mask j = false}

/-- Mean and covariance. -/
abbrev Moments (nx : Nat) := (Fin nx → ℝ) × Matrix (Fin nx) (Fin nx) ℝ

/-- base.py:27-64: the attributes that every filter has. -/
structure FilterAttrs (nx : Nat) (p : Type) where
  x : Fin nx → ℝ
  Px : Matrix (Fin nx) (Fin nx) ℝ
  k : ℤ
  L : ℝ
  dL_dq : p → ℝ
  d2L_dq2 : p → p → ℝ
  dx_dq : p → Fin nx → ℝ
  dPx_dq : p → Matrix (Fin nx) (Fin nx) ℝ
  d2x_dq2 : p → p → Fin nx → ℝ
  d2Px_dq2 : p → p → Matrix (Fin nx) (Fin nx) ℝ

/-- The last call of `correct`. -/
inductive Last (o : Type) (D : Type → Type) where
  /-- `correct` has not been called. -/
  | never
  /-- Every output was masked. -/
  | masked
  | data (y : MaskedRow o) (d : D y.Active)

/-! ### base.py:15-176 `DTFilter`, for any class with the methods that it calls -/

/-- The methods of a filter class whose instances are `σ`. -/
structure FilterClass (nx : Nat) (Y p σ : Type) where
  attrs : σ → FilterAttrs nx p
  correct : Y → σ → Py (Moments nx × σ)
  predict : σ → Py (Moments nx × σ)
  predictionCrosscov : σ → Py (Matrix (Fin nx) (Fin nx) ℝ)
  correctionDiff : σ → Py σ
  correctionDiff2 : σ → Py σ
  updateLikelihood : σ → Py σ
  likelihoodDiff : σ → Py σ
  likelihoodDiff2 : σ → Py σ
  predictionDiff : σ → Py σ
  predictionDiff2 : σ → Py σ

namespace FilterClass
variable {nx : Nat} {Y p σ : Type} (F : FilterClass nx Y p σ)

/-- `y[k]`. -/
def row (y : List Y) (k : Nat) : Py Y := match y[k]? with
  | some r => .ok r
  | none => .error .indexError

/-- base.py:86-92 `smoother_correction`. -/
noncomputable def smootherCorrection (xpred : Fin nx → ℝ) (Pxpred Pxf : Matrix (Fin nx) (Fin nx) ℝ) (xsmooth : Fin nx → ℝ)
    (Pxsmooth : Matrix (Fin nx) (Fin nx) ℝ) : Py (Moments nx) := do
  let PxIpred ← npInv Pxpred
  let K : Matrix (Fin nx) (Fin nx) ℝ := of fun i k => ∑ j, Pxf i j * PxIpred j k
  let e := xsmooth - xpred
  let x_inc := fun i => ∑ j, K i j * e j
  let Px_inc : Matrix (Fin nx) (Fin nx) ℝ := of fun i l => ∑ j, ∑ k, K i j * (Pxsmooth - Pxpred) j k * K l k
  return (x_inc, Px_inc)

/-- base.py:100-103: one pass of the loop of `filter`; the arrays `x` and `Px` are kept together, as a list of pairs. -/
def filterStep (y : List Y) (acc : List (Moments nx) × σ) (k : Nat) : Py (List (Moments nx) × σ) := do
  let (out, s) := acc
  let (m, s) ← F.correct (← row y k) s
  let out := out.set k m
  if k < y.length - 1 then do
    let (_, s) ← F.predict s
    return (out, s)
  else return (out, s)

/-- base.py:94-105 `filter`. -/
def filter (y : List Y) (s : σ) : Py (List (Moments nx) × σ) :=
  (List.range y.length).foldlM (F.filterStep y) (List.replicate y.length (0, 0), s)

/-- The arrays of `smooth`: corrected moments, predicted moments, cross covariances. -/
structure SmoothArrays (nx : Nat) where
  m : List (Moments nx)
  pred : List (Moments nx)
  cross : List (Matrix (Fin nx) (Fin nx) ℝ)

/-- base.py:118-122. -/
def smoothForward (y : List Y) (acc : SmoothArrays nx × σ) (k : Nat) : Py (SmoothArrays nx × σ) := do
  let (a, s) := acc
  let (m, s) ← F.correct (← row y k) s
  let a := { a with m := a.m.set k m }
  if k < y.length - 1 then do
    let (pr, s) ← F.predict s
    let a := { a with pred := a.pred.set (k + 1) pr }
    let c ← F.predictionCrosscov s
    return ({ a with cross := a.cross.set k c }, s)
  else return (a, s)

/-- base.py:124-129. -/
noncomputable def smoothBackward (pred : List (Moments nx)) (cross : List (Matrix (Fin nx) (Fin nx) ℝ)) (m : List (Moments nx)) (k : Nat) :
    Py (List (Moments nx)) := do
  let (xpred, Pxpred) ← row pred k
  let Pxf ← row cross (k - 1)
  let (xk, Pxk) ← row m k
  let (x_inc, Px_inc) ← smootherCorrection xpred Pxpred Pxf xk Pxk
  let (x, Px) ← row m (k - 1)
  return m.set (k - 1) (x + x_inc, Px + Px_inc)

/-- base.py:107-131 `smooth`; for `N = 0`, `np.zeros((N - 1,) + ...)` raises.  The returned arrays, and the filter. -/
noncomputable def smooth (y : List Y) (s : σ) : Py (List (Moments nx) × σ) := do
  let N := y.length
  if N = 0 then .error .valueError else
  let x : List (Moments nx) := List.replicate N (0, 0)
  let pred : List (Moments nx) := (List.replicate N (0, 0)).set 0 ((F.attrs s).x, (F.attrs s).Px)
  let cross : List (Matrix (Fin nx) (Fin nx) ℝ) := List.replicate (N - 1) 0
  let (a, s) ← (List.range N).foldlM (F.smoothForward y) (⟨x, pred, cross⟩, s)
  let m ← (List.range' 1 (N - 1)).reverse.foldlM (smoothBackward a.pred a.cross) a.m
  return (m, s)

/-- base.py:137-141. -/
def meritStep (y : List Y) (s : σ) (k : Nat) : Py σ := do
  let (_, s) ← F.correct (← row y k) s
  let s ← F.updateLikelihood s
  if k < y.length - 1 then do
    let (_, s) ← F.predict s
    return s
  else return s

/-- base.py:133-143 `pem_merit`: what it returns, and the filter. -/
def pemMerit (y : List Y) (s : σ) : Py (ℝ × σ) := do
  let s ← (List.range y.length).foldlM (F.meritStep y) s
  return ((F.attrs s).L, s)

/-- base.py:149-156. -/
def gradientStep (y : List Y) (s : σ) (k : Nat) : Py σ := do
  let (_, s) ← F.correct (← row y k) s
  let s ← F.correctionDiff s
  let s ← F.updateLikelihood s
  let s ← F.likelihoodDiff s
  if k < y.length - 1 then do
    let (_, s) ← F.predict s
    F.predictionDiff s
  else return s

/-- base.py:145-158 `pem_gradient`. -/
def pemGradient (y : List Y) (s : σ) : Py ((p → ℝ) × σ) := do
  let s ← (List.range y.length).foldlM (F.gradientStep y) s
  return ((F.attrs s).dL_dq, s)

/-- base.py:164-174. -/
def hessianStep (y : List Y) (s : σ) (k : Nat) : Py σ := do
  let (_, s) ← F.correct (← row y k) s
  let s ← F.correctionDiff s
  let s ← F.correctionDiff2 s
  let s ← F.updateLikelihood s
  let s ← F.likelihoodDiff s
  let s ← F.likelihoodDiff2 s
  if k < y.length - 1 then do
    let (_, s) ← F.predict s
    let s ← F.predictionDiff s
    F.predictionDiff2 s
  else return s

/-- base.py:160-176 `pem_hessian`. -/
def pemHessian (y : List Y) (s : σ) : Py ((p → p → ℝ) × σ) := do
  let s ← (List.range y.length).foldlM (F.hessianStep y) s
  return ((F.attrs s).d2L_dq2, s)

end FilterClass

/-! ### extended.py -/

/-- What `correct` saves; `a` are the active outputs. -/
structure CorrData (nx : Nat) (a : Type) where
  e : a → ℝ
  Pxh : Matrix (Fin nx) a ℝ
  Py : Matrix a a ℝ
  PyI : Matrix a a ℝ
  K : Matrix (Fin nx) a ℝ

/-- An extended Kalman filter. -/
structure EKF (nx : Nat) (o p : Type) extends FilterAttrs nx p where
  Pxf : Option (Matrix (Fin nx) (Fin nx) ℝ) := none
  last : Last o (CorrData nx) := .never

namespace EKF
variable {nx : Nat} {o p : Type} [Fintype o] [LinearOrder o]

omit [Fintype o] [LinearOrder o] in
/-- extended.py:28-46 `predict`. -/
noncomputable def predict (model : KModel nx o p) (s : EKF nx o p) : Py (Moments nx × EKF nx o p) :=
  let f := model.f s.k s.x
  let df_dx := model.df_dx s.k s.x
  let Pxf : Matrix (Fin nx) (Fin nx) ℝ := of fun y z => ∑ i, s.Px y i * df_dx i z
  let Pf : Matrix (Fin nx) (Fin nx) ℝ := of fun y z => ∑ i, df_dx i y * Pxf i z
  let Q := model.Q s.k s.x
  let s := { s with Pxf := some Pxf, k := s.k + 1, x := f, Px := Pf + Q }
  .ok ((s.x, s.Px), s)

/-- extended.py:140-150, on the active outputs. -/
noncomputable def core {a : Type} [Fintype a] [LinearOrder a] (x : Fin nx → ℝ) (Px : Matrix (Fin nx) (Fin nx) ℝ) (y h : a → ℝ)
    (dh_dx : Fin nx → a → ℝ) (R : Matrix a a ℝ) : Py (Moments nx × CorrData nx a) := do
  let Pxh : Matrix (Fin nx) a ℝ := of fun i z => ∑ j, Px i j * dh_dx j z
  let Ph : Matrix a a ℝ := of fun y z => ∑ i, dh_dx i y * Pxh i z
  let Py := Ph + R
  let PyI ← npInv Py
  let K : Matrix (Fin nx) a ℝ := of fun i j => ∑ k, Pxh i k * PyI k j
  let e := y - h
  let x_corr := x + fun i => ∑ j, K i j * e j
  let Px_corr := Px - of fun i j => ∑ k, ∑ l, K i k * K j l * Py k l
  return ((x_corr, Px_corr), ⟨e, Pxh, Py, PyI, K⟩)

/-- extended.py:124-162 `correct`. -/
noncomputable def correct (model : KModel nx o p) (y : MaskedRow o) (s : EKF nx o p) : Py (Moments nx × EKF nx o p) :=
  if ∀ j, y.mask j = true then .ok ((s.x, s.Px), { s with last := .masked }) else do
  let R : Matrix y.Active y.Active ℝ := of fun i j => model.R i.1 j.1
  let h : y.Active → ℝ := fun j => model.h s.k s.x j.1
  let dh_dx : Fin nx → y.Active → ℝ := fun i j => model.dh_dx s.k s.x i j.1
  let (m, d) ← core s.x s.Px (fun j : y.Active => y.data j.1) h dh_dx R
  return (m, { s with x := m.1, Px := m.2, last := .data y d })

/-- extended.py:164-167 `correction_diff`. -/
def correctionDiff (s : EKF nx o p) : Py (EKF nx o p) := match s.last with
  | .never => .error .attributeError
  | _ => .ok s

/-- extended.py:169-179 `correction_diff2`: the attribute `dK_dq` is never set. -/
def correctionDiff2 (s : EKF nx o p) : Py (EKF nx o p) := match s.last with
  | .masked => .ok s
  | _ => .error .attributeError

/-- extended.py:181-188 `update_likelihood`: the attribute `PyC` is never set. -/
def updateLikelihood (s : EKF nx o p) : Py (EKF nx o p) := match s.last with
  | .masked => .ok s
  | _ => .error .attributeError

/-- extended.py:190-203 `likelihood_diff`: the attribute `de_dq` is never set. -/
def likelihoodDiff (s : EKF nx o p) : Py (EKF nx o p) := match s.last with
  | .masked => .ok s
  | _ => .error .attributeError

/-- extended.py:205-218 `likelihood_diff2`: as above. -/
def likelihoodDiff2 (s : EKF nx o p) : Py (EKF nx o p) := match s.last with
  | .masked => .ok s
  | _ => .error .attributeError

/-- extended.py:48-78 `prediction_diff`: after a prediction, the name `df_dx` is not defined; before, `prev_x` is not set
(or, after a correction, `Pxf`). -/
def predictionDiff (s : EKF nx o p) : Py (EKF nx o p) := match s.Pxf with
  | none => .error .attributeError
  | some _ => .error .nameError

/-- extended.py:80-116 `prediction_diff2`: `prediction_diff` never returns, so `prev_dx_dq` is not set. -/
def predictionDiff2 (_ : EKF nx o p) : Py (EKF nx o p) := .error .attributeError

/-- extended.py:118-119 `prediction_crosscov`. -/
def predictionCrosscov (s : EKF nx o p) : Py (Matrix (Fin nx) (Fin nx) ℝ) := match s.Pxf with
  | none => .error .attributeError
  | some Pxf => .ok Pxf

/-- extended.py:221-222 `DTFilter`. -/
noncomputable def cls (model : KModel nx o p) : FilterClass nx (MaskedRow o) p (EKF nx o p) where
  attrs := EKF.toFilterAttrs
  correct := correct model
  predict := predict model
  predictionCrosscov := predictionCrosscov
  correctionDiff := correctionDiff
  correctionDiff2 := correctionDiff2
  updateLikelihood := updateLikelihood
  likelihoodDiff := likelihoodDiff
  likelihoodDiff2 := likelihoodDiff2
  predictionDiff := predictionDiff
  predictionDiff2 := predictionDiff2

end EKF

/-! ### unscented.py:314-598 -/

/-- What `correction_diff` saves. -/
structure UCorrDiff (nx ns : Nat) (a p : Type) where
  de_dq : p → a → ℝ
  dK_dq : p → Matrix (Fin nx) a ℝ
  dPy_dq : p → Matrix a a ℝ
  dPyI_dq : p → Matrix a a ℝ
  dPxh_dq : p → Matrix (Fin nx) a ℝ
  ut : UTDiff ns (Fin nx) a p

/-- What `correction_diff2` saves. -/
structure UCorrDiff2 (a p : Type) where
  d2e_dq2 : p → p → a → ℝ
  d2Py_dq2 : p → p → Matrix a a ℝ
  d2PyI_dq2 : p → p → Matrix a a ℝ

/-- What `correct` and the methods after it save. -/
structure UCorr (nx ns : Nat) (p a : Type) [LinearOrder a] extends CorrData nx a where
  PyC : Matrix a a ℝ
  ut : UTData ns (Fin nx) a
  diff : Option (UCorrDiff nx ns a p) := none
  diff2 : Option (UCorrDiff2 a p) := none
  PyCD : Option (a → ℝ) := none
  chol : Option (CholDiff a p) := none

/-- What `predict` and the methods after it save. -/
structure UPred (nx ns : Nat) (p : Type) where
  prev_x : Fin nx → ℝ
  ut : UTData ns (Fin nx) (Fin nx)
  diff : Option (UTDiff ns (Fin nx) (Fin nx) p × (Fin nx → Matrix (Fin nx) (Fin nx) ℝ) × (p → Fin nx → ℝ)) := none

/-- The last call of `correct`. -/
inductive ULast (nx ns : Nat) (p o : Type) [LinearOrder o] where
  | never
  | masked
  | data (y : MaskedRow o) (d : UCorr nx ns p y.Active)

/-- An unscented Kalman filter, with `ns` sigma points in the corrector and `ns'` in the predictor. -/
structure UKF (nx ns ns' : Nat) (o p : Type) [LinearOrder o] extends FilterAttrs nx p where
  pred : Option (UPred nx ns' p) := none
  last : ULast nx ns p o := .never

namespace UKF
variable {nx : Nat} {o p : Type} [Fintype o] [LinearOrder o]

/-- unscented.py:328-341 `predict`. -/
noncomputable def predict {ns : Nat} (put : UT nx) (model : KModel nx o p) (s : UKF nx ns put.nsigma o p) :
    Py (Moments nx × UKF nx ns put.nsigma o p) := do
  let d ← put.transform s.x s.Px (model.f s.k)
  let Q := model.Q s.k s.x
  let s := { s with pred := some ⟨s.x, d, none⟩, k := s.k + 1, x := d.mean, Px := d.Po + Q }
  return ((s.x, s.Px), s)

/-- unscented.py:421-436, on the active outputs. -/
noncomputable def core {a : Type} [Fintype a] [LinearOrder a] (cut : UT nx) (x : Fin nx → ℝ) (Px : Matrix (Fin nx) (Fin nx) ℝ)
    (y : a → ℝ) (h : (Fin nx → ℝ) → a → ℝ) (R : Matrix a a ℝ) : Py (Moments nx × UCorr nx cut.nsigma p a) := do
  let d ← cut.transform x Px h
  let Pxh := cut.crosscov d
  let Py := d.Po + R
  let PyC ← cholU Py
  let PyCI ← npInv PyC
  let PyI : Matrix a a ℝ := of fun i j => ∑ k, PyCI i k * PyCI j k
  let e := y - d.mean
  let K : Matrix (Fin nx) a ℝ := of fun i j => ∑ k, Pxh i k * PyI k j
  let x_corr := x + fun i => ∑ j, K i j * e j
  let Px_corr := Px - of fun i j => ∑ k, ∑ l, K i k * K j l * Py k l
  return ((x_corr, Px_corr), { e := e, Pxh := Pxh, Py := Py, PyI := PyI, K := K, PyC := PyC, ut := d })

/-- unscented.py:407-450 `correct`. -/
noncomputable def correct {ns' : Nat} (cut : UT nx) (model : KModel nx o p) (y : MaskedRow o) (s : UKF nx cut.nsigma ns' o p) :
    Py (Moments nx × UKF nx cut.nsigma ns' o p) :=
  if ∀ j, y.mask j = true then .ok ((s.x, s.Px), { s with last := .masked }) else do
  let R : Matrix y.Active y.Active ℝ := of fun i j => model.R i.1 j.1
  let h : (Fin nx → ℝ) → y.Active → ℝ := fun x j => model.h s.k x j.1
  let (m, d) ← core cut s.x s.Px (fun j : y.Active => y.data j.1) h R
  return (m, { s with x := m.1, Px := m.2, last := .data y d })

/-- unscented.py:462-486, on the active outputs: the saved data, and the new `dx_dq` and `dPx_dq`. -/
noncomputable def coreDiff {a : Type} [Fintype a] [LinearOrder a] (cut : UT nx) (d : UCorr nx cut.nsigma p a)
    (dh_dq : (Fin nx → ℝ) → p → a → ℝ) (dh_dx : (Fin nx → ℝ) → Fin nx → a → ℝ) (dR_dq : p → Matrix a a ℝ)
    (dx_dq : p → Fin nx → ℝ) (dPx_dq : p → Matrix (Fin nx) (Fin nx) ℝ) :
    Py (UCorrDiff nx cut.nsigma a p × (p → Fin nx → ℝ) × (p → Matrix (Fin nx) (Fin nx) ℝ)) := do
  let dd ← cut.transformDiff d.ut dh_dq dh_dx dx_dq dPx_dq
  let dPxh_dq := cut.crosscovDiff d.ut dd
  let de_dq : p → a → ℝ := fun a => -dd.do_dq a
  let dPy_dq : p → Matrix a a ℝ := fun a => dd.dPo_dq a + dR_dq a
  let dPyI_dq : p → Matrix a a ℝ := fun a => of fun i l => -∑ j, ∑ k, d.PyI i j * dPy_dq a j k * d.PyI k l
  let dK_dq : p → Matrix (Fin nx) a ℝ := fun a => of fun i j => ∑ k, d.Pxh i k * dPyI_dq a k j
  let dK_dq : p → Matrix (Fin nx) a ℝ := fun a => dK_dq a + of fun i j => ∑ k, dPxh_dq a i k * d.PyI k j
  let dx_dq : p → Fin nx → ℝ := fun a => dx_dq a + fun i => ∑ j, dK_dq a i j * d.e j
  let dx_dq : p → Fin nx → ℝ := fun a => dx_dq a + fun i => ∑ j, d.K i j * de_dq a j
  let dPx_dq : p → Matrix (Fin nx) (Fin nx) ℝ := fun a => dPx_dq a - of fun i j => ∑ k, ∑ l, d.K i k * d.K j l * dPy_dq a l k
  let dK_dq__K__Py : p → Matrix (Fin nx) (Fin nx) ℝ := fun a => of fun i j => ∑ k, ∑ l, dK_dq a i k * d.K j l * d.Py l k
  let dPx_dq : p → Matrix (Fin nx) (Fin nx) ℝ := fun a => dPx_dq a - (dK_dq__K__Py a + (dK_dq__K__Py a)ᵀ)
  return (⟨de_dq, dK_dq, dPy_dq, dPyI_dq, dPxh_dq, dd⟩, dx_dq, dPx_dq)

/-- unscented.py:452-486 `correction_diff`. -/
noncomputable def correctionDiff {ns' : Nat} (cut : UT nx) (model : KModel nx o p) (s : UKF nx cut.nsigma ns' o p) :
    Py (UKF nx cut.nsigma ns' o p) := match s.last with
  | .never => .error .attributeError
  | .masked => .ok s
  | .data y d => do
    let (c, dx_dq, dPx_dq) ← coreDiff cut d (fun x a j => model.dh_dq s.k x a j.1) (fun x i j => model.dh_dx s.k x i j.1)
      (fun a => of fun i j => model.dR_dq a i.1 j.1) s.dx_dq s.dPx_dq
    return { s with dx_dq := dx_dq, dPx_dq := dPx_dq, last := .data y { d with diff := some c } }

/-- unscented.py:507-539, on the active outputs. -/
noncomputable def coreDiff2 {a : Type} [Fintype a] [LinearOrder a] (cut : UT nx) (d : UCorr nx cut.nsigma p a) (c : UCorrDiff nx cut.nsigma a p)
    (d2h_dq2 : (Fin nx → ℝ) → p → p → a → ℝ) (d2h_dx2 : (Fin nx → ℝ) → Fin nx → Fin nx → a → ℝ)
    (d2h_dx_dq : (Fin nx → ℝ) → p → Fin nx → a → ℝ) (d2R_dq2 : p → p → Matrix a a ℝ)
    (d2x_dq2 : p → p → Fin nx → ℝ) (d2Px_dq2 : p → p → Matrix (Fin nx) (Fin nx) ℝ) :
    UCorrDiff2 a p × (p → p → Fin nx → ℝ) × (p → p → Matrix (Fin nx) (Fin nx) ℝ) :=
  let d2 := cut.transformDiff2 d.ut c.ut d2h_dq2 d2h_dx2 d2h_dx_dq d2x_dq2 d2Px_dq2
  let d2Pxh_dq2 := cut.crosscovDiff2 d.ut c.ut d2
  let d2e_dq2 : p → p → a → ℝ := fun a b => -d2.d2o_dq2 a b
  let d2Py_dq2 : p → p → Matrix a a ℝ := fun a b => d2.d2Po_dq2 a b + d2R_dq2 a b
  let d2PyI : p → p → Matrix a a ℝ := fun a b => of fun i l => -∑ j, ∑ k, c.dPyI_dq a i j * c.dPy_dq b j k * d.PyI k l
  let d2PyI : p → p → Matrix a a ℝ := fun a b => d2PyI a b - of fun i l => ∑ j, ∑ k, d.PyI i j * d2Py_dq2 a b j k * d.PyI k l
  let d2PyI : p → p → Matrix a a ℝ := fun a b => d2PyI a b - of fun i l => ∑ j, ∑ k, d.PyI i j * c.dPy_dq b j k * c.dPyI_dq a k l
  let d2K : p → p → Matrix (Fin nx) a ℝ := fun a b => of fun i j => ∑ k, c.dPxh_dq a i k * c.dPyI_dq b k j
  let d2K : p → p → Matrix (Fin nx) a ℝ := fun a b => d2K a b + of fun i j => ∑ k, d.Pxh i k * d2PyI a b k j
  let d2K : p → p → Matrix (Fin nx) a ℝ := fun a b => d2K a b + of fun i j => ∑ k, d2Pxh_dq2 a b i k * d.PyI k j
  let d2K : p → p → Matrix (Fin nx) a ℝ := fun a b => d2K a b + of fun i j => ∑ k, c.dPxh_dq b i k * c.dPyI_dq a k j
  let d2x : p → p → Fin nx → ℝ := fun a b => d2x_dq2 a b + fun i => ∑ j, d2K a b i j * d.e j
  let d2x : p → p → Fin nx → ℝ := fun a b => d2x a b + fun i => ∑ j, c.dK_dq b i j * c.de_dq a j
  let d2x : p → p → Fin nx → ℝ := fun a b => d2x a b + fun i => ∑ j, c.dK_dq a i j * c.de_dq b j
  let d2x : p → p → Fin nx → ℝ := fun a b => d2x a b + fun i => ∑ j, d.K i j * d2e_dq2 a b j
  let d2P : p → p → Matrix (Fin nx) (Fin nx) ℝ := fun a b => d2Px_dq2 a b - of fun i j => ∑ k, ∑ l, d2K a b i k * d.K j l * d.Py l k
  let d2P : p → p → Matrix (Fin nx) (Fin nx) ℝ := fun a b => d2P a b - of fun i j => ∑ k, ∑ l, c.dK_dq b i k * c.dK_dq a j l * d.Py l k
  let d2P : p → p → Matrix (Fin nx) (Fin nx) ℝ := fun a b => d2P a b - of fun i j => ∑ k, ∑ l, c.dK_dq a i k * c.dK_dq b j l * d.Py l k
  let X : p → p → Matrix (Fin nx) (Fin nx) ℝ := fun a b => of fun i j => ∑ k, ∑ l, c.dK_dq b i k * d.K j l * c.dPy_dq a l k
  let X : p → p → Matrix (Fin nx) (Fin nx) ℝ := fun a b => X a b + (X a b)ᵀ
  let X : p → p → Matrix (Fin nx) (Fin nx) ℝ := fun a b => X a b + X b a
  let d2P : p → p → Matrix (Fin nx) (Fin nx) ℝ := fun a b => d2P a b - X a b
  let d2P : p → p → Matrix (Fin nx) (Fin nx) ℝ := fun a b => d2P a b - of fun i j => ∑ k, ∑ l, d.K i k * d2K a b j l * d.Py l k
  let d2P : p → p → Matrix (Fin nx) (Fin nx) ℝ := fun a b => d2P a b - of fun i j => ∑ k, ∑ l, d.K i k * d.K j l * d2Py_dq2 a b l k
  (⟨d2e_dq2, d2Py_dq2, d2PyI⟩, d2x, d2P)

/-- unscented.py:488-539 `correction_diff2`. -/
noncomputable def correctionDiff2 {ns' : Nat} (cut : UT nx) (model : KModel nx o p) (s : UKF nx cut.nsigma ns' o p) :
    Py (UKF nx cut.nsigma ns' o p) := match s.last with
  | .never => .error .attributeError
  | .masked => .ok s
  | .data y d => match d.diff with
    | none => .error .attributeError
    | some c =>
      let r := coreDiff2 cut d c (fun x a b j => model.d2h_dq2 s.k x a b j.1) (fun x i l j => model.d2h_dx2 s.k x i l j.1)
        (fun x a i j => model.d2h_dx_dq s.k x a i j.1) (fun a b => of fun i j => model.d2R_dq2 a b i.1 j.1) s.d2x_dq2 s.d2Px_dq2
      .ok { s with d2x_dq2 := r.2.1, d2Px_dq2 := r.2.2, last := .data y { d with diff2 := some r.1 } }

/-- unscented.py:541-548 `update_likelihood`. -/
noncomputable def updateLikelihood {ns ns' : Nat} (s : UKF nx ns ns' o p) : Py (UKF nx ns ns' o p) := match s.last with
  | .never => .error .attributeError
  | .masked => .ok s
  | .data y d =>
    let PyCD : y.Active → ℝ := fun k => d.PyC k k
    let L := s.L - 0.5 * ∑ i, ∑ j, d.e i * d.PyI i j * d.e j
    let L := L - ∑ k, Real.log (PyCD k)
    .ok { s with L := L, last := .data y { d with PyCD := some PyCD } }

/-- unscented.py:550-566 `likelihood_diff`. -/
noncomputable def likelihoodDiff {ns ns' : Nat} (s : UKF nx ns ns' o p) : Py (UKF nx ns ns' o p) := match s.last with
  | .never => .error .attributeError
  | .masked => .ok s
  | .data y d => match d.diff, d.PyCD with
    | some c, some PyCD => do
      let ch ← cholDiff d.PyC c.dPy_dq
      let dPyCD_dq : p → y.Active → ℝ := fun a k => ch.dS a k k
      let dL : p → ℝ := fun a => s.dL_dq a - ∑ k, dPyCD_dq a k / PyCD k
      let dL : p → ℝ := fun a => dL a - ∑ i, ∑ j, c.de_dq a i * d.PyI i j * d.e j
      let dL : p → ℝ := fun a => dL a - 0.5 * ∑ i, ∑ j, d.e i * c.dPyI_dq a i j * d.e j
      return { s with dL_dq := dL, last := .data y { d with chol := some ch } }
    | _, _ => .error .attributeError

/-- unscented.py:568-594 `likelihood_diff2`. -/
noncomputable def likelihoodDiff2 {ns ns' : Nat} (s : UKF nx ns ns' o p) : Py (UKF nx ns ns' o p) := match s.last with
  | .never => .error .attributeError
  | .masked => .ok s
  | .data _ d => match d.diff, d.diff2, d.PyCD, d.chol with
    | some c, some c2, some PyCD, some ch =>
      let d2PyC := cholDiff2 ch c2.d2Py_dq2
      let d2L : p → p → ℝ := fun a b => s.d2L_dq2 a b - ∑ k, d2PyC a b k k / PyCD k
      let d2L : p → p → ℝ := fun a b => d2L a b + ∑ k, ch.dS a k k * (ch.dS b k k / PyCD k ^ 2)
      let d2L : p → p → ℝ := fun a b => d2L a b - ∑ i, ∑ j, c.de_dq a i * d.PyI i j * c.de_dq b j
      let d2L : p → p → ℝ := fun a b => d2L a b - ∑ i, ∑ j, c2.d2e_dq2 a b i * d.PyI i j * d.e j
      let d2L : p → p → ℝ := fun a b => d2L a b - 0.5 * ∑ i, ∑ j, d.e i * c2.d2PyI_dq2 a b i j * d.e j
      let X : p → p → ℝ := fun a b => ∑ i, ∑ j, c.de_dq a i * c.dPyI_dq b i j * d.e j
      let d2L : p → p → ℝ := fun a b => d2L a b - X a b
      let d2L : p → p → ℝ := fun a b => d2L a b - X b a
      .ok { s with d2L_dq2 := d2L }
    | _, _, _, _ => .error .attributeError

/-- unscented.py:343-362 `prediction_diff`. -/
noncomputable def predictionDiff {ns : Nat} (put : UT nx) (model : KModel nx o p) (s : UKF nx ns put.nsigma o p) :
    Py (UKF nx ns put.nsigma o p) := match s.pred with
  | none => .error .attributeError
  | some pr => do
    let k := s.k - 1
    let dd ← put.transformDiff pr.ut (model.df_dq k) (model.df_dx k) s.dx_dq s.dPx_dq
    let dQ_dq := model.dQ_dq k pr.prev_x
    let dQ_dx := model.dQ_dx k pr.prev_x
    let DQ_Dq : p → Matrix (Fin nx) (Fin nx) ℝ := fun a => dQ_dq a + of fun k l => ∑ j, s.dx_dq a j * dQ_dx j k l
    return { s with pred := some { pr with diff := some (dd, dQ_dx, s.dx_dq) }, dx_dq := dd.do_dq, dPx_dq := fun a => dd.dPo_dq a + DQ_Dq a }

/-- unscented.py:364-387 `prediction_diff2`. -/
noncomputable def predictionDiff2 {ns : Nat} (put : UT nx) (model : KModel nx o p) (s : UKF nx ns put.nsigma o p) :
    Py (UKF nx ns put.nsigma o p) := match s.pred with
  | none => .error .attributeError
  | some pr => match pr.diff with
    | none => .error .attributeError
    | some (dd, dQ_dx, dx_dq) =>
      let k := s.k - 1
      let d2 := put.transformDiff2 pr.ut dd (model.d2f_dq2 k) (model.d2f_dx2 k) (model.d2f_dx_dq k) s.d2x_dq2 s.d2Px_dq2
      let d2Q_dx_dq := model.d2Q_dx_dq k pr.prev_x
      let D2Q : p → p → Matrix (Fin nx) (Fin nx) ℝ := fun a b => of fun k l => ∑ i, dx_dq b i * d2Q_dx_dq a i k l
      let D2Q : p → p → Matrix (Fin nx) (Fin nx) ℝ := fun a b => D2Q a b + D2Q b a
      let D2Q : p → p → Matrix (Fin nx) (Fin nx) ℝ := fun a b => D2Q a b + model.d2Q_dq2 k pr.prev_x a b
      let D2Q : p → p → Matrix (Fin nx) (Fin nx) ℝ := fun a b => D2Q a b + of fun k l => ∑ i, s.d2x_dq2 a b i * dQ_dx i k l
      let D2Q : p → p → Matrix (Fin nx) (Fin nx) ℝ := fun a b => D2Q a b + of fun m l =>
        ∑ i, ∑ j, dx_dq b i * model.d2Q_dx2 k pr.prev_x j i m l * dx_dq a j
      .ok { s with d2x_dq2 := d2.d2o_dq2, d2Px_dq2 := fun a b => d2.d2Po_dq2 a b + D2Q a b }

omit [Fintype o] in
/-- unscented.py:389-390 `prediction_crosscov`. -/
noncomputable def predictionCrosscov {ns : Nat} (put : UT nx) (s : UKF nx ns put.nsigma o p) : Py (Matrix (Fin nx) (Fin nx) ℝ) :=
  match s.pred with
  | none => .error .attributeError
  | some pr => .ok (put.crosscov pr.ut)

/-- unscented.py:597-598 `DTFilter`; the transforms of the predictor and of the corrector. -/
noncomputable def cls (put cut : UT nx) (model : KModel nx o p) : FilterClass nx (MaskedRow o) p (UKF nx cut.nsigma put.nsigma o p) where
  attrs := UKF.toFilterAttrs
  correct := correct cut model
  predict := predict put model
  predictionCrosscov := predictionCrosscov put
  correctionDiff := correctionDiff cut model
  correctionDiff2 := correctionDiff2 cut model
  updateLikelihood := updateLikelihood
  likelihoodDiff := likelihoodDiff
  likelihoodDiff2 := likelihoodDiff2
  predictionDiff := predictionDiff put model
  predictionDiff2 := predictionDiff2 put model

end UKF
end Ceacoest
