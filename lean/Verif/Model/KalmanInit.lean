import Verif.Model.Kalman
import Verif.Model.Utils

/-!
# The constructors of the filters: `ceacoest/kalman/base.py`, lines 18-74, and `ceacoest/kalman/unscented.py`, lines 316-326, 395-405

An option may be any Python value, so the values are of an arbitrary type `V` with the operations that the constructors apply to them.
-/

namespace Ceacoest.KalmanInit

/-- Python values, and what NumPy makes of them. -/
structure Values (V : Type) where
  /-- `np.zeros(shape)` -/
  zeros : List Nat → V
  /-- `np.asarray(v)` -/
  asarray : V → V
  /-- `v.shape` -/
  shape : V → List Nat
  /-- `0` -/
  int0 : V
  /-- `0.0` -/
  float0 : V
  /-- `v == s` for a string `s` -/
  eqStr : V → String → Bool
  /-- the number that `v` is in `ni + v`; TypeError if it is none -/
  number : V → Py ℝ

/-- What the constructors ask of a model. -/
structure Source (V : Type) where
  nx : Nat
  /-- the attribute `nq`, if there is one -/
  nq : Option Nat
  /-- `getattr(model, name)()`: AttributeError if there is no such method, or what the method raises -/
  call : List Char → Py V

/-- `try: body; except err: handler`. -/
def tryExcept {α : Type} (body : Py α) (err : PyErr) (handler : Py α) : Py α := match body with
  | .ok v => .ok v
  | .error e => if e = err then handler else .error e

/-- base.py:70 `key.replace('x', 'x0')`. -/
def replaceX (key : List Char) : List Char := key.flatMap fun c => if c = 'x' then ['x', '0'] else [c]

/-- base.py:66-73 `_get_initial`; `base` is `self.base_shape`. -/
def getInitial {V : Type} (env : Values V) (model : Source V) (base : List Nat) (key : List Char) (options : Dict (List Char) V)
    (shape : List Nat) : Py V :=
  tryExcept (do return env.asarray (← options.getItem key)) .keyError <|
    tryExcept (model.call (replaceX key)) .attributeError <|
      .ok (env.zeros (base ++ shape))

/-- The attributes that the constructor sets. -/
structure Attrs (V : Type) where
  x : V
  Px : V
  k : V
  L : V
  base_shape : List Nat
  dL_dq : V
  d2L_dq2 : V
  dx_dq : V
  dPx_dq : V
  d2x_dq2 : V
  d2Px_dq2 : V

/-- base.py:30 and 33: `model.name() if v is None else np.asarray(v)`. -/
def moment {V : Type} (env : Values V) (model : Source V) (name : List Char) (v : Option V) : Py V := match v with
  | none => model.call name
  | some v => .ok (env.asarray v)

/-- base.py:18-64 `DTFilter.__init__`. -/
def init {V : Type} (env : Values V) (model : Source V) (x Px : Option V) (options : Dict (List Char) V) : Py (Attrs V) := do
  let x ← moment env model "x0".toList x
  let Px ← moment env model "Px0".toList Px
  let k := (options.get? "k".toList).getD env.int0
  let L := (options.get? "L".toList).getD env.float0
  let nq := model.nq.getD 0
  let nx := model.nx
  let base := (env.shape x).dropLast
  let dL_dq := (options.get? "dL_dq".toList).getD (env.zeros (base ++ [nq]))
  let d2L_dq2 := (options.get? "dL_dq".toList).getD (env.zeros (base ++ [nq, nq]))
  let dx_dq ← getInitial env model base "dx_dq".toList options [nq, nx]
  let dPx_dq ← getInitial env model base "dPx_dq".toList options [nq, nx, nx]
  let d2x_dq2 ← getInitial env model base "d2x_dq2".toList options [nq, nq, nx]
  let d2Px_dq2 ← getInitial env model base "d2Px_dq2".toList options [nq, nq, nx, nx]
  return ⟨x, Px, k, L, base, dL_dq, d2L_dq2, dx_dq, dPx_dq, d2x_dq2, d2Px_dq2⟩

/-- `np.linalg.svd` on square matrices of any size. -/
abbrev Svd := (n : Nat) → Matrix (Fin n) (Fin n) ℝ → Py (Matrix (Fin n) (Fin n) ℝ × (Fin n → ℝ) × Matrix (Fin n) (Fin n) ℝ)

/-- unscented.py:303-311 `choose_ut_transform_class`. -/
def chooseClass {V : Type} (env : Values V) (svd : Svd) (n : Nat) (options : Dict (List Char) V) : Py (SqrtKind (Fin n)) :=
  match options.get? "sqrt".toList with
  | none => .ok .cholesky
  | some sqrt =>
    if env.eqStr sqrt "cholesky" then .ok .cholesky
    else if env.eqStr sqrt "svd" then .ok (.svd (svd n))
    else .error .valueError

/-- `UTClass(model.nx, **ut_options)`: the parameters `self` and `ni` are taken, so that an option of that name raises TypeError;
unscented.py:44-58. -/
noncomputable def makeTransform {V : Type} (env : Values V) (n : Nat) (kind : SqrtKind (Fin n)) (options : Dict (List Char) V) : Py (UT n) :=
  if options.contains "self".toList || options.contains "ni".toList then .error .typeError
  else match options.get? "kappa".toList with
    | none => UT.init n kind 0
    | some v => do UT.init n kind (← env.number v)

/-- unscented.py:320-326 and 399-405: the options with the prefix `pre` override the others.  `word` is the class `\w`. -/
noncomputable def transformOf {V : Type} (env : Values V) (svd : Svd) (word : Char → Bool) (n : Nat) (pre : List Char)
    (options : Dict (List Char) V) : Py (UT n) := do
  let ut_options := Dict.update options (Utils.extractSubkeys word options pre)
  let kind ← chooseClass env svd n ut_options
  makeTransform env n kind ut_options

/-- unscented.py:316-326, 395-405, 597: `DTFilter(DTPredictor, DTCorrector)`; `super().__init__` of the predictor is that of the corrector,
whose own is the base's.  The attributes, the transform of the predictor and the transform of the corrector. -/
noncomputable def initUKF {V : Type} (env : Values V) (svd : Svd) (word : Char → Bool) (model : Source V) (x Px : Option V)
    (options : Dict (List Char) V) : Py (Attrs V × UT model.nx × UT model.nx) := do
  let a ← init env model x Px options
  let corr ← transformOf env svd word model.nx "corr_ut_".toList options
  let pred ← transformOf env svd word model.nx "pred_ut_".toList options
  return (a, pred, corr)

end Ceacoest.KalmanInit
