import Verif.Model.Optim
import Verif.Model.RK

/-!
# `ceacoest/col.py`, `oc.py`, `oem.py`, `jme.py`: the problem classes

A model object is given by the attributes that the constructors read.  `self.collocation` is `rk.LGLCollocation`
(`Verif.Model.RK`); numbers are real.  An exception in a constructor leaves no problem object, so a constructor is a
`Py` computation.
-/

namespace Ceacoest

/-- `add_decision` inside a constructor: an exception propagates. -/
def Problem.addDecision' {α : Type} (p : Problem α) (name : String) (shape : ShapeArg) : Py (Problem α × Component) := do
  let r := p.addDecision (.str name) shape
  return (r.1, ← r.2)

/-- `add_dependent_variable` inside a constructor. -/
def Problem.addDependent' {α : Type} (p : Problem α) (name : String) (spec : VarSpec) : Py (Problem α) := do
  let r := p.addDependent (.str name) spec
  let _ ← r.2
  return r.1

/-! ### `col.py` -/

/-- The attributes of a model that col.py:14-51 reads. -/
structure ColModel where
  collocationOrder : Int
  nx : Nat
  e : GenFun ℝ

/-- The attributes of a `col.Problem` (col.py:14-45). -/
structure ColProblem where
  prob : Problem ℝ
  model : ColModel
  collocation : RK.Collocation ℝ
  pieceLen : List ℝ
  npieces : Nat
  tc : List ℝ
  npoints : Nat

namespace ColProblem

/-- col.py:47-51 `_init_collocation_variables`. -/
def initVars (q : ColProblem) : Py ColProblem := do
  let (p, x) ← q.prob.addDecision' "x" (.tuple [q.npoints, q.model.nx])
  let p ← p.addDependent' "xp" (.piece ⟨x, q.npieces, q.collocation.n⟩)
  return { q with prob := p }

/-- col.py:14-45 `Problem.__init__`.  `init` is the (overridable) method `_init_collocation_variables`. -/
noncomputable def create (init : ColProblem → Py ColProblem) (model : ColModel) (t : NDArray ℝ) : Py ColProblem := do
  let col ← RK.lglCollocation model.collocationOrder
  pyAssert (t.shape.length = 1)
  let pieceLen := RK.diff t.data
  pyAssert (∀ d ∈ pieceLen, d > 0)
  let npieces := pieceLen.length
  let tc ← RK.grid col.points t.data
  let npoints := tc.length
  let q ← init ⟨Problem.empty, model, col, pieceLen, npieces, tc, npoints⟩
  let p := q.prob.addConstraint model.e (.tuple [npieces, col.ninterv, model.nx]) none
  -- col.py:53-55: `variables` adds `piece_len`
  return { q with prob := { p with extra := [("piece_len", ⟨[npieces], pieceLen⟩)] } }

end ColProblem

/-! ### `oc.py` -/

/-- The attributes of a model that oc.py:14-35 reads. -/
structure OCModel extends ColModel where
  nu : Nat
  np : Nat
  ng : Nat
  nh : Nat
  IL : GenFun ℝ
  M : GenFun ℝ
  g : GenFun ℝ
  h : GenFun ℝ

/-- oc.py:14-35 `Problem.__init__`. -/
noncomputable def ocProblem (model : OCModel) (t : NDArray ℝ) : Py ColProblem := do
  let q ← ColProblem.create ColProblem.initVars model.toColModel t
  let ncol := q.collocation.n
  let x ← Dict.getItem q.prob.decision "x"
  let (p, u) ← q.prob.addDecision' "u" (.tuple [q.npoints, model.nu])
  let (p, _) ← p.addDecision' "p" (.int model.np)
  let p ← p.addDependent' "up" (.piece ⟨u, q.npieces, ncol⟩)
  let p ← p.addDependent' "xe" (.xe ⟨x⟩)
  let p := p.addObjective model.IL (.int q.npieces) none
  let p := p.addObjective model.M (.tuple []) none
  let p := p.addConstraint model.g (.tuple [q.npoints, model.ng]) none
  let p := p.addConstraint model.h (.int model.nh) none
  return { q with prob := p }

/-! ### `oem.py` -/

/-- The attributes of a model that oem.py:12-55 reads. -/
structure OEMModel extends ColModel where
  nu : Nat
  np : Nat
  ny : Nat
  L : GenFun ℝ

/-- `np.asanyarray(y)` with `np.ma.getmaskarray(y)`, an array of the same shape (`True` = masked). -/
structure MaskedArray where
  arr : NDArray ℝ
  mask : List Bool

/-- What the argument `u` (or the result of calling it) can be. -/
inductive UValue
  | array (a : NDArray ℝ)
  | other

/-- The argument `u`: a value or a callable. -/
inductive UArg
  | value (v : UValue)
  | callable (f : List ℝ → Py UValue)

/-- oem.py:32-33 `if callable(u): u = u(self.tc)`. -/
def UArg.resolve (u : UArg) (tc : List ℝ) : Py UValue :=
  match u with
  | .value v => .ok v
  | .callable f => f tc

/-- oem.py:34 `assert isinstance(u, np.ndarray)`. -/
def UValue.asArray : UValue → Py (NDArray ℝ)
  | .array a => .ok a
  | .other => .error .assertionError

/-- The attributes that oem.py:12-55 adds. -/
structure OEMProblem extends ColProblem where
  kmeas : List Nat
  y : MaskedArray
  nmeas : Nat
  u : NDArray ℝ
  um : NDArray ℝ
  up : NDArray ℝ

/-- oem.py:22 `np.nonzero(np.any(~ymask, axis=1))`, for a mask of shape `(ncoarse, ny)`. -/
def activeRows (mask : List Bool) (ncoarse ny : Nat) : List Nat :=
  (List.range ncoarse).filter fun k => (List.range ny).any fun j => !(mask.getD (k * ny + j) false)

/-- oem.py:26, 39 `a[rows]` on a two-dimensional array. -/
def takeRows {α : Type} (a : List α) (shape : List Nat) (rows : List Nat) : Py (List α) := do
  let n ← match shape with | n :: _ => pure n | [] => .error .indexError
  let rows ← rows.mapM fun (k : Nat) => pyIndex n (k : Int)
  readAt a (selPos shape [rows])

/-- oem.py:42-46: the piece-ravelled inputs, statement by statement. -/
def oemUp (u : NDArray ℝ) (npieces ncol npoints nu : Nat) : Py (NDArray ℝ) := do
  let sh := [npieces, ncol, nu]
  let up := (NDArray.zeros sh : NDArray ℝ).data
  -- up[:, :-1].flat = u[:-1, :].flat
  let src ← readAt u.data (selPos u.shape [sliceIdx npoints none (some (-1)) 1, sliceIdx nu none none 1])
  let up ← flatAssign up (selPos sh [sliceIdx npieces none none 1, sliceIdx ncol none (some (-1)) 1]) src
  -- up[:-1, -1] = up[1:, 0]
  let last ← pyIndex ncol (-1)
  let first ← pyIndex ncol 0
  let src ← readAt up (selPos sh [sliceIdx npieces (some 1) none 1, [first]])
  let up := writeAt up (selPos sh [sliceIdx npieces none (some (-1)) 1, [last]]) src
  -- up[-1, -1] = u[-1]
  let lastPiece ← pyIndex npieces (-1)
  let lastPoint ← pyIndex npoints (-1)
  let src ← readAt u.data (selPos u.shape [[lastPoint]])
  let up := writeAt up (selPos sh [[lastPiece], [last]]) src
  return ⟨sh, up⟩

/-- oem.py:12-60 `Problem.__init__`, with the constants that `variables` adds (the mask of `y`, which travels with the
array in the code, is kept in the attribute `y` only). -/
noncomputable def oemProblem (init : ColProblem → Py ColProblem) (model : OEMModel) (t : NDArray ℝ) (y : MaskedArray) (u : UArg) :
    Py OEMProblem := do
  let q ← ColProblem.create init model.toColModel t
  -- oem.py:16 `ncoarse = len(t)`
  let ncoarse := t.data.length
  pyAssert (y.arr.shape = [ncoarse, model.ny])
  let kmeasCoarse := activeRows y.mask ncoarse model.ny
  let kmeas := kmeasCoarse.map (· * q.collocation.ninterv)
  let yd ← takeRows y.arr.data [ncoarse, model.ny] kmeasCoarse
  let ym ← takeRows y.mask [ncoarse, model.ny] kmeasCoarse
  let nmeas := kmeas.length
  let uv ← u.resolve q.tc
  let ua ← uv.asArray
  pyAssert (ua.shape = [q.npoints, model.nu])
  let um ← takeRows ua.data [q.npoints, model.nu] kmeas
  let up ← oemUp ua q.npieces q.collocation.n q.npoints model.nu
  let (p, _) ← q.prob.addDecision' "p" (.int model.np)
  let x ← Dict.getItem p.decision "x"
  let p ← p.addDependent' "xm" (.xm ⟨x, kmeas⟩)
  let p := p.addObjective model.L (.int nmeas) (some ["y", "xm", "um", "p"])
  let ya : NDArray ℝ := ⟨[nmeas, model.ny], yd⟩
  let uma : NDArray ℝ := ⟨[nmeas, model.nu], um⟩
  -- oem.py:57-60 `{'y': ..., 'um': ..., 'u': ..., 'up': ..., **super().variables(dvec)}`
  let extra := Dict.update [("y", ya), ("um", uma), ("u", ua), ("up", up)] p.extra
  let q := { q with prob := { p with extra := extra } }
  return ⟨q, kmeas, ⟨ya, ym⟩, nmeas, ua, uma, up⟩

/-! ### `jme.py` -/

/-- The attributes of a model that jme.py reads.  `penalty` and `penweight` are only there for models that use a penalty. -/
structure JMEModel extends OEMModel where
  nw : Nat
  tubeL : GenFun ℝ
  G : NDArray ℝ
  usePenalty : Option Bool
  penalty : Option (GenFun ℝ)
  penweight : Option (NDArray ℝ)

/-- jme.py:22-29 `_init_collocation_variables`. -/
def jmeInitVars (nw : Nat) (q : ColProblem) : Py ColProblem := do
  let q ← q.initVars
  let (p, _) ← q.prob.addDecision' "wc" (.tuple [q.npieces, q.collocation.ninterv, nw])
  return { q with prob := p }

/-- jme.py:12-34 `Problem.__init__` and `variables`.  Simplification: a missing `penweight`, which the code passes on as
`None`, is left out of the constants. -/
noncomputable def jmeProblem (model : JMEModel) (t : NDArray ℝ) (y : MaskedArray) (u : UArg) : Py OEMProblem := do
  let q ← oemProblem (jmeInitVars model.nw) model.toOEMModel t y u
  let p := q.prob.addObjective model.tubeL (.int q.npieces) none
  let p ← if model.usePenalty.getD false then
      match model.penalty with
      | some f => pure (p.addObjective f (.int q.npieces) none)
      | none => .error .attributeError
    else pure p
  let own := (match model.penweight with | some w => [("penweight", w)] | none => []) ++ [("G", model.G)]
  return { q with prob := { p with extra := Dict.update own p.extra } }

end Ceacoest
