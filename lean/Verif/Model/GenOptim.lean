import Verif.NumPy.Basic

/-!
# `ceacoest/modelling/genoptim.py`: functions of generated optimization models

The generated code itself (sym2num output) is a parameter: `method`, the dense gradients and the sparse
derivative value functions are arbitrary functions of the argument arrays.
-/

namespace Ceacoest

/-- The three attributes `{dname}_nnz`, `{dname}_ind`, `{dname}_val` that genoptim.py:80, 88, 111 read from the
model for a sparse derivative `dname` (created at symoptim.py:146-154, 52-55).  `ind` is a list of index rows, one
per differentiated argument and a last one for the output. -/
structure SparseDeriv (α : Type _) where
  nnz : Nat
  ind : List (List Nat)
  val : List (NDArray α) → NDArray α

/-- genoptim.py:33-50, 128-139, 178-187, 206-225: an instance of a generated `OptimizationFunction` subclass.
`argNames` is the bound signature (genoptim.py:45, 228-232), `outShape` is `()` for objectives (genoptim.py:35) and
`desc['shape']` for constraints (genoptim.py:210), `baseShapes` is `model.base_shapes`.  Objectives have `jac = []` and
constraints have `grad = []`. -/
structure GenFun (α : Type _) where
  name : String
  argNames : List String
  outShape : List Nat
  baseShapes : Dict String (List Nat)
  method : List (NDArray α) → NDArray α
  grad : Dict String (List (NDArray α) → NDArray α)
  jac : Dict (List String) (SparseDeriv α)
  hess : Dict (List String) (SparseDeriv α)

/-- genoptim.py:59-74 `_shape_ext`, given the base shape: strip the base shape from the end. -/
def shapeExt (shape : Option (List Nat)) (base : List Nat) : Py (List Nat) :=
  match shape with
  | none => .ok []
  | some sh =>
    if base = [] then .ok sh
    else do
      pyAssert (sh.drop (sh.length - base.length) = base)
      return sh.take (sh.length - base.length)

/-- genoptim.py:247-249 `ndim_range`. -/
def ndimRange (shape : List Nat) : NDArray Nat := ⟨shape, List.range shape.prod⟩

namespace GenFun
variable {α : Type _}

/-- genoptim.py:64-67: base shape of the output / of a variable (a missing variable raises KeyError). -/
def extOut (f : GenFun α) (outShape : List Nat) : Py (List Nat) := shapeExt (some outShape) f.outShape

/-- genoptim.py:59-74 `_shape_ext(wrt_shape, wrt_name)`. -/
def extVar (f : GenFun α) (shape : Option (List Nat)) (name : String) : Py (List Nat) :=
  match shape with
  | none => .ok []
  | some sh => do shapeExt (some sh) (← Dict.getItem f.baseShapes name)

/-- genoptim.py:76-82 `_sparse_deriv_nnz`. -/
def sparseNnz (f : GenFun α) (deriv : Dict (List String) (SparseDeriv α)) (outShape : List Nat) : Py Nat := do
  let extSz := (← f.extOut outShape).prod
  return deriv.foldl (fun nnz d => nnz + d.2.nnz * extSz) 0

/-- genoptim.py:89-97: index row of one differentiated argument, flattened (optim.py ravels it). -/
def wrtRow (f : GenFun α) (decShapes : Dict String (List Nat)) (outShape : List Nat)
    (wrtName : String) (wrtInd : List Nat) : Py (List Nat) := do
  let wrtExt ← f.extVar (Dict.get? decShapes wrtName) wrtName
  let wrtSz := (← Dict.getItem f.baseShapes wrtName).prod
  let outExt ← f.extOut outShape
  let r := ndimRange wrtExt
  let offs ← broadcastTo (⟨r.shape, r.data.map (· * wrtSz)⟩ : NDArray Nat) outExt
  return offs.data.flatMap fun o => wrtInd.map (· + o)

/-- genoptim.py:84-106 `_sparse_deriv_ind`, one dictionary entry.  The loop variable `out_ext` is used after the loop:
with no argument it would be unbound (NameError). Simplification: with no argument in a later entry the value of the entry before would be
used, and with no index rows at all IndexError comes first; entries of described derivatives have one or two arguments and one row more. -/
def derivInd (f : GenFun α) (decShapes : Dict String (List Nat)) (outShape : List Nat)
    (wrt : List String) (d : SparseDeriv α) : Py (List (List Nat)) := do
  let rows ← (wrt.zip d.ind).mapM fun wi => f.wrtRow decShapes outShape wi.1 wi.2
  if wrt.zip d.ind = [] then .error .nameError else
  let outExt ← f.extOut outShape
  let outInd ← match d.ind.getLast? with | some r => pure r | none => .error .indexError
  let outRow := (ndimRange outExt).data.flatMap fun e => outInd.map (· + e * f.outShape.prod)
  return rows ++ [outRow]

/-- genoptim.py:84-106 `_sparse_deriv_ind`. -/
def sparseInd (f : GenFun α) (deriv : Dict (List String) (SparseDeriv α))
    (decShapes : Dict String (List Nat)) (outShape : List Nat) : Py (Dict (List String) (List (List Nat))) :=
  deriv.mapM fun wd => do return (wd.1, ← f.derivInd decShapes outShape wd.1 wd.2)

/-- genoptim.py:108-112 `_sparse_deriv_val`. -/
def sparseVal (deriv : Dict (List String) (SparseDeriv α)) (args : List (NDArray α)) :
    Dict (List String) (NDArray α) :=
  deriv.map fun wd => (wd.1, wd.2.val args)

/-- genoptim.py:169 `grad_val.reshape(-1, *wrt_shape).sum(0)`. -/
def reshapeSum [Zero α] [Add α] (g : NDArray α) (wrtShape : List Nat) : Py (NDArray α) :=
  let sz := wrtShape.prod
  if sz = 0 ∨ g.data.length % sz ≠ 0 then .error .valueError
  else .ok ⟨wrtShape, (List.range sz).map fun b =>
    (List.range (g.data.length / sz)).foldl (fun acc r => acc + (g.data[r * sz + b]?).getD 0) 0⟩

/-- genoptim.py:149-170 `ObjectiveFunction.grad`, for positional arguments (optim.py:421-422 passes them so). -/
def gradFun [Zero α] [Add α] (f : GenFun α) (args : List (NDArray α)) : Py (Dict String (NDArray α)) :=
  f.grad.foldlM (fun ret wd => do
    let g := wd.2 args
    if g.data.length = 0 then return ret
    match f.argNames.findIdx? (· = wd.1) with
    | none => .error .keyError
    | some i =>
      match args[i]? with
      | none => .error .indexError
      | some a => return Dict.set ret wd.1 (← reshapeSum g a.shape)) []

end GenFun
end Ceacoest
