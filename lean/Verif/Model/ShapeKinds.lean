import Verif.Model.GenOptim

/-!
# `ceacoest/optim.py`, `ceacoest/modelling/genoptim.py`: shapes that are lists

`Model.Optim` has shapes that are numbers or tuples. The methods of problems also take lists, which nothing turns into tuples. Sizes, slices, `np.reshape` and `np.broadcast_to` only use the numbers in
a shape; here are the functions that use more: `_shape_ext`, which compares a slice of a shape with a tuple, `ndim_range`, which asks for a tuple, and what calls them. Base shapes are tuples.
-/

namespace Ceacoest

/-- The argument `shape` of the `add_*` methods. -/
inductive ShapeGiven
  | int (n : Nat)
  | tuple (l : List Nat)
  | list (l : List Nat)

/-- A shape as it is stored. -/
inductive PyShape
  | tuple (l : List Nat)
  | list (l : List Nat)

/-- optim.py:44-45, 53-54, 69-70, 280: numbers become tuples. -/
def ShapeGiven.stored : ShapeGiven → PyShape
  | .int n => .tuple [n]
  | .tuple l => .tuple l
  | .list l => .list l

/-- The numbers in a shape. -/
def PyShape.dims : PyShape → List Nat
  | .tuple l => l
  | .list l => l

/-- `isinstance(shape, tuple)`. -/
def PyShape.isTuple : PyShape → Bool
  | .tuple _ => true
  | .list _ => false

/-- genoptim.py:59-74 `_shape_ext`, given the base shape. Slices of lists are lists, and no list is equal to a tuple. -/
def shapeExtK (shape : Option PyShape) (base : List Nat) : Py PyShape := match shape with
  | none => .ok (.tuple [])
  | some sh =>
    if base = [] then .ok sh
    else match sh with
      | .tuple l => do
        pyAssert (l.drop (l.length - base.length) = base)
        return .tuple (l.take (l.length - base.length))
      | .list _ => .error .assertionError

/-- genoptim.py:247-249 `ndim_range`. -/
def ndimRangeK (shape : PyShape) : Py (NDArray Nat) := do
  pyAssert (shape.isTuple = true)
  return ndimRange shape.dims

namespace GenFun
variable {α : Type _}

/-- genoptim.py:76-82 `_sparse_deriv_nnz`. -/
def sparseNnzK (f : GenFun α) (deriv : Dict (List String) (SparseDeriv α)) (outShape : PyShape) : Py Nat := do
  let extSz := (← shapeExtK (some outShape) f.outShape).dims.prod
  return deriv.foldl (fun nnz d => nnz + d.2.nnz * extSz) 0

/-- genoptim.py:59-74 `_shape_ext(wrt_shape, wrt_name)`. -/
def extVarK (f : GenFun α) (shape : Option PyShape) (name : String) : Py PyShape := match shape with
  | none => .ok (.tuple [])
  | some sh => do shapeExtK (some sh) (← Dict.getItem f.baseShapes name)

/-- genoptim.py:89-97: the row of one differentiated argument. -/
def wrtRowK (f : GenFun α) (decShapes : Dict String PyShape) (outShape : PyShape) (wrtName : String) (wrtInd : List Nat) : Py (List Nat) := do
  let wrtExt ← f.extVarK (Dict.get? decShapes wrtName) wrtName
  let wrtSz := (← Dict.getItem f.baseShapes wrtName).prod
  let outExt ← shapeExtK (some outShape) f.outShape
  let r ← ndimRangeK wrtExt
  let offs ← broadcastTo (⟨r.shape, r.data.map (· * wrtSz)⟩ : NDArray Nat) outExt.dims
  return offs.data.flatMap fun o => wrtInd.map (· + o)

/-- genoptim.py:84-106 `_sparse_deriv_ind`, one dictionary entry. -/
def derivIndK (f : GenFun α) (decShapes : Dict String PyShape) (outShape : PyShape) (wrt : List String) (d : SparseDeriv α) : Py (List (List Nat)) := do
  let rows ← (wrt.zip d.ind).mapM fun wi => f.wrtRowK decShapes outShape wi.1 wi.2
  if wrt.zip d.ind = [] then .error .nameError else
  let outExt ← shapeExtK (some outShape) f.outShape
  let outInd ← match d.ind.getLast? with | some r => pure r | none => .error .indexError
  let r ← ndimRangeK outExt
  let outRow := r.data.flatMap fun e => outInd.map (· + e * f.outShape.prod)
  return rows ++ [outRow]

/-- genoptim.py:84-106 `_sparse_deriv_ind`. -/
def sparseIndK (f : GenFun α) (deriv : Dict (List String) (SparseDeriv α)) (decShapes : Dict String PyShape) (outShape : PyShape) : Py (Dict (List String) (List (List Nat))) :=
  deriv.mapM fun wd => do return (wd.1, ← f.derivIndK decShapes outShape wd.1 wd.2)

end GenFun
end Ceacoest
