import Verif.Model.SymOptim

/-!
# `ceacoest/modelling/genoptim.py`: the classes that the metaclass makes

`Model.SymOptim` says which functions a generated model has. Here are the classes and attributes through which it has them: `optimization_meta`, which replaces methods by classes of functions, and these
classes, which are descriptors. `optimization_meta` is a function, and what it returns is an ordinary class; derived classes are made without it. Simplifications: functions have parameters without
default values and are called by position; of the objects that are neither functions nor the arrays of derivatives nothing is known but that they cannot be called; classes and their bases have no
`__getattr__` and no data descriptors.
-/

namespace Ceacoest
namespace GenMeta

/-- genoptim.py:173, 201: the two metaclasses of functions. -/
inductive Kind
  | constraint
  | objective
  deriving DecidableEq

/-- `desc` of genoptim.py:16, 23: the descriptions of both kinds. -/
structure Desc where
  shape : List Nat := []
  grad : Dict String String := []
  jac : Dict (List String) String := []
  hess : Dict (List String) String

/-- What a class or object can have under a name: a function, number and indices of the non-zeros of a derivative, `base_shapes`, a class of functions, or anything else. -/
inductive Attr (α : Type)
  | func (params : List String) (body : List (NDArray α) → NDArray α)
  | nnz (n : Nat)
  | ind (rows : List (List Nat))
  | shapes (s : Dict String (List Nat))
  | fclass (kind : Kind) (name : String) (method : Attr α) (desc : Desc)
  | other

/-- A class: the dictionaries of the classes in its MRO, its own first. -/
abbrev Cls (α : Type) := List (Dict String (Attr α))

variable {α : Type}

/-- `getattr(cls, name)`. Classes of functions return themselves (genoptim.py:141-143). -/
def Cls.getattr (c : Cls α) (n : String) : Py (Attr α) := match c.findSome? (Dict.get? · n) with
  | some a => .ok a
  | none => .error .attributeError

/-- `setattr(cls, name, a)`. -/
def Cls.setattr : Cls α → String → Attr α → Cls α
  | [], _, _ => []
  | d :: r, n, a => Dict.set d n a :: r

/-- Whether something can be called. -/
def Attr.callable : Attr α → Bool
  | .func _ _ => true
  | .fclass _ _ _ _ => true
  | _ => false

/-- genoptim.py:128-139, 178-187, 206-225: a class of functions. `inspect.signature` of what cannot be called raises TypeError. -/
def functionClass (kind : Kind) (name : String) (method : Attr α) (desc : Desc) : Py (Attr α) :=
  if method.callable then .ok (.fclass kind name method desc) else .error .typeError

/-- genoptim.py:16-21, 23-28: one turn of the loops. -/
def register (kind : Kind) (c : Cls α) (nd : String × Desc) : Py (Cls α) := do
  let method ← c.getattr nd.1
  return c.setattr nd.1 (← functionClass kind nd.1 method nd.2)

/-- genoptim.py:12-30 `optimization_meta(name, bases, dict)`; `constraints` and `objectives` are the items of the attributes of these names. -/
def optimizationMeta (bases : Cls α) (dict : Dict String (Attr α)) (constraints objectives : List (String × Desc)) : Py (Cls α) := do
  let c : Cls α := dict :: bases
  let _ ← c.getattr "base_shapes"
  let c ← constraints.foldlM (register .constraint) c
  objectives.foldlM (register .objective) c

/-- A class statement `class Derived(cls)` with the dictionary `own`. -/
def derive (own : Dict String (Attr α)) (c : Cls α) : Cls α := own :: c

/-- A model: its `__dict__` and its class. -/
structure Obj (α : Type) where
  dict : Dict String (Attr α)
  cls : Cls α

/-- What an attribute of an object is: a bound method (with the parameters of its function), an instance of a class of functions, or the value itself. -/
inductive Got (α : Type)
  | bound (params : List String) (body : List (NDArray α) → NDArray α)
  | fobj (kind : Kind) (name : String) (method : Attr α) (desc : Desc)
  | value (a : Attr α)

/-- What an attribute of the class is for an object: `__get__`, genoptim.py:141-145 and that of functions. -/
def Attr.got : Attr α → Got α
  | .func ps b => .bound ps b
  | .fclass k n m d => .fobj k n m d
  | a => .value a

/-- `getattr(model, name)`. Functions and classes of functions (genoptim.py:141-145) are descriptors without `__set__`, so entries of the object hide them. -/
def Obj.getattr (o : Obj α) (n : String) : Py (Got α) := match Dict.get? o.dict n with
  | some a => .ok (.value a)
  | none => do return (← o.cls.getattr n).got

/-- What a call returns: an array, or an instance of a class of functions. -/
inductive Result (α : Type)
  | array (a : NDArray α)
  | object

/-- Calls with positional arguments; genoptim.py:56-57. A class of functions is called with the model. -/
def Got.call (args : List (NDArray α)) : Got α → Py (Result α)
  | .bound ps b => if ps.length = args.length + 1 then .ok (.array (b args)) else .error .typeError
  | .fobj _ _ (.func ps b) _ => if ps.length = args.length + 1 then .ok (.array (b args)) else .error .typeError
  | .fobj _ _ (.fclass _ _ _ _) _ => if args = [] then .ok .object else .error .typeError
  | .value (.func ps b) => if ps.length = args.length then .ok (.array (b args)) else .error .typeError
  | .value (.fclass _ _ _ _) => if args.length = 1 then .ok .object else .error .typeError
  | _ => .error .typeError

/-- genoptim.py:80-81: a number. Simplification: everything else raises TypeError, here and below. -/
def Got.nnz : Got α → Py Nat
  | .value (.nnz n) => .ok n
  | _ => .error .typeError

/-- genoptim.py:88-89, 100: rows of indices. -/
def Got.ind : Got α → Py (List (List Nat))
  | .value (.ind i) => .ok i
  | _ => .error .typeError

/-- genoptim.py:111, 155-156: something that is called with the arguments. -/
def Got.body : Got α → Py (List (NDArray α) → NDArray α)
  | .bound _ b => .ok b
  | .value (.func _ b) => .ok b
  | _ => .error .typeError

/-- genoptim.py:67, 94: `base_shapes`. -/
def Got.shapes : Got α → Py (Dict String (List Nat))
  | .value (.shapes s) => .ok s
  | _ => .error .typeError

/-- genoptim.py:80, 88, 111: the attributes of a sparse derivative, read from the model. -/
def Obj.sparse (o : Obj α) (dname : String) : Py (SparseDeriv α) := do
  let nnz ← (← o.getattr (dname ++ "_nnz")).nnz
  let ind ← (← o.getattr (dname ++ "_ind")).ind
  let val ← (← o.getattr (dname ++ "_val")).body
  return ⟨nnz, ind, val⟩

/-- genoptim.py:155: the function of a dense derivative, read from the model. -/
def Obj.dense (o : Obj α) (dname : String) : Py (List (NDArray α) → NDArray α) := do (← o.getattr dname).body

/-- genoptim.py:33-50, 59-121, 148-170, 190-198: the function `name` of a model with all that an optimization problem reads of it. Only instances of classes of functions have `jac_nnz`, `grad` and so
on. -/
def Obj.function (o : Obj α) (name : String) : Py (GenFun α) := do
  match ← o.getattr name with
  | .fobj _ n (.func ps b) d =>
    let base ← (← o.getattr "base_shapes").shapes
    let grad ← d.grad.mapM fun (wd : String × String) => do return (wd.1, ← o.dense wd.2)
    let jac ← d.jac.mapM fun (wd : List String × String) => do return (wd.1, ← o.sparse wd.2)
    let hess ← d.hess.mapM fun (wd : List String × String) => do return (wd.1, ← o.sparse wd.2)
    return ⟨n, ps.drop 1, d.shape, base, b, grad, jac, hess⟩
  | .fobj _ _ _ _ => .error .typeError
  | _ => .error .attributeError

/-- symoptim.py:90-92: the description of a constraint. -/
def ofCon (d : ConDesc) : Desc := { shape := d.shape, jac := d.jac, hess := d.hess }
/-- symoptim.py:61: the description of an objective. -/
def ofObj (d : ObjDesc) : Desc := { grad := d.grad, hess := d.hess }

end GenMeta
end Ceacoest
