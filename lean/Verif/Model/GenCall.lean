import Verif.Model.GenOptim

/-!
# `ceacoest/modelling/genoptim.py`, `ceacoest/utils.py`: calls with keyword arguments

`Model/GenOptim` has the functions of a generated model with positional arguments.  Here are the calls as they are
written, with `*args, **kwargs`.  The binding of the arguments of a call to the parameters of a function is that of
Python; the generated functions have parameters without default values (sym2num writes `def f(self, x, p)`), and the
derivatives have the parameters of the function they are derivatives of (symoptim.py:93-98).  Keyword arguments are
a dictionary, so their names differ.
-/

namespace Ceacoest
variable {α β : Type _}

/-- Python: the keyword argument for a parameter without default value. -/
def kwItem (kwargs : Dict String β) (n : String) : Py β :=
  match Dict.get? kwargs n with
  | some v => .ok v
  | none => .error .typeError

/-- Python: the values that a call `f(*args, **kwargs)` gives to the parameters `params` of `f`.  TypeError for too
many positional arguments, for a keyword that is no parameter, for one already given by position, for a missing
argument. -/
def pyBind (params : List String) (args : List β) (kwargs : Dict String β) : Py (List β) := do
  if params.length < args.length then .error .typeError else
  let open' := params.drop args.length
  if kwargs.any (fun kv => decide (kv.1 ∉ open')) then .error .typeError else
  let rest ← open'.mapM (kwItem kwargs)
  return args ++ rest

/-- genoptim.py:228-232 `bound_signature`: the parameters of a method without the first. -/
def boundSignature (params : List String) : List String := params.drop 1

/-- utils.py:146-149 `sig_arg_names`, of an object with `__signature__` (genoptim.py:45, which `inspect.signature`
returns): all names of that signature. -/
def sigArgNames (signature : List String) : List String := signature

namespace GenFun

/-- The parameters of the generated method, with the model as first one. -/
def methodParams (f : GenFun α) : List String := "self" :: f.argNames

/-- genoptim.py:45 `self.__signature__ = bound_signature(self.method)`. -/
def signature (f : GenFun α) : List String := boundSignature f.methodParams

/-- A method of the model bound to it (genoptim.py:111, 155-156) is called with the model first: the parameters left
are those of the bound signature, and `self` cannot be given by keyword as it is given by position. -/
def bind (f : GenFun α) (args : List (NDArray α)) (kwargs : Dict String (NDArray α)) : Py (List (NDArray α)) :=
  pyBind f.signature args kwargs

/-- genoptim.py:56-57 `__call__(self, *args, **kwargs)`: `self` of `__call__` is given by position, so a keyword
`self` raises TypeError. -/
def callKw (f : GenFun α) (args : List (NDArray α)) (kwargs : Dict String (NDArray α)) : Py (NDArray α) := do
  if Dict.contains kwargs "self" then .error .typeError else
  return f.method (← f.bind args kwargs)

/-- genoptim.py:149-170 `grad(self, *args, **kwargs)`.  `arg_indices` has the positions in the bound signature; the
wrapper of `with_signature` (genoptim.py:187, 235-240) passes all arguments on. -/
def gradKw [Zero α] [Add α] (f : GenFun α) (args : List (NDArray α)) (kwargs : Dict String (NDArray α)) :
    Py (Dict String (NDArray α)) := do
  if Dict.contains kwargs "self" then .error .typeError else
  f.grad.foldlM (fun ret wd => do
    let g := wd.2 (← f.bind args kwargs)
    if g.data.length = 0 then return ret
    let wrtShape ← match Dict.get? kwargs wd.1 with
      | some a => pure a.shape
      | none =>
        match f.signature.findIdx? (· = wd.1) with
        | none => .error .keyError
        | some i =>
          match args[i]? with
          | none => .error .indexError
          | some a => pure a.shape
    return Dict.set ret wd.1 (← reshapeSum g wrtShape)) []

/-- genoptim.py:108-112 `_sparse_deriv_val(self, deriv, *args, **kwargs)`, called from genoptim.py:120-121 and 197-198 with
`self` and `deriv` by position: keywords of these names raise TypeError, also when there are no derivatives. -/
def sparseValKw (f : GenFun α) (deriv : Dict (List String) (SparseDeriv α)) (args : List (NDArray α))
    (kwargs : Dict String (NDArray α)) : Py (Dict (List String) (NDArray α)) := do
  if Dict.contains kwargs "self" then .error .typeError else
  if Dict.contains kwargs "deriv" then .error .typeError else
  deriv.mapM fun wd => do return (wd.1, wd.2.val (← f.bind args kwargs))

/-- genoptim.py:120-121 `hess_val`, in the wrapper of genoptim.py:50. -/
def hessValKw (f : GenFun α) := f.sparseValKw f.hess
/-- genoptim.py:197-198 `jac_val`, in the wrapper of genoptim.py:224. -/
def jacValKw (f : GenFun α) := f.sparseValKw f.jac

end GenFun
end Ceacoest
