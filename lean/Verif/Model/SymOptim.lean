import Verif.Model.GenOptim

/-!
# `ceacoest/modelling/symoptim.py`: symbolic optimization models, and `double_deriv_name` of `ceacoest/utils.py`

Expressions (sympy) are an arbitrary type `X` with the test `val != 0`; symbolic differentiation (`add_derivative` of
sym2num) is a parameter.  Python iterates over `set(args).intersection(self.decision)` in an order that depends on the
hash seed: the order is an argument.
-/

namespace Ceacoest

/-- A symbolic function of a model: the names of its arguments (`function_codegen_arguments`), and the shape and the
entries in C order of its output (`default_function_output`). -/
structure SymFn (X : Type) where
  args : List String
  outShape : List Nat
  out : List X

/-- What symoptim.py uses of sympy and sym2num: the test `val == 0` and the function that `add_derivative` creates. -/
structure Sym2Num (X : Type) where
  isZero : X → Bool
  deriv : SymFn X → List String → SymFn X

/-- symoptim.py:59-61: the description of an objective. -/
structure ObjDesc where
  grad : Dict String String
  hess : Dict (List String) String
  deriving DecidableEq, Repr

/-- symoptim.py:90-92: the description of a constraint. -/
structure ConDesc where
  shape : List Nat
  jac : Dict (List String) String
  hess : Dict (List String) String
  deriving DecidableEq, Repr

/-- symoptim.py:21-42: the attributes of a model.  `funcs` are its attributes that are symbolic functions, `shapes` the
shapes of `self.variables`. -/
structure SymModel (X : Type) where
  shapes : Dict String (List Nat)
  decision : List String
  funcs : Dict String (SymFn X)
  constraints : Dict String ConDesc
  objectives : Dict String ObjDesc
  sparseNzind : Dict String (List (List Nat))
  sparseNnz : Dict String Nat
  generate : List String

/-- The multi-indices of an array in C order, as `np.ndenumerate` yields them. -/
def ndIndices : List Nat → List (List Nat)
  | [] => [[]]
  | n :: s => (List.range n).flatMap fun i => (ndIndices s).map (i :: ·)

/-- symoptim.py:163-165 `first_derivative_name`. -/
def firstDerivName (f x : String) : String := "d" ++ f ++ "_d" ++ x

/-- symoptim.py:167-175 `second_derivative_name`. -/
def secondDerivName (f : String) (wrt : List String) : Py String :=
  match wrt with
  | [a, b] => .ok (if a = b then "d2" ++ f ++ "_d" ++ a ++ "2" else "d2" ++ f ++ "_d" ++ a ++ "_d" ++ b)
  | _ => .error .valueError

/-- utils.py:138-143 `double_deriv_name`. -/
def doubleDerivName (f : String) (wrt : List String) : Py String :=
  match wrt with
  | [a, b] => .ok (if a = b then "d2" ++ f ++ "_d" ++ a ++ "2" else "d2" ++ f ++ "_d" ++ a ++ "_d" ++ b)
  | _ => .error .assertionError

/-- `itertools.combinations_with_replacement(wrt, 2)`. -/
def pairs {A : Type} : List A → List (A × A)
  | [] => []
  | a :: l => (a :: l).map (fun b => (a, b)) ++ pairs l

namespace SymModel
variable {X : Type}

/-- `getattr(self, fname)` of a symbolic function. -/
def getFn (m : SymModel X) (fname : String) : Py (SymFn X) :=
  match Dict.get? m.funcs fname with
  | some f => .ok f
  | none => .error .attributeError

/-- symoptim.py:128-140: selector and scan for non-zero entries. -/
def nonzeros (isZero : X → Bool) (wrt : List String) (shape : List Nat) (expr : List X) (tril : Bool) : List (List Nat × X) :=
  let keep : List Nat → Bool := fun ind =>
    if wrt.length = 2 ∧ wrt.getD 0 "" = wrt.getD 1 "" ∧ tril then ind.getD 0 0 ≤ ind.getD 1 0 else true
  ((ndIndices shape).zip expr).filter fun iv => keep iv.1 && !isZero iv.2

/-- symoptim.py:117-161 `add_sparse_derivative`; `tril` stands for `sel == 'tril'`. -/
def addSparseDerivative (S : Sym2Num X) (m : SymModel X) (fname : String) (wrt : List String) (dname : String)
    (tril : Bool := true) (gen : Bool := true) : Py (SymModel X × Nat) := do
  let f ← m.getFn fname
  let fsize := f.outShape.prod
  let wrtSizes ← wrt.mapM fun name => do return (← Dict.getItem m.shapes name).prod
  -- self.add_derivative(fname, wrt, dname); expr = self.default_function_output(dname)
  let d := S.deriv f wrt
  let funcs := Dict.set m.funcs dname d
  let shape := wrtSizes ++ [fsize]
  -- np.reshape
  if d.out.length ≠ shape.prod then .error .valueError else
  let nz := nonzeros S.isZero wrt shape d.out tril
  let nzind := (List.range (wrt.length + 1)).map fun i => nz.map fun iv => iv.1.getD i 0
  let funcs := Dict.set funcs (dname ++ "_val") ⟨f.args, [nz.length], nz.map Prod.snd⟩
  return ({ m with funcs := funcs, sparseNzind := Dict.set m.sparseNzind dname nzind,
                   sparseNnz := Dict.set m.sparseNnz dname nz.length,
                   generate := if gen then m.generate ++ [dname ++ "_val"] else m.generate }, nz.length)

/-- `set(args).intersection(self.decision)`, in some order. -/
def IsWrt (m : SymModel X) (f : SymFn X) (order : List String) : Prop :=
  order.Nodup ∧ ∀ a, a ∈ order ↔ a ∈ f.args ∧ a ∈ m.decision

/-- symoptim.py:80-85, 110-115: the loop over pairs. -/
def addHess (S : Sym2Num X) (m : SymModel X) (fname : String) (order : List String) : Py (SymModel X × Dict (List String) String) :=
  (pairs order).foldlM (fun (mh : SymModel X × Dict (List String) String) ab => do
    let dname ← secondDerivName fname [ab.1, ab.2]
    let (m, n) ← mh.1.addSparseDerivative S fname [ab.1, ab.2] dname
    return (m, if n ≠ 0 then Dict.set mh.2 [ab.1, ab.2] dname else mh.2)) (m, [])

/-- symoptim.py:72-78: dense first derivatives of an objective. -/
def addGrad (S : Sym2Num X) (m : SymModel X) (fname : String) (order : List String) : Py (SymModel X × Dict String String) :=
  order.foldlM (fun (mg : SymModel X × Dict String String) a => do
    let f ← mg.1.getFn fname
    let dname := firstDerivName fname a
    return ({ mg.1 with funcs := Dict.set mg.1.funcs dname (S.deriv f [a]), generate := mg.1.generate ++ [dname] },
      Dict.set mg.2 a dname)) (m, [])

/-- symoptim.py:103-108: sparse first derivatives of a constraint. -/
def addJac (S : Sym2Num X) (m : SymModel X) (fname : String) (order : List String) : Py (SymModel X × Dict (List String) String) :=
  order.foldlM (fun (mj : SymModel X × Dict (List String) String) a => do
    let dname := firstDerivName fname a
    let (m, n) ← mj.1.addSparseDerivative S fname [a] dname
    return (m, if n ≠ 0 then Dict.set mj.2 [a] dname else mj.2)) (m, [])

/-- symoptim.py:58-85 `add_objective`.  The dictionaries of the description, which the code fills in place, are stored at the
end. -/
def addObjective (S : Sym2Num X) (m : SymModel X) (fname : String) (order : List String) (derivatives : Nat := 2) :
    Py (SymModel X) := do
  let m := { m with objectives := Dict.set m.objectives fname ⟨[], []⟩, generate := m.generate ++ [fname] }
  if derivatives = 0 then return m else
  let (m, grad) ← m.addGrad S fname order
  let (m, hess) ← if derivatives ≥ 2 then m.addHess S fname order else pure (m, [])
  return { m with objectives := Dict.set m.objectives fname ⟨grad, hess⟩ }

/-- symoptim.py:87-115 `add_constraint`. -/
def addConstraint (S : Sym2Num X) (m : SymModel X) (fname : String) (order : List String) (derivatives : Nat := 2) :
    Py (SymModel X) := do
  let f ← m.getFn fname
  let m := { m with constraints := Dict.set m.constraints fname ⟨f.outShape, [], []⟩, generate := m.generate ++ [fname] }
  if derivatives = 0 then return m else
  let (m, jac) ← m.addJac S fname order
  let (m, hess) ← if derivatives ≥ 2 then m.addHess S fname order else pure (m, [])
  return { m with constraints := Dict.set m.constraints fname ⟨f.outShape, jac, hess⟩ }

/-! ### The generated class -/

/-- symoptim.py:52-55 and genoptim.py:80, 88, 111: the attributes `{dname}_nnz`, `{dname}_ind` and `{dname}_val` of the generated
class.  `codegen` is sym2num's code generator. -/
def sparseAttrs {α : Type} (codegen : SymFn X → List (NDArray α) → NDArray α) (m : SymModel X) (dname : String) :
    Py (SparseDeriv α) := do
  let nnz ← match Dict.get? m.sparseNnz dname with | some n => pure n | none => .error .attributeError
  let ind ← match Dict.get? m.sparseNzind dname with | some i => pure i | none => .error .attributeError
  let val ← m.getFn (dname ++ "_val")
  return ⟨nnz, ind, codegen val⟩

/-- symoptim.py:50 `base_shapes`. -/
def baseShapes (m : SymModel X) : Py (Dict String (List Nat)) :=
  m.decision.mapM fun d => do return (d, ← Dict.getItem m.shapes d)

/-- genoptim.py:23-28, 178-187: the generated objective. -/
def genObjective {α : Type} (codegen : SymFn X → List (NDArray α) → NDArray α) (m : SymModel X) (fname : String) : Py (GenFun α) := do
  let base ← m.baseShapes
  let desc ← Dict.getItem m.objectives fname
  let f ← m.getFn fname
  let grad ← desc.grad.mapM fun (wd : String × String) => do return (wd.1, codegen (← m.getFn wd.2))
  let hess ← desc.hess.mapM fun (wd : List String × String) => do return (wd.1, ← m.sparseAttrs codegen wd.2)
  return ⟨fname, f.args, [], base, codegen f, grad, [], hess⟩

/-- genoptim.py:16-21, 206-225: the generated constraint. -/
def genConstraint {α : Type} (codegen : SymFn X → List (NDArray α) → NDArray α) (m : SymModel X) (fname : String) : Py (GenFun α) := do
  let base ← m.baseShapes
  let desc ← Dict.getItem m.constraints fname
  let f ← m.getFn fname
  let jac ← desc.jac.mapM fun (wd : List String × String) => do return (wd.1, ← m.sparseAttrs codegen wd.2)
  let hess ← desc.hess.mapM fun (wd : List String × String) => do return (wd.1, ← m.sparseAttrs codegen wd.2)
  return ⟨fname, f.args, desc.shape, base, codegen f, [], jac, hess⟩

end SymModel
end Ceacoest
