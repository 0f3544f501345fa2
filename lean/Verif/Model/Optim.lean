import Verif.Model.VarSpec
import Verif.Model.GenOptim

/-!
# `ceacoest/optim.py`: `OptimizationFunction`, `Constraint`, `Objective`, `Problem`
-/

namespace Ceacoest

/-- optim.py:326-342 `OptimizationFunction.__init__`. -/
structure OptFun (α : Type _) where
  fn : GenFun α
  args : List String
  shape : List Nat
  renamed : Dict String String

namespace OptFun
variable {α : Type _}

/-- optim.py:327-341: `args=None` keeps the signature names and an empty renaming. -/
def mk' (shape : List Nat) (fn : GenFun α) (args : Option (List String)) : OptFun α :=
  match args with
  | none => ⟨fn, fn.argNames, shape, []⟩
  | some as => ⟨fn, as, shape, Dict.update [] (fn.argNames.zip as)⟩

/-- optim.py:345: `(variables[arg] for arg in self.args)`. -/
def argVals (o : OptFun α) (variables : Dict String (NDArray α)) : Py (List (NDArray α)) :=
  o.args.mapM fun a => Dict.getItem variables a

/-- optim.py:344-346 `__call__`. -/
def call (o : OptFun α) (variables : Dict String (NDArray α)) : Py (NDArray α) := do
  return o.fn.method (← o.argVals variables)

/-- optim.py:353: `renamed.get(key, key)`. -/
def renameName (o : OptFun α) (k : String) : String := (Dict.get? o.renamed k).getD k

/-- optim.py:348-361 `_rename_key`, `rename` for string keys. -/
def renameStr {β : Type _} (o : OptFun α) (deriv : Dict String β) : Dict String β :=
  if o.renamed = [] then deriv
  else Dict.update [] (deriv.map fun kv => (o.renameName kv.1, kv.2))

/-- optim.py:348-361 `_rename_key`, `rename` for tuple keys. -/
def renameTup {β : Type _} (o : OptFun α) (deriv : Dict (List String) β) : Dict (List String) β :=
  if o.renamed = [] then deriv
  else Dict.update [] (deriv.map fun kv => (kv.1.map o.renameName, kv.2))

/-- optim.py:363-374 `rename_kwargs`. -/
def renameKwargs {β : Type _} (o : OptFun α) (kwargs : Dict String β) : Dict String β :=
  if o.renamed = [] then kwargs
  else o.renamed.foldl (fun r fp =>
    match Dict.get? kwargs fp.2 with
    | some v => Dict.set r fp.1 v
    | none => r) kwargs

/-- optim.py:376-378 `hess_nnz`. -/
def hessNnz (o : OptFun α) (_varShapes : Dict String (List Nat)) : Py Nat := o.fn.sparseNnz o.fn.hess o.shape

/-- optim.py:380-382 `hess_ind`. -/
def hessInd (o : OptFun α) (varShapes : Dict String (List Nat)) : Py (Dict (List String) (List (List Nat))) := do
  return o.renameTup (← o.fn.sparseInd o.fn.hess (o.renameKwargs varShapes) o.shape)

/-- optim.py:384-386 `hess_val`. -/
def hessVal (o : OptFun α) (variables : Dict String (NDArray α)) : Py (Dict (List String) (NDArray α)) := do
  return o.renameTup (GenFun.sparseVal o.fn.hess (← o.argVals variables))

/-- optim.py:404-406 `Constraint.jac_nnz`. -/
def jacNnz (o : OptFun α) (_varShapes : Dict String (List Nat)) : Py Nat := o.fn.sparseNnz o.fn.jac o.shape

/-- optim.py:408-410 `Constraint.jac_ind`. -/
def jacInd (o : OptFun α) (varShapes : Dict String (List Nat)) : Py (Dict (List String) (List (List Nat))) := do
  return o.renameTup (← o.fn.sparseInd o.fn.jac (o.renameKwargs varShapes) o.shape)

/-- optim.py:412-414 `Constraint.jac_val`. -/
def jacVal (o : OptFun α) (variables : Dict String (NDArray α)) : Py (Dict (List String) (NDArray α)) := do
  return o.renameTup (GenFun.sparseVal o.fn.jac (← o.argVals variables))

/-- optim.py:420-422 `Objective.grad`. -/
def grad [Zero α] [Add α] (o : OptFun α) (variables : Dict String (NDArray α)) : Py (Dict String (NDArray α)) := do
  return o.renameStr (← o.fn.gradFun (← o.argVals variables))

end OptFun

/-- optim.py:396-402 `Constraint`: an optimization function with an offset into the constraint vector. -/
structure Constr (α : Type _) where
  fn : OptFun α
  offset : Nat

/-- The `Component` part of a constraint (optim.py:401). -/
def Constr.component {α : Type _} (c : Constr α) : Component := ⟨c.fn.shape, c.offset⟩

/-- optim.py:14-34 `Problem`.  `extra` holds the constant entries that the subclasses' `variables` overrides add
(col.py:53-55, oem.py:57-60, jme.py:31-34). -/
structure Problem (α : Type _) where
  decision : Dict String Component
  remapped : Dict String VarSpec
  objectives : List (OptFun α)
  constraints : List (Constr α)
  ndec : Nat
  ncons : Nat
  extra : Dict String (NDArray α)

namespace Problem
variable {α : Type _}

/-- optim.py:17-34 `Problem.__init__`. -/
def empty : Problem α := ⟨[], [], [], [], 0, 0, []⟩

/-- The `name` argument of the `add_*` methods: a string or something else. -/
inductive NameArg
  | str (s : String)
  | other
  deriving DecidableEq, Repr

/-- optim.py:36-49 `add_decision`: the state of the problem afterwards, and the returned value or the exception. -/
def addDecision (p : Problem α) (name : NameArg) (shape : ShapeArg) : Problem α × Py Component :=
  match name with
  | .other => (p, .error .typeError)
  | .str s =>
    if Dict.contains p.decision s then (p, .error .valueError)
    else if Dict.contains p.remapped s then (p, .error .valueError)
    else
      let dec : Component := ⟨shape.norm, p.ndec⟩
      let p := { p with ndec := p.ndec + dec.size }
      ({ p with decision := Dict.set p.decision s dec }, .ok dec)

/-- optim.py:51-55 `add_objective`. -/
def addObjective (p : Problem α) (fn : GenFun α) (shape : ShapeArg) (args : Option (List String)) : Problem α :=
  { p with objectives := p.objectives ++ [OptFun.mk' shape.norm fn args] }

/-- optim.py:57-65 `add_dependent_variable`. -/
def addDependent (p : Problem α) (name : NameArg) (spec : VarSpec) : Problem α × Py VarSpec :=
  match name with
  | .other => (p, .error .typeError)
  | .str s =>
    if Dict.contains p.decision s then (p, .error .valueError)
    else if Dict.contains p.remapped s then (p, .error .valueError)
    else ({ p with remapped := Dict.set p.remapped s spec }, .ok spec)

/-- optim.py:67-73 `add_constraint`. -/
def addConstraint (p : Problem α) (fn : GenFun α) (shape : ShapeArg) (args : Option (List String)) : Problem α :=
  let c : Constr α := ⟨OptFun.mk' shape.norm fn args, p.ncons⟩
  { p with ncons := p.ncons + c.component.size, constraints := p.constraints ++ [c] }

/-- One call of a registration method (optim.py:36, 51, 57, 67) with its arguments. -/
inductive Call (α : Type _)
  | decision (name : NameArg) (shape : ShapeArg)
  | dependent (name : NameArg) (spec : VarSpec)
  | objective (fn : GenFun α) (shape : ShapeArg) (args : Option (List String))
  | constraint (fn : GenFun α) (shape : ShapeArg) (args : Option (List String))

/-- The problem after one registration call, whether or not it raised. -/
def step (p : Problem α) : Call α → Problem α
  | .decision n s => (p.addDecision n s).1
  | .dependent n s => (p.addDependent n s).1
  | .objective f s a => p.addObjective f s a
  | .constraint f s a => p.addConstraint f s a

/-- The problem after a history of registration calls on a new problem. -/
def run (calls : List (Call α)) : Problem α := calls.foldl step empty

/-- optim.py:79 `itertools.chain(self.decision.items(), self.remapped.items())`. -/
def items (p : Problem α) : Dict String VarSpec :=
  p.decision.map (fun kv => (kv.1, VarSpec.comp kv.2)) ++ p.remapped

/-- optim.py:75-80 `variables`, including the constant entries of the subclasses
(`{'piece_len': ..., **super().variables(dvec)}`: entries of `super()` win). -/
def variables [Zero α] (p : Problem α) (dvec : List α) : Py (Dict String (NDArray α)) := do
  pyAssert (dvec.length = p.ndec)
  let vs ← p.items.mapM fun kv => do return (kv.1, ← kv.2.unpackFrom dvec)
  return Dict.update p.extra (Dict.update [] vs)

/-- optim.py:82-85 `variable_shapes`. -/
def variableShapes (p : Problem α) : Dict String (List Nat) :=
  Dict.update [] (p.items.map fun kv => (kv.1, kv.2.shape))

/-- optim.py:87-91 `variable_spec` (specification objects are always truthy). -/
def variableSpec (p : Problem α) (name : String) : Py VarSpec :=
  match Dict.get? p.decision name with
  | some c => .ok (.comp c)
  | none =>
    match Dict.get? p.remapped name with
    | some s => .ok s
    | none => .error .valueError

/-- optim.py:93-101 `unpack_constraints`. -/
def unpackConstraints (p : Problem α) (cvec : List α) : Py (Dict String (NDArray α)) := do
  pyAssert (cvec.length ≥ p.ncons)
  p.constraints.foldlM (fun ret c =>
    if c.fn.fn.name = "" then return ret
    else do return Dict.set ret c.fn.fn.name (← c.component.unpackFrom cvec)) []

/-- optim.py:103-116 `_sparse_fun_val`.  `val` is modelled by the part written so far, whose length is `offset`. -/
def sparseFunVal [Zero α] {C : Type _} (p : Problem α) (dvec : List α) (nnz : Nat) (components : List C)
    (valFun : C → Dict String (NDArray α) → Py (Dict (List String) (NDArray α))) : Py (List α) := do
  let variables ← p.variables dvec
  let val ← components.foldlM (fun val comp => do
    (← valFun comp variables).foldlM (fun (val : List α) kv => do
      pyAssert (val.length + kv.2.data.length ≤ nnz)
      return val ++ kv.2.data) val) []
  pyAssert (val.length = nnz)
  return val

/-- optim.py:118-124 `obj`. -/
def obj [Zero α] [Add α] (p : Problem α) (dvec : List α) : Py α := do
  let variables ← p.variables dvec
  p.objectives.foldlM (fun acc o => do return acc + (← o.call variables).data.foldl (· + ·) 0) 0

/-- optim.py:126-136 `obj_grad`. -/
def objGrad [Zero α] [Add α] (p : Problem α) (dvec : List α) : Py (List α) := do
  let variables ← p.variables dvec
  p.objectives.foldlM (fun grad o => do
    (← o.grad variables).foldlM (fun grad kv => do
      (← p.variableSpec kv.1).addTo grad kv.2) grad) (List.replicate p.ndec 0)

/-- Sum of `nnz` over components (optim.py:141, 178, 207). -/
def sumNnz {C : Type _} (p : Problem α) (components : List C)
    (nnz : C → Dict String (List Nat) → Py Nat) : Py Nat :=
  components.foldlM (fun s c => do return s + (← nnz c p.variableShapes)) 0

/-- optim.py:138-141 `obj_hess_nnz`. -/
def objHessNnz (p : Problem α) : Py Nat := p.sumNnz p.objectives OptFun.hessNnz

/-- optim.py:143-161 `obj_hess_ind`: the two index rows. -/
def objHessInd (p : Problem α) : Py (List Nat × List Nat) := do
  let nnz ← p.objHessNnz
  let ind ← p.objectives.foldlM (fun (ind : List Nat × List Nat) o => do
    (← o.hessInd p.variableShapes).foldlM (fun (ind : List Nat × List Nat) kv => do
      match kv.1, kv.2 with
      | [n0, n1], [r0, r1, _] =>
        let v0 ← p.variableSpec n0
        let v1 ← p.variableSpec n1
        pyAssert (ind.1.length + r0.length ≤ nnz)
        return (ind.1 ++ (← r0.mapM v0.convertInd), ind.2 ++ (← r1.mapM v1.convertInd))
      | _, _ => .error .valueError) ind) ([], [])
  pyAssert (ind.1.length = nnz)
  return ind

/-- optim.py:163-166 `obj_hess_val`. -/
def objHessVal [Zero α] (p : Problem α) (dvec : List α) : Py (List α) := do
  p.sparseFunVal dvec (← p.objHessNnz) p.objectives OptFun.hessVal

/-- optim.py:168-173 `constr`. -/
def constr [Zero α] (p : Problem α) (dvec : List α) : Py (List α) := do
  let variables ← p.variables dvec
  p.constraints.foldlM (fun cvec c => do
    c.component.packInto cvec (← c.fn.call variables)) (List.replicate p.ncons 0)

/-- optim.py:175-178 `constr_jac_nnz`. -/
def constrJacNnz (p : Problem α) : Py Nat := p.sumNnz p.constraints fun c => c.fn.jacNnz

/-- optim.py:180-197 `constr_jac_ind`: the (decision, constraint) index rows. -/
def constrJacInd (p : Problem α) : Py (List Nat × List Nat) := do
  let nnz ← p.constrJacNnz
  let ind ← p.constraints.foldlM (fun (ind : List Nat × List Nat) c => do
    (← c.fn.jacInd p.variableShapes).foldlM (fun (ind : List Nat × List Nat) kv => do
      match kv.1, kv.2 with
      | [n0], [r0, r1] =>
        let v ← p.variableSpec n0
        pyAssert (ind.1.length + r0.length ≤ nnz)
        return (ind.1 ++ (← r0.mapM v.convertInd), ind.2 ++ r1.map c.component.convertInd)
      | _, _ => .error .valueError) ind) ([], [])
  pyAssert (ind.1.length = nnz)
  return ind

/-- optim.py:199-202 `constr_jac_val`. -/
def constrJacVal [Zero α] (p : Problem α) (dvec : List α) : Py (List α) := do
  p.sparseFunVal dvec (← p.constrJacNnz) p.constraints fun c => c.fn.jacVal

/-- optim.py:204-207 `constr_hess_nnz`. -/
def constrHessNnz (p : Problem α) : Py Nat := p.sumNnz p.constraints fun c => c.fn.hessNnz

/-- optim.py:209-228 `constr_hess_ind`: the (decision, decision, constraint) index rows. -/
def constrHessInd (p : Problem α) : Py (List Nat × List Nat × List Nat) := do
  let nnz ← p.constrHessNnz
  let ind ← p.constraints.foldlM (fun (ind : List Nat × List Nat × List Nat) c => do
    (← c.fn.hessInd p.variableShapes).foldlM (fun (ind : List Nat × List Nat × List Nat) kv => do
      match kv.1, kv.2 with
      | [n0, n1], [r0, r1, r2] =>
        let v0 ← p.variableSpec n0
        let v1 ← p.variableSpec n1
        pyAssert (ind.1.length + r0.length ≤ nnz)
        return (ind.1 ++ (← r0.mapM v0.convertInd), ind.2.1 ++ (← r1.mapM v1.convertInd),
          ind.2.2 ++ r2.map c.component.convertInd)
      | _, _ => .error .valueError) ind) ([], [], [])
  pyAssert (ind.1.length = nnz)
  return ind

/-- optim.py:230-233 `constr_hess_val`. -/
def constrHessVal [Zero α] (p : Problem α) (dvec : List α) : Py (List α) := do
  p.sparseFunVal dvec (← p.constrHessNnz) p.constraints fun c => c.fn.hessVal

/-- optim.py:235-237 `lag_hess_nnz`. -/
def lagHessNnz (p : Problem α) : Py Nat := do return (← p.objHessNnz) + (← p.constrHessNnz)

/-- optim.py:239-246 `lag_hess_ind`: objective columns first, then the first two rows of the constraint ones. -/
def lagHessInd (p : Problem α) : Py (List Nat × List Nat) := do
  let o ← p.objHessInd
  let c ← p.constrHessInd
  return (o.1 ++ c.1, o.2 ++ c.2.1)

/-- optim.py:248-257 `lag_hess_val`. -/
def lagHessVal [Zero α] [Mul α] (p : Problem α) (dvec : List α) (objMult : α) (constrMult : List α) :
    Py (List α) := do
  pyAssert (constrMult.length = p.ncons)
  let multInd := (← p.constrHessInd).2.2
  let ov ← p.objHessVal dvec
  let cv ← p.constrHessVal dvec
  let mult ← readAt constrMult multInd
  return ov.map (· * objMult) ++ List.zipWith (· * ·) cv mult

/-- optim.py:265 `jac_ind = lambda: self.constr_jac_ind[[1,0]]`: what the solver is given. -/
def ipoptJacInd (p : Problem α) : Py (List Nat × List Nat) := do
  let ind ← p.constrJacInd
  return (ind.2, ind.1)

end Problem
end Ceacoest
