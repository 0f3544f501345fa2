import Verif.Model.GenSDE
import Verif.Model.SymClasses

/-!
# `ceacoest/modelling/symsde.py`: constructors of the discretised models

The variables of a model are a dictionary of variables, with those of `self` (the constants of the model) apart.  Of the
functions of the continuous-time model only the names matter here: those the class of the user defines, and the derivatives
added by `add_derivative`, each with what it is the derivative of.
-/

namespace Ceacoest.SymSDE

/-- A function of the continuous-time model: written by the user, or the derivative of another by a variable
(`add_derivative(f, wrt, name)` of sym2num, which makes it the attribute `name`). -/
inductive FunDef
  | user
  | deriv (f wrt : String)
  deriving DecidableEq, Repr

/-- What the constructors use of the continuous-time model. -/
structure CtSym where
  /-- `ct_model.variables.self` -/
  self : Dict String SymVar
  /-- `ct_model.variables`, the others -/
  vars : Dict String SymVar
  /-- the functions, which are attributes of `ct_model` -/
  funs : Dict String FunDef
  deriving DecidableEq, Repr

/-- `ct_model.add_derivative(f, wrt, name)`: AttributeError if there is no such function, KeyError if there is no such
variable. -/
def CtSym.addDerivative (c : CtSym) (f wrt name : String) : Py CtSym := do
  match Dict.get? c.funs f with
  | none => .error .attributeError
  | some _ =>
    let _ ← Dict.getItem c.vars wrt
    return { c with funs := Dict.set c.funs name (.deriv f wrt) }

/-- `ct_model.variables.x`: AttributeError if it is missing. -/
def CtSym.attr (c : CtSym) (n : String) : Py SymVar :=
  match Dict.get? c.vars n with
  | some v => .ok v
  | none => .error .attributeError

/-- A discretised model after construction: its variables and the continuous-time model. -/
structure DtSym where
  self : Dict String SymVar
  vars : Dict String SymVar
  ct : CtSym
  deriving DecidableEq, Repr

/-- symsde.py:12-25 `DiscretizedSDEModelBase.__init__`; `default` is what `self.ContinuousTimeModel()` makes.  The base class
starts with no variables. -/
def initBase (ct default : Option CtSym) : Py DtSym := do
  let ct ← match ct with
    | some ct => pure ct
    | none => match default with
      | some ct => pure ct
      | none => .error .attributeError
  let self := ct.self
  let self := Dict.set self "dt" (.scalar "dt")
  let vars : Dict String SymVar := Dict.set [] "k" (.scalar "k")
  let vars := Dict.set vars "x" (← ct.attr "x")
  let vars := Dict.set vars "y" (← ct.attr "y")
  return ⟨self, vars, ct⟩

/-- symsde.py:51-55: `EulerDiscretizedSDEModel` has the constructor of its base. -/
def initEuler := initBase

/-- symsde.py:82-87: `if not hasattr(self.ct_model, name): self.ct_model.add_derivative(f, wrt, name)`. -/
def ensure (c : CtSym) (f wrt name : String) : Py CtSym :=
  if Dict.contains c.funs name then return c else c.addDerivative f wrt name

/-- symsde.py:78-87 `ItoTaylorAS15DiscretizedModel.__init__`. -/
def initIto (ct default : Option CtSym) : Py DtSym := do
  let m ← initBase ct default
  let c ← ensure m.ct "f" "t" "df_dt"
  let c ← ensure c "f" "x" "df_dx"
  let c ← ensure c "df_dx" "x" "d2f_dx2"
  return { m with ct := c }

/-- symsde.py:27-33 `generate_assignments`; `gShape` is the shape of `default_function_output('g')`. -/
def assignments (m : DtSym) (gShape : Nat × Nat) : Py (Dict String Nat) := do
  let nx ← (← Dict.getItem m.vars "x").len
  let ny ← (← Dict.getItem m.ct.vars "y").len
  let nw := gShape.2
  return Dict.set (Dict.set (Dict.set [] "nx" nx) "ny" ny) "nw" nw

/-- The functions of the continuous-time model that the functions of a discretised model call: symsde.py:44, 48 (all),
61, 68 (Euler), 93-98, 115-120 (Ito-Taylor). -/
def looksUp (ito : Bool) : List String :=
  ["h", "R", "f", "g"] ++ if ito then ["df_dt", "df_dx", "d2f_dx2"] else []

/-- symsde.py:46-48 `R`. -/
def R {nx nw ny : Nat} (c : CtModel nx nw ny) : Matrix (Fin ny) (Fin ny) ℝ := c.R

end Ceacoest.SymSDE
