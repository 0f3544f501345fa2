import Verif.Spec.Contract
import Verif.Model.SymOptim

/-!
# Contract of sympy and of the code generator (C66)

What a symbolic expression means, what code generation has to do with it, and what it means that the symbolic
derivatives of a function are right.  Nothing here refers to how `symoptim.py` lists derivatives.
-/

namespace Ceacoest.Spec
variable {X : Type}

/-- Values of the variables of a symbolic model, by name and flat index. -/
abbrev Env := String → Nat → ℝ

/-- The arguments of a function, by name. -/
def argEnv (args : List String) (y : Args) : Env := fun n k => y (args.idxOf n) k

/-- Entry `r` of the output of a symbolic function; `ev` gives the value of an expression. -/
noncomputable def symVal (ev : X → Env → ℝ) (f : SymFn X) (y : Args) (r : Nat) : ℝ :=
  (f.out[r]?.map fun v => ev v (argEnv f.args y)).getD 0

/-- The code generated for a symbolic function of arguments of shapes `shape` evaluates it once for every element of the
extension. -/
def CodegenOK (ev : X → Env → ℝ) (shape : String → List Nat) (codegen : SymFn X → List (NDArray ℝ) → NDArray ℝ)
    (g : SymFn X) : Prop :=
  Vectorised (codegen g) (g.args.map shape) g.outShape (symVal ev g)

/-- What the derivatives that sym2num creates for `f` have to be, apart from being right: functions of the same arguments, of
shape (differentiated arguments, output); mixed derivatives do not depend on the order of differentiation. -/
structure DerivForm (S : Sym2Num X) (ev : X → Env → ℝ) (shape : String → List Nat) (f : SymFn X) (order : List String) :
    Prop where
  /-- an expression that sympy compares equal to zero is zero -/
  zero : ∀ v, S.isZero v = true → ∀ env, ev v env = 0
  args : ∀ a ∈ order, (S.deriv f [a]).args = f.args
  args2 : ∀ a ∈ order, ∀ b ∈ order, (S.deriv f [a, b]).args = f.args
  outShape : ∀ a ∈ order, (S.deriv f [a]).outShape = shape a ++ f.outShape
  size : ∀ a ∈ order, (S.deriv f [a]).out.length = (shape a).prod * f.outShape.prod
  size2 : ∀ a ∈ order, ∀ b ∈ order,
    (S.deriv f [a, b]).out.length = (shape a).prod * ((shape b).prod * f.outShape.prod)
  sym : ∀ a ∈ order, ∀ b ∈ order, ∀ k < (shape a).prod, ∀ l < (shape b).prod, ∀ r < f.outShape.prod, ∀ y,
    symVal ev (S.deriv f [a, b]) y ((k * (shape b).prod + l) * f.outShape.prod + r) =
      symVal ev (S.deriv f [b, a]) y ((l * (shape a).prod + k) * f.outShape.prod + r)

/-- The symbolic first derivatives of `f` with respect to the arguments selected by `var` are right at `y`. -/
def SymRight1 (S : Sym2Num X) (ev : X → Env → ℝ) (shape : String → List Nat) (f : SymFn X) (var : Nat → Bool) (y : Args) :
    Prop :=
  ∀ r < f.outShape.prod, HasPartialsAt f.args.length (fun j => (shape (f.args.getD j "")).prod) var
    (fun z => symVal ev f z r) (fun j k => symVal ev (S.deriv f [f.args.getD j ""]) y (k * f.outShape.prod + r)) y

/-- The symbolic second derivatives of `f` are right at `y`: they are the derivatives of the symbolic first derivatives. -/
def SymRight2 (S : Sym2Num X) (ev : X → Env → ℝ) (shape : String → List Nat) (f : SymFn X) (var : Nat → Bool) (y : Args) :
    Prop :=
  ∀ r < f.outShape.prod, ∀ j < f.args.length, var j = true → ∀ k < (shape (f.args.getD j "")).prod,
    HasPartialsAt f.args.length (fun j => (shape (f.args.getD j "")).prod) var
      (fun z => symVal ev (S.deriv f [f.args.getD j ""]) z (k * f.outShape.prod + r))
      (fun j' k' => symVal ev (S.deriv f [f.args.getD j "", f.args.getD j' ""]) y
        ((k * (shape (f.args.getD j' "")).prod + k') * f.outShape.prod + r)) y

/-- How a function is registered in a problem, apart from what the function computes: its arguments are variables of the
problem or constants provided by the subclass, of shape (extension, base shape), and the extensions broadcast to the
extension of the output. -/
structure Registered (p : Problem ℝ) (o : OptFun ℝ) (R : Reg) : Prop where
  made : ∃ args, o = OptFun.mk' o.shape o.fn args
  sig : o.fn.argNames.Nodup
  nargs : o.args.length = o.fn.argNames.length
  args : o.args.Nodup
  vars : ∀ j < o.fn.argNames.length, R.var j = true →
    ∃ v, p.variableSpec (o.args.getD j "") = .ok v ∧ v.shape = R.ext j ++ R.bs j
  consts : ∀ j < o.fn.argNames.length, R.var j = false →
    p.variableSpec (o.args.getD j "") = .error .valueError ∧
    ∃ a, Dict.get? p.extra (o.args.getD j "") = some a ∧ a.WF ∧ a.shape = R.ext j ++ R.bs j
  bc : bcShapes ((List.range o.fn.argNames.length).map R.ext) = some R.E
  shape : o.shape = R.E ++ o.fn.outShape
  /-- the extension of a variable is a suffix of the extension of the output, up to leading axes of length one -/
  suffix : ∀ j < o.fn.argNames.length, R.var j = true → ∃ k pre suf, R.ext j = List.replicate k 1 ++ suf ∧ R.E = pre ++ suf

/-- The registration agrees with the symbolic model: the base shapes are those of the symbolic variables, and the variables
of the problem are the decision variables of the model. -/
def Agrees (shape : String → List Nat) (decision : List String) (args : List String) (R : Reg) : Prop :=
  ∀ j < args.length, R.bs j = shape (args.getD j "") ∧ (R.var j = true ↔ args.getD j "" ∈ decision)

end Ceacoest.Spec
