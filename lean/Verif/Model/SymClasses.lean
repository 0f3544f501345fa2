import Verif.Model.SymCalls
import Verif.Model.SymCol
import Verif.Model.Problems

/-!
# `ceacoest/modelling/symcol.py`, `symoc.py`, `symoem.py`, `symjme.py`: the symbolic model classes

A user of these classes derives a class with methods `f`, `L`, ... that compute with arrays of expressions, and passes a dictionary of
variables.  Here the methods are functions on lists of expressions, and the variables are given by their shapes and the names of
their symbols.  Simplifications:

* the symbol of entry `k` of the variable `n` is `sym n k`; that different entries have different symbols is C69;
* the methods are evaluated when all variables are registered, just before the first `add_constraint` (the code evaluates each when it
  is added);
* `penweight`, which the code registers just before it adds the penalty, is registered with the other variables;
* `x` and `u` are one-dimensional;
* sums of expressions start with the number zero.
-/

namespace Ceacoest

/-- `d.setdefault(k, v)`, without the returned value. -/
def Dict.setDefault {κ α : Type _} [DecidableEq κ] (d : Dict κ α) (k : κ) (v : α) : Dict κ α :=
  match Dict.get? d k with
  | some _ => d
  | none => Dict.set d k v

/-! ### Variables -/

/-- A symbolic variable: its shape, and the names of its symbols in C order. -/
structure SymVar where
  shape : List Nat
  names : List String
  deriving DecidableEq, Repr

namespace SymVar

/-- A variable given by one name. -/
def scalar (s : String) : SymVar := ⟨[], [s]⟩

/-- A variable given by a list of names. -/
def vec (l : List String) : SymVar := ⟨[l.length], l⟩

/-- A variable given by `r` lists of `c` names. -/
def mat (r c : Nat) (name : Nat → Nat → String) : SymVar :=
  ⟨[r, c], (List.range r).flatMap fun i => (List.range c).map (name i)⟩

/-- `for n in x`: the names of a one-dimensional variable. Variables of other shapes are outside of the model (Python would go through the letters of a name or the rows of a matrix); the
error stands for that, and no theorem uses it. -/
def elems (v : SymVar) : Py (List String) :=
  match v.shape with
  | [_] => .ok v.names
  | _ => .error .typeError

/-- `len(x)` -/
def len (v : SymVar) : Py Nat :=
  match v.shape with
  | n :: _ => .ok n
  | [] => .error .typeError

/-- symcol.py:44-45 `[[f'{n}_piece_{k}' for n in x] for k in range(ncol)]`, with the names `l` of `x`. -/
def piece (l : List String) (ncol : Nat) : SymVar :=
  mat ncol l.length fun k j => l.getD j "" ++ "_piece_" ++ toString k

/-- symoc.py:22 `[[f'{n}_initial' for n in x], [f'{n}_final' for n in x]]`. -/
def ends (l : List String) : SymVar :=
  mat 2 l.length fun i j => l.getD j "" ++ if i = 0 then "_initial" else "_final"

/-- symjme.py:25 `[[f'wc{j}_interv_{i}' for j in range(nw)] for i in range(ninterv)]`. -/
def noise (ninterv nw : Nat) : SymVar :=
  mat ninterv nw fun i j => "wc" ++ toString j ++ "_interv_" ++ toString i

/-- symjme.py:36 `[f'penweight{i}' for i in range(nx)]`. -/
def penweight (nx : Nat) : SymVar := vec ((List.range nx).map fun i => "penweight" ++ toString i)

end SymVar

/-! ### Expressions -/

/-- What the model classes use of sympy and sym2num: the test for zero, derivatives (which depend on the shapes of the variables),
numbers, the symbols of the variables, arithmetic, and calls of symbolic functions with other arguments. -/
structure SymArith (X : Type) where
  isZero : X → Bool
  deriv : (String → List Nat) → SymFn X → List String → SymFn X
  num : ℝ → X
  sym : String → Nat → X
  add : X → X → X
  sub : X → X → X
  mul : X → X → X
  subst : X → (String → Nat → X) → X

namespace SymArith
variable {X : Type} (A : SymArith X)

/-- Differentiation in a model with the given shapes. -/
def s2n (shape : String → List Nat) : Sym2Num X := ⟨A.isZero, A.deriv shape⟩

/-- `np.sum` of a list. -/
def sum (l : List X) : X := l.foldl A.add (A.num 0)

/-- `a @ v` for numbers `a` and expressions `v`. -/
def dotNum (a : List ℝ) (v : List X) : X := A.sum (List.zipWith (fun r x => A.mul (A.num r) x) a v)

/-- `v @ w` for expressions. -/
def dot (v w : List X) : X := A.sum (List.zipWith A.mul v w)

/-- Row `i` of a variable with `c` columns. -/
def row (n : String) (c i : Nat) : List X := (List.range c).map fun j => A.sym n (i * c + j)

end SymArith

/-- `np.array` of the lists that `f` returns needs lists of the expected length. -/
def checkLen {X : Type} (n : Nat) (l : List X) : Py (List X) := if l.length = n then .ok l else .error .valueError

/-- A scalar method. -/
def SymFn.scalar {X : Type} (args : List String) (v : X) : SymFn X := ⟨args, [], [v]⟩

/-- A method that returns a one-dimensional array. -/
def SymFn.vec {X : Type} (args : List String) (v : List X) : SymFn X := ⟨args, [v.length], v⟩

/-! ### `symcol.py` -/

/-- A model object: its `symoptim` attributes, `self.variables` and `self.collocation`. -/
structure SymClass (X : Type) where
  model : SymModel X
  vars : Dict String SymVar
  col : RK.Collocation ℝ

section
variable {X : Type} (A : SymArith X)

/-- The shape of a variable of a model. -/
def shapeOf (v : Dict String SymVar) (n : String) : List Nat := ((Dict.get? v n).map SymVar.shape).getD []

/-- The shapes of the variables of a model. -/
def varShapes (v : Dict String SymVar) : Dict String (List Nat) := v.map fun kv => (kv.1, kv.2.shape)

/-- The methods of a model by name, given `self.collocation` and `self.variables`. -/
abbrev SymMethods (X : Type) := RK.Collocation ℝ → Dict String SymVar → Py (Dict String (SymFn X))

/-- symcol.py:30-45: the variables of a model. -/
def symcolVars (ncol : Nat) (vars : Dict String SymVar) : Py (Dict String SymVar) := do
  -- v[varname] = varspec
  let v := Dict.update [] vars
  let v := Dict.setDefault v "piece_len" (.scalar "piece_len")
  let v := Dict.setDefault v "p" (.vec [])
  let v := Dict.setDefault v "u" (.vec [])
  let u ← Dict.getItem v "u"
  let x ← match Dict.get? v "x" with
    | some x => pure x
    | none => .error .valueError
  let xn ← x.elems
  let v := Dict.set v "xp" (.piece xn ncol)
  let un ← u.elems
  return Dict.set v "up" (.piece un ncol)

/-- symcol.py:21-51 `Model.__init__`; `iter` is the order in which Python iterates over the decision arguments of a function, `late`
registers the variables that the constructor of a derived class adds. -/
noncomputable def symcolInit (order : Int) (methods : SymMethods X) (iter : String → List String) (vars : Dict String SymVar)
    (decision : List String) (late : Dict String SymVar → Py (Dict String SymVar) := pure) : Py (SymClass X) := do
  let decision := decision ∪ ["x", "xp"]
  let col ← RK.lglCollocation order
  let v ← late (← symcolVars col.n vars)
  let funcs ← methods col v
  -- self.generate_functions.add('f') comes last in the code; it is a set
  let m : SymModel X := ⟨varShapes v, decision, funcs, [], [], [], [], ["f"]⟩
  let m ← m.add (A.s2n (shapeOf v)) ⟨false, "e", iter "e"⟩
  return ⟨m, v, col⟩

/-- symcol.py:74-81 `Model.e`; `f` is the method of the user. -/
def symcolE (col : RK.Collocation ℝ) (f : List X → List X → List X → List X) (nx nu np : Nat) : Py (SymFn X) := do
  let fp ← (List.range col.n).mapM fun i => checkLen nx (f (A.row "xp" nx i) (A.row "up" nu i) (A.row "p" np 0))
  return ⟨["xp", "up", "p", "piece_len"], [col.n - 1, nx],
    (List.range (col.n - 1)).flatMap fun k => (List.range nx).map fun j =>
      A.sub (A.sub (A.sym "xp" ((k + 1) * nx + j)) (A.sym "xp" (k * nx + j)))
        (A.mul (A.dotNum (col.J.getD k []) (fp.map fun r => r.getD j (A.num 0))) (A.sym "piece_len" 0))⟩

/-- `len(self.variables[n])`, symcol.py:67-69. -/
def varLen (v : Dict String SymVar) (n : String) : Py Nat := do (← Dict.getItem v n).len

/-- `len(self.default_function_output(n))`, symoc.py:66-67. -/
def outLen (m : SymModel X) (n : String) : Py Nat := do
  match (← m.getFn n).outShape with
  | k :: _ => return k
  | [] => .error .typeError

/-! ### `symoc.py` -/

/-- The methods of an optimal control model, and its class attribute `collocation_order`. -/
structure OCUser (X : Type) where
  order : Int
  f : List X → List X → List X → List X
  L : List X → List X → List X → X
  M : List X → List X → X
  g : List X → List X → List X → List X
  h : List X → List X → List X

/-- symoc.py:39-46 `Model.IL`. -/
def symocIL (col : RK.Collocation ℝ) (L : List X → List X → List X → X) (nx nu np : Nat) : SymFn X :=
  let Lp := (List.range col.n).map fun i => L (A.row "xp" nx i) (A.row "up" nu i) (A.row "p" np 0)
  .scalar ["xp", "up", "p", "piece_len"] (A.mul (A.dot Lp (col.K.map A.num)) (A.sym "piece_len" 0))

/-- The methods of an optimal control model (symoc.py:39-62, symcol.py:74-81). -/
def ocMethods (U : OCUser X) : SymMethods X := fun col v => do
  let nx ← varLen v "x"
  let nu ← varLen v "u"
  let np ← varLen v "p"
  let e ← symcolE A col U.f nx nu np
  let x := A.row "x" nx 0
  let u := A.row "u" nu 0
  let p := A.row "p" np 0
  let xe := A.row "xe" (2 * nx) 0
  return [("f", .vec ["x", "u", "p"] (U.f x u p)), ("e", e), ("IL", symocIL A col U.L nx nu np),
    ("L", .scalar ["x", "u", "p"] (U.L x u p)), ("M", .scalar ["xe", "p"] (U.M xe p)),
    ("g", .vec ["x", "u", "p"] (U.g x u p)), ("h", .vec ["xe", "p"] (U.h xe p))]

/-- symoc.py:18-27: what the constructor does to the dictionary of the caller. -/
def ocVariables (vars : Dict String SymVar) : Py (Dict String SymVar) := do
  let x ← match Dict.get? vars "x" with
    | some x => pure x
    | none => .error .valueError
  let xn ← x.elems
  let vars := Dict.set vars "xe" (.ends xn)
  let vars := Dict.setDefault vars "p" (.vec [])
  return Dict.setDefault vars "u" (.vec [])

/-- symoc.py:17-37 `Model.__init__`. -/
noncomputable def symocInit (U : OCUser X) (iter : String → List String) (vars : Dict String SymVar) (decision : List String) :
    Py (SymClass X) := do
  let vars ← ocVariables vars
  let decision := ["p", "u", "up", "xe"] ∪ decision
  let c ← symcolInit A U.order (ocMethods A U) iter vars decision
  let m ← c.model.addAll (A.s2n (shapeOf c.vars))
    [⟨true, "IL", iter "IL"⟩, ⟨true, "M", iter "M"⟩, ⟨false, "g", iter "g"⟩, ⟨false, "h", iter "h"⟩]
  return { c with model := m }

/-- The generated class (symcol.py:63-72, symoc.py:64-69, genoptim.py:16-28). -/
def symocGen (codegen : SymFn X → List (NDArray ℝ) → NDArray ℝ) (U : OCUser X) (c : SymClass X) : Py OCModel := do
  let nx ← varLen c.vars "x"
  let nu ← varLen c.vars "u"
  let np ← varLen c.vars "p"
  let ng ← outLen c.model "g"
  let nh ← outLen c.model "h"
  let e ← c.model.genConstraint codegen "e"
  let g ← c.model.genConstraint codegen "g"
  let h ← c.model.genConstraint codegen "h"
  let IL ← c.model.genObjective codegen "IL"
  let M ← c.model.genObjective codegen "M"
  return { collocationOrder := U.order, nx, e, nu, np, ng, nh, IL, M, g, h }

/-! ### `symoem.py` -/

/-- The methods of an output error model. -/
structure OEMUser (X : Type) where
  order : Int
  f : List X → List X → List X → List X
  /-- `L(y, x, u, p)` -/
  L : List X → List X → List X → List X → X

/-- The methods of an output error model. -/
def oemMethods (U : OEMUser X) : SymMethods X := fun col v => do
  let nx ← varLen v "x"
  let nu ← varLen v "u"
  let np ← varLen v "p"
  let ny ← varLen v "y"
  let e ← symcolE A col U.f nx nu np
  let x := A.row "x" nx 0
  let u := A.row "u" nu 0
  let p := A.row "p" np 0
  return [("f", .vec ["x", "u", "p"] (U.f x u p)), ("e", e), ("L", .scalar ["y", "x", "u", "p"] (U.L (A.row "y" ny 0) x u p))]

/-- symoem.py:15-21 `Model.__init__`; the dictionary of the caller gets the default for `u`. -/
noncomputable def symoemInit (order : Int) (methods : SymMethods X) (iter : String → List String) (vars : Dict String SymVar)
    (decision : List String) (late : Dict String SymVar → Py (Dict String SymVar) := pure) : Py (SymClass X) := do
  let vars := Dict.setDefault vars "u" (.vec [])
  let decision := decision ∪ ["p"]
  let c ← symcolInit A order methods iter vars decision late
  let m ← c.model.add (A.s2n (shapeOf c.vars)) ⟨true, "L", iter "L"⟩
  return { c with model := m }

/-- The generated class (symcol.py:63-72, symoem.py:23-27). -/
def symoemGen (codegen : SymFn X → List (NDArray ℝ) → NDArray ℝ) (order : Int) (c : SymClass X) : Py OEMModel := do
  let nx ← varLen c.vars "x"
  let nu ← varLen c.vars "u"
  let np ← varLen c.vars "p"
  let ny ← varLen c.vars "y"
  let e ← c.model.genConstraint codegen "e"
  let L ← c.model.genObjective codegen "L"
  return { collocationOrder := order, nx, e, nu, np, ny, L }

/-! ### `symjme.py` -/

/-- The methods and class attributes of a joint MAP model; `jtRange` is `collocation.JT_range`. -/
structure JMEUser (X : Type) extends OEMUser X where
  useOm : Bool
  usePenalty : Bool
  jtRange : List (List ℝ)

/-- symjme.py:53, 66 `JT_range @ wc`. -/
def symjmeWp (jtRange : List (List ℝ)) (ncol ninterv nw : Nat) : List (List X) :=
  (List.range ncol).map fun i => (List.range nw).map fun l =>
    A.dotNum (jtRange.getD i []) ((List.range ninterv).map fun k => A.sym "wc" (k * nw + l))

/-- symjme.py:47-56 `Model.e`. -/
def symjmeE (col : RK.Collocation ℝ) (jtRange : List (List ℝ)) (f : List X → List X → List X → List X) (nx nu np nw : Nat) :
    Py (SymFn X) := do
  let fp ← (List.range col.n).mapM fun i => checkLen nx (f (A.row "xp" nx i) (A.row "up" nu i) (A.row "p" np 0))
  let wp := symjmeWp A jtRange col.n col.ninterv nw
  -- fp + wp @ G.T
  let d := (List.range col.n).map fun i => (List.range nx).map fun j =>
    A.add ((fp.getD i []).getD j (A.num 0)) (A.dot (wp.getD i []) (A.row "G" nw j))
  return ⟨["xp", "up", "p", "piece_len", "wc", "G"], [col.n - 1, nx],
    (List.range (col.n - 1)).flatMap fun k => (List.range nx).map fun j =>
      A.sub (A.sub (A.sym "xp" ((k + 1) * nx + j)) (A.sym "xp" (k * nx + j)))
        (A.mul (A.dotNum (col.J.getD k []) (d.map fun r => r.getD j (A.num 0))) (A.sym "piece_len" 0))⟩

/-- symjme.py:58-61 `Model.penalty`, from the output of `e`. -/
def symjmePenalty (e : SymFn X) (ninterv nx : Nat) : SymFn X :=
  .scalar ["xp", "up", "p", "piece_len", "wc", "G", "penweight"] <|
    A.sum ((List.range ninterv).map fun k => A.dot
      ((List.range nx).map fun j =>
        let ekj := e.out.getD (k * nx + j) (A.num 0)
        A.mul (A.num (-1)) (A.mul ekj ekj))
      (A.row "penweight" nx 0))

/-- symjme.py:63-79 `Model.tube_L`; `dfdx` is the symbolic function that `add_derivative('f', 'x', 'df_dx')` creates. -/
noncomputable def symjmeTubeL (col : RK.Collocation ℝ) (jtRange : List (List ℝ)) (useOm : Bool) (dfdx : SymFn X) (nx nu np nw : Nat) : SymFn X :=
  let wp := symjmeWp A jtRange col.n col.ninterv nw
  let drift := (List.range col.n).map fun i =>
    if useOm then
      -- self.df_dx(xp[i,:], up[i,:], p), then np.trace(A[-nw:, -nw:])
      let σ : String → Nat → X := fun n k => if n = "x" then A.sym "xp" (i * nx + k) else if n = "u" then A.sym "up" (i * nu + k) else A.sym n k
      A.sum (((List.range nx).drop (SymJme.tailFrom nx nw)).map fun j => A.subst (dfdx.out.getD (j * nx + j) (A.num 0)) σ)
    else A.num 0
  .scalar ["xp", "up", "p", "piece_len", "wc"] <|
    A.mul (A.dot
      ((List.range col.n).map fun i => A.mul (A.num (-(1 / 2)))
        (A.add (drift.getD i (A.num 0)) (A.sum ((wp.getD i []).map fun w => A.mul w w))))
      (col.K.map A.num)) (A.sym "piece_len" 0)

/-- `self.variables['G'].shape[1]` -/
def noiseLen (v : Dict String SymVar) : Py Nat := do
  match (← Dict.getItem v "G").shape with
  | _ :: n :: _ => return n
  | _ => .error .indexError

/-- The methods of a joint MAP model. -/
noncomputable def jmeMethods (U : JMEUser X) : SymMethods X := fun col v => do
  let nx ← varLen v "x"
  let nu ← varLen v "u"
  let np ← varLen v "p"
  let ny ← varLen v "y"
  let nw ← noiseLen v
  let e ← symjmeE A col U.jtRange U.f nx nu np nw
  let x := A.row "x" nx 0
  let u := A.row "u" nu 0
  let p := A.row "p" np 0
  let f : SymFn X := .vec ["x", "u", "p"] (U.f x u p)
  let dfdx := A.deriv (shapeOf v) f ["x"]
  return [("f", f), ("e", e), ("L", .scalar ["y", "x", "u", "p"] (U.L (A.row "y" ny 0) x u p))] ++
    (if U.useOm then [("df_dx", dfdx)] else []) ++
    [("tube_L", symjmeTubeL A col U.jtRange U.useOm dfdx nx nu np nw), ("penalty", symjmePenalty A e col.ninterv nx)]

/-- symjme.py:23-26: what the constructor does to the dictionary of the caller (without the default for `u`). -/
noncomputable def jmeVariables (order : Int) (vars : Dict String SymVar) : Py (Dict String SymVar) := do
  let nw ← noiseLen vars
  let col ← RK.lglCollocation order
  return Dict.set vars "wc" (.noise col.ninterv nw)

/-- symjme.py:34-36: the variable `penweight`. -/
def jmeLate (U : JMEUser X) (v : Dict String SymVar) : Py (Dict String SymVar) :=
  if U.usePenalty then do return Dict.set v "penweight" (.penweight (← varLen v "x")) else pure v

/-- symjme.py:22-37 `Model.__init__`. -/
noncomputable def symjmeInit (U : JMEUser X) (iter : String → List String) (vars : Dict String SymVar) (decision : List String) :
    Py (SymClass X) := do
  let vars ← jmeVariables U.order vars
  let decision := decision ∪ ["wc"]
  let c ← symoemInit A U.order (jmeMethods A U) iter vars decision (jmeLate U)
  let m ← c.model.addAll (A.s2n (shapeOf c.vars))
    (⟨true, "tube_L", iter "tube_L"⟩ :: if U.usePenalty then [⟨true, "penalty", iter "penalty"⟩] else [])
  return { c with model := m }

/-- The generated class (symcol.py:63-72, symoem.py:23-27, symjme.py:39-45).  The values `G` and `penweight` are attributes that the
user sets on the generated object. -/
def symjmeGen (codegen : SymFn X → List (NDArray ℝ) → NDArray ℝ) (U : JMEUser X) (G : NDArray ℝ) (penweight : Option (NDArray ℝ))
    (c : SymClass X) : Py JMEModel := do
  let m ← symoemGen codegen U.order c
  let nw ← noiseLen c.vars
  let tubeL ← c.model.genObjective codegen "tube_L"
  let penalty ← if U.usePenalty then some <$> c.model.genObjective codegen "penalty" else pure none
  return { toOEMModel := m, nw, tubeL, G, usePenalty := some U.usePenalty, penalty, penweight }

end
end Ceacoest
