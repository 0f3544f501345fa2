import Verif.Model.Aliasing
import Verif.Model.Problems
import Mathlib.Data.EReal.Basic
import Mathlib.Analysis.Real.Pi.Bounds

/-!
# The bounds that the scripts of the examples set

Bounds are numbers or infinite.  The scripts fill two arrays, of lower and of upper bounds, through the arrays that `variables` returns for
them.
-/

namespace Ceacoest.Script
variable {α : Type}

/-- The part of a problem that `variables` reads, for decision vectors of other numbers.  Simplification: the constants of the problem
(`piece_len`, …), which the scripts do not touch, are left out of the result of `variables`. -/
def layout (p : Problem ℝ) : Problem EReal := ⟨p.decision, p.remapped, [], [], p.ndec, p.ncons, []⟩

/-- A subscript of one axis: `:`, `i` or `:i`. -/
inductive Sub
  | all
  | item (i : Int)
  | upto (i : Int)

/-- The places that it selects on an axis of length `n`. -/
def Sub.resolve (n : Nat) : Sub → Py (List Nat)
  | all => .ok (sliceIdx n none none 1)
  | item i => do return [← pyIndex n i]
  | upto i => .ok (sliceIdx n none (some i) 1)

/-- Subscripts of the first axes. -/
def resolve : List Nat → List Sub → Py (List (List Nat))
  | _, [] => .ok []
  | [], _ :: _ => .error .indexError
  | n :: sh, s :: rest => do return (← s.resolve n) :: (← resolve sh rest)

/-- What is assigned: a number, or a list. -/
inductive Value (α : Type)
  | num (x : α)
  | list (xs : List α)

/-- `v[subs] = value`.  Simplification: a list must have as many numbers as places are selected (the scripts do not rely on broadcasting it). -/
def assign (v : View) (subs : List Sub) (value : Value α) (h : Heap α) : Py (Heap α) := do
  let pos ← v.at_ (← resolve v.shape subs)
  match value with
  | .num x => return h.put v.buf pos (pos.map fun _ => x)
  | .list xs => if xs.length = pos.length then return h.put v.buf pos xs else .error .valueError

/-- `var_L[name][subs] = value` or `var_U[name][subs] = value`; without name, `dec_L[subs] = value` or `dec_U[subs] = value`. -/
structure Stmt where
  upper : Bool
  name : Option String
  subs : List Sub
  value : Value EReal

/-- The variables of a script. -/
structure Arrays where
  heap : Heap EReal
  decL : View
  decU : View
  varL : Dict String View
  varU : Dict String View

/-- bryson_denham.py:57-60, brachistochrone.py:61-64, duffing_jme.py:181-184 (attas_sp.py:77-78 without the calls of `variables`):
`dec_bounds = np.repeat([[-np.inf], [np.inf]], problem.ndec, axis=-1)`, `dec_L, dec_U = dec_bounds`, `var_L = problem.variables(dec_L)`,
`var_U = problem.variables(dec_U)`.  The two vectors are rows of one array. -/
noncomputable def start (p : Problem ℝ) : Py Arrays := do
  let h : Heap EReal := [List.replicate p.ndec ⊥ ++ List.replicate p.ndec ⊤]
  let decL : View := ⟨0, List.range p.ndec, [p.ndec]⟩
  let decU : View := ⟨0, (List.range p.ndec).map (p.ndec + ·), [p.ndec]⟩
  let (varL, h) ← (layout p).variablesMem [] decL h
  let (varU, h) ← (layout p).variablesMem [] decU h
  return ⟨h, decL, decU, varL, varU⟩

/-- One assignment. -/
def exec (a : Arrays) (s : Stmt) : Py Arrays := do
  let v ← match s.name with
    | none => pure (if s.upper then a.decU else a.decL)
    | some name => Dict.getItem (if s.upper then a.varU else a.varL) name
  return { a with heap := ← assign v s.subs s.value a.heap }

/-- The bounds that are given to the solver, `problem.ipopt(dec_bounds, …)`. -/
noncomputable def bounds (p : Problem ℝ) (stmts : List Stmt) : Py (List EReal × List EReal) := do
  let a ← stmts.foldlM exec (← start p)
  return ((← a.decL.read a.heap).data, (← a.decU.read a.heap).data)

/-- bryson_denham.py:62-67 -/
noncomputable def brysonDenham : List Stmt :=
  [⟨false, some "x", [.all, .item 0], .num 0⟩, ⟨true, some "x", [.all, .item 0], .num ((1 / 9 : ℝ) : EReal)⟩,
   ⟨false, some "x", [.item 0], .list [0, 1]⟩, ⟨true, some "x", [.item 0], .list [0, 1]⟩,
   ⟨false, some "x", [.item (-1)], .list [0, -1]⟩, ⟨true, some "x", [.item (-1)], .list [0, -1]⟩]

/-- brachistochrone.py:66-72 -/
noncomputable def brachistochrone : List Stmt :=
  [⟨false, some "p", [.all], .num ((1e-5 : ℝ) : EReal)⟩, ⟨false, some "x", [.item 0, .upto 3], .num 0⟩,
   ⟨true, some "x", [.item 0, .upto 3], .num 0⟩, ⟨false, some "x", [.item (-1), .upto 2], .list [((10 : ℝ) : EReal), ((-5 : ℝ) : EReal)]⟩,
   ⟨true, some "x", [.item (-1), .upto 2], .list [((10 : ℝ) : EReal), ((-5 : ℝ) : EReal)]⟩,
   ⟨false, some "u", [.all], .num ((-Real.pi : ℝ) : EReal)⟩, ⟨true, some "u", [.all], .num ((Real.pi : ℝ) : EReal)⟩]

/-- attas_sp.py:79-80 -/
noncomputable def attas : List Stmt :=
  [⟨false, none, [.item (-2)], .num ((0.0001 : ℝ) : EReal)⟩, ⟨false, none, [.item (-1)], .num ((0.00025 : ℝ) : EReal)⟩]

/-- duffing_jme.py:185 -/
noncomputable def duffing : List Stmt := [⟨false, some "p", [.item (-1)], .num ((1e-5 : ℝ) : EReal)⟩]

/-- attas_sp.py:86-88: the initial guess. -/
noncomputable def attasGuess (p : Problem ℝ) : Py (List ℝ) := do
  let d := List.replicate p.ndec (0 : ℝ)
  let i ← pyIndex p.ndec (-2)
  let d := d.set i 0.001
  let i ← pyIndex p.ndec (-1)
  return d.set i 0.0025

end Ceacoest.Script
