import Verif.Model.SymOptim

/-!
# Sequences of `add_objective` and `add_constraint` calls

The constructors of the symbolic model classes are such sequences (symcol.py:48, symoc.py:34-37, symoem.py:21,
symjme.py:32-37).
-/

namespace Ceacoest

/-- A call of `add_objective` or `add_constraint` with the default `derivatives=2`; `order` is the order in which Python
iterates over the decision arguments of the function. -/
structure SymCall where
  objective : Bool
  fname : String
  order : List String

namespace SymModel
variable {X : Type}

/-- One call. -/
def add (S : Sym2Num X) (m : SymModel X) (c : SymCall) : Py (SymModel X) :=
  if c.objective then m.addObjective S c.fname c.order else m.addConstraint S c.fname c.order

/-- Calls one after the other. -/
def addAll (S : Sym2Num X) (m : SymModel X) (calls : List SymCall) : Py (SymModel X) :=
  calls.foldlM (fun m c => m.add S c) m

/-- The generated function (genoptim.py:16-28). -/
def gen {α : Type} (codegen : SymFn X → List (NDArray α) → NDArray α) (m : SymModel X) (c : SymCall) : Py (GenFun α) :=
  if c.objective then m.genObjective codegen c.fname else m.genConstraint codegen c.fname

end SymModel
end Ceacoest
