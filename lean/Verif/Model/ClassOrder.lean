import Verif.Model.SymClasses

/-!
# `ceacoest/modelling/symcol.py`: where the order of collocation comes from

`Model.SymClasses` takes `collocation_order` as a constant of the class. Here it is an attribute, as in Python: `Model` defines it as a property without a setter, a derived class usually
overrides it by a number, and the collocation method is computed from it once. Simplifications: classes define the attribute as a number, if at all (`Model` apart); `cached_property` is that of the
package (the substitute in utils.py:116-118 may forget the result after 128 other objects).
-/

namespace Ceacoest

/-- The class of an object, as its MRO: what the classes before and after `symcol.Model` have under the name `collocation_order`. -/
structure Mro where
  before : List (Option Int)
  after : List (Option Int)

/-- A model object: its class, the entry `collocation_order` of its `__dict__`, and the cached collocation method. -/
structure OrderObj where
  mro : Mro
  own : Option Int := none
  cache : Option (RK.Collocation ℝ) := none

namespace OrderObj

/-- Attribute lookup in classes: the first that has it. -/
def nearest (l : List (Option Int)) : Option Int := l.findSome? id

/-- symcol.py:53-56 `collocation_order`. The number of a derived class hides the property, and an entry of the object hides that number; the property looks in the classes after its own. -/
def order (m : OrderObj) : Int := match nearest m.mro.before with
  | some v => m.own.getD v
  | none => (nearest m.mro.after).getD 2

/-- `m.collocation_order = v`: a property without setter raises AttributeError. -/
def setOrder (v : Int) (m : OrderObj) : Py OrderObj := match nearest m.mro.before with
  | some _ => .ok { m with own := some v }
  | none => .error .attributeError

/-- symcol.py:58-61 `collocation`. -/
noncomputable def collocation (m : OrderObj) : Py (RK.Collocation ℝ × OrderObj) := match m.cache with
  | some c => .ok (c, m)
  | none => do
    let c ← RK.lglCollocation m.order
    return (c, { m with cache := some c })

/-- symcol.py:43: the constructor asks for the method. -/
noncomputable def make (mro : Mro) : Py OrderObj := do
  let (_, m) ← collocation { mro }
  return m

/-- What is done with the object between its construction and the generation of code. -/
inductive Op
  | setOrder (v : Int)
  | collocation

/-- One of these. -/
noncomputable def step (m : OrderObj) : Op → Py OrderObj
  | .setOrder v => m.setOrder v
  | .collocation => do return (← m.collocation).2

end OrderObj

/-- symcol.py:64-72, symoc.py:64-69: the class generated from a model whose attribute is `order` by then. -/
def symocGenAt {X : Type} (codegen : SymFn X → List (NDArray ℝ) → NDArray ℝ) (U : OCUser X) (order : Int) (c : SymClass X) : Py OCModel :=
  symocGen codegen { U with order := order } c

end Ceacoest
