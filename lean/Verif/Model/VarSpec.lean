import Verif.Model.Col
import Verif.Model.OCVar
import Verif.Model.OEMVar

/-!
# The variable specifications a `Problem` can hold

`optim.Problem` only uses the methods `shape`, `unpack_from`, `add_to`, `convert_ind` of a specification
(duck typing); the package has exactly the four classes below.
-/

namespace Ceacoest

/-- A variable specification object: optim.py:322 `Decision`, col.py:58, oc.py:38, oem.py:63. -/
inductive VarSpec
  | comp (c : Component)
  | piece (v : PieceRavelled)
  | xe (v : XEVar)
  | xm (v : XMVar)
  deriving DecidableEq, Repr

namespace VarSpec
variable {α : Type _}

/-- dispatch of `.shape` -/
def shape : VarSpec → List Nat
  | comp c => c.shape
  | piece v => v.shape
  | xe v => v.shape
  | xm v => v.shape

/-- dispatch of `.unpack_from` -/
def unpackFrom [Zero α] : VarSpec → List α → Py (NDArray α)
  | comp c, vec => c.unpackFrom vec
  | piece v, vec => v.unpackFrom vec
  | xe v, vec => v.unpackFrom vec
  | xm v, vec => v.unpackFrom vec

/-- dispatch of `.add_to` -/
def addTo [Zero α] [Add α] : VarSpec → List α → NDArray α → Py (List α)
  | comp c, d, v => c.addTo d v
  | piece p, d, v => p.addTo d v
  | xe p, d, v => p.addTo d v
  | xm p, d, v => p.addTo d v

/-- dispatch of `.convert_ind` on one index -/
def convertInd : VarSpec → Nat → Py Nat
  | comp c, i => .ok (c.convertInd i)
  | piece v, i => .ok (v.convertInd i)
  | xe v, i => v.convertInd i
  | xm v, i => v.convertInd i

end VarSpec
end Ceacoest
