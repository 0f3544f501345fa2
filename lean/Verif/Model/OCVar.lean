import Verif.Model.Component

/-!
# `ceacoest/oc.py`, class `XEVariable` (endpoint states)
-/

namespace Ceacoest

/-- oc.py:38-43 `XEVariable.__init__`. -/
structure XEVar where
  x : Component
  deriving DecidableEq, Repr

namespace XEVar
variable {α : Type _}

/-- oc.py:45-48 `shape`: `(2, x.shape[-1])`.  Simplification: an empty `x.shape` (IndexError in the code)
gives `nx = 0`; the package only passes the two-dimensional state variable. -/
def shape (v : XEVar) : List Nat := [2, v.x.shape.getLastD 0]

/-- oc.py:50-53 `size`. -/
def size (v : XEVar) : Nat := v.shape.prod

/-- oc.py:55-58 `unpack_from`: rows `[0, -1]` of the unpacked state. -/
def unpackFrom (v : XEVar) (vec : List α) : Py (NDArray α) := do
  let x ← v.x.unpackFrom vec
  let npoints ← match x.shape with | n :: _ => pure n | [] => .error .indexError
  let i0 ← pyIndex npoints 0
  let i1 ← pyIndex npoints (-1)
  let d ← readAt x.data (selPos x.shape [[i0, i1]])
  return ⟨2 :: x.shape.tail, d⟩

/-- oc.py:60-67 `add_to`.  Simplification: only for two-dimensional `x` (the only use); other ranks raise here. -/
def addTo [Zero α] [Add α] (v : XEVar) (dest : List α) (value : NDArray α) : Py (List α) := do
  pyAssert (value.shape = v.shape)
  match v.x.shape with
  | [npoints, _] =>
    let xval := (NDArray.zeros v.x.shape : NDArray α).data
    -- xval[0] = value[0]
    let i0 ← pyIndex npoints 0
    let src ← readAt value.data (selPos v.shape [[0]])
    let xval := writeAt xval (selPos v.x.shape [[i0]]) src
    -- xval[-1] = value[-1]
    let i1 ← pyIndex npoints (-1)
    let src ← readAt value.data (selPos v.shape [[1]])
    let xval := writeAt xval (selPos v.x.shape [[i1]]) src
    v.x.addTo dest ⟨v.x.shape, xval⟩
  | _ => .error .valueError

/-- oc.py:69-74 `convert_ind`, on one index, with Python's signed arithmetic. -/
def convertInd (v : XEVar) (xeInd : Nat) : Py Nat :=
  match v.x.shape with
  | [npoints, nx] =>
    let xFinal : Int := if xeInd ≥ nx then 1 else 0
    let xInd : Int := xeInd + xFinal * ((npoints : Int) - 2) * nx
    .ok (v.x.convertInd xInd.toNat)
  | _ => .error .valueError

end XEVar
end Ceacoest
