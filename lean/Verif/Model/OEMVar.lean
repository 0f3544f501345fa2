import Verif.Model.Component

/-!
# `ceacoest/oem.py`, class `XMVariable` (states at the measurement times)
-/

namespace Ceacoest

/-- oem.py:63-72 `XMVariable.__init__` (`nmeas = len(kmeas)`). -/
structure XMVar where
  x : Component
  kmeas : List Nat
  deriving DecidableEq, Repr

namespace XMVar
variable {α : Type _}

/-- oem.py:74-77 `shape`: `(nmeas, x.shape[1])`.  Simplification: a one-dimensional `x` (IndexError in the
code) gives 0; the package only passes the two-dimensional state variable. -/
def shape (v : XMVar) : List Nat := [v.kmeas.length, v.x.shape.getD 1 0]

/-- oem.py:79-82 `size` (the code's `np.int` was removed in NumPy 1.24; `size` is not used by `Problem`). -/
def size (v : XMVar) : Nat := v.shape.prod

/-- oem.py:84-87 `unpack_from`: `x[kmeas]` (an out-of-range row raises IndexError). -/
def unpackFrom (v : XMVar) (vec : List α) : Py (NDArray α) := do
  let x ← v.x.unpackFrom vec
  let npoints ← match x.shape with | n :: _ => pure n | [] => .error .indexError
  let rows ← v.kmeas.mapM fun (k : Nat) => pyIndex npoints (k : Int)
  let d ← readAt x.data (selPos x.shape [rows])
  return ⟨rows.length :: x.shape.tail, d⟩

/-- oem.py:89-95 `add_to`.  Simplification: only for two-dimensional `x`. -/
def addTo [Zero α] [Add α] (v : XMVar) (dest : List α) (value : NDArray α) : Py (List α) := do
  pyAssert (value.shape = v.shape)
  match v.x.shape with
  | [npoints, _] =>
    let xval := (NDArray.zeros v.x.shape : NDArray α).data
    let rows ← v.kmeas.mapM fun (k : Nat) => pyIndex npoints (k : Int)
    -- xval[self.kmeas] = value
    let xval := writeAt xval (selPos v.x.shape [rows]) value.data
    v.x.addTo dest ⟨v.x.shape, xval⟩
  | _ => .error .valueError

/-- oem.py:97-103 `convert_ind`, on one index: `unravel_index`, lookup in `kmeas`, `ravel_multi_index`,
each raising ValueError when out of range. -/
def convertInd (v : XMVar) (xmInd : Nat) : Py Nat :=
  match v.x.shape with
  | [npoints, nx] =>
    if xmInd < v.kmeas.length * nx then
      match v.kmeas[xmInd / nx]? with
      | some k =>
        if k < npoints then .ok (v.x.convertInd (k * nx + xmInd % nx)) else .error .valueError
      | none => .error .indexError
    else .error .valueError
  | _ => .error .valueError

end XMVar
end Ceacoest
