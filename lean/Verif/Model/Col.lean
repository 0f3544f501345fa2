import Verif.Model.Component

/-!
# `ceacoest/col.py`, class `PieceRavelledVariable`
-/

namespace Ceacoest

/-- col.py:58-67 `PieceRavelledVariable.__init__`. Simplification: `unravelled` is a `Component` (a decision
variable), which is all that the package ever passes (col.py:50, oc.py:27). -/
structure PieceRavelled where
  unravelled : Component
  npieces : Nat
  ncol : Nat
  deriving DecidableEq, Repr

namespace PieceRavelled
variable {α : Type _}

/-- col.py:69-72 `shape`: `(npieces, ncol) + unravelled.shape[1:]`. -/
def shape (v : PieceRavelled) : List Nat := v.npieces :: v.ncol :: v.unravelled.shape.tail

/-- col.py:74-77 `size` (exact product, see `Component.size`). -/
def size (v : PieceRavelled) : Nat := v.shape.prod

/-- col.py:79-86 `unpack_from`, statement by statement. -/
def unpackFrom [Zero α] (v : PieceRavelled) (vec : List α) : Py (NDArray α) := do
  let ur ← v.unravelled.unpackFrom vec
  let sh := v.shape
  let out := (NDArray.zeros sh : NDArray α).data
  -- out[:, :-1].flat = ur[:-1].flat
  let npoints ← match ur.shape with | n :: _ => pure n | [] => .error .indexError
  let src ← readAt ur.data (selPos ur.shape [sliceIdx npoints none (some (-1)) 1])
  let out ← flatAssign out
    (selPos sh [sliceIdx v.npieces none none 1, sliceIdx v.ncol none (some (-1)) 1]) src
  -- out[:-1, -1] = out[1:, 0]
  let last ← pyIndex v.ncol (-1)
  let first ← pyIndex v.ncol 0
  let src ← readAt out (selPos sh [sliceIdx v.npieces (some 1) none 1, [first]])
  let out := writeAt out (selPos sh [sliceIdx v.npieces none (some (-1)) 1, [last]]) src
  -- out[-1, -1] = ur[-1]
  let lastPiece ← pyIndex v.npieces (-1)
  let lastPoint ← pyIndex npoints (-1)
  let src ← readAt ur.data (selPos ur.shape [[lastPoint]])
  let out := writeAt out (selPos sh [[lastPiece], [last]]) src
  return ⟨sh, out⟩

/-- col.py:88-96 `add_to`, statement by statement.  A zero step (`ncol = 1`) raises ValueError in the slice.
Simplification: `ncol = 0` (a negative step) is treated like `ncol = 1`; the package always has `ncol ≥ 2`. -/
def addTo [Zero α] [Add α] (v : PieceRavelled) (dest : List α) (value : NDArray α) : Py (List α) := do
  pyAssert (value.shape = v.shape)
  let ninterv := v.ncol - 1
  let dsh := v.unravelled.shape
  let dec := (NDArray.zeros dsh : NDArray α).data
  let npoints ← match dsh with | n :: _ => pure n | [] => .error .indexError
  -- dec[:-1].flat = value[:, :-1].flat
  let src ← readAt value.data
    (selPos v.shape [sliceIdx v.npieces none none 1, sliceIdx v.ncol none (some (-1)) 1])
  let dec ← flatAssign dec (selPos dsh [sliceIdx npoints none (some (-1)) 1]) src
  -- dec[ninterv::ninterv] += value[:, -1]
  if ninterv = 0 then .error .valueError else
  let rows := sliceIdx npoints (some ninterv) none ninterv
  let last ← pyIndex v.ncol (-1)
  let inc ← readAt value.data (selPos v.shape [sliceIdx v.npieces none none 1, [last]])
  let inc ← broadcastTo ⟨v.npieces :: v.unravelled.shape.tail, inc⟩ (rows.length :: dsh.tail)
  let old ← readAt dec (selPos dsh [rows])
  let dec := writeAt dec (selPos dsh [rows]) (List.zipWith (· + ·) old inc.data)
  -- self.unravelled.add_to(destination, dec)
  v.unravelled.addTo dest ⟨dsh, dec⟩

/-- col.py:98-103 `convert_ind`, on one index.  NumPy's `//` by zero gives 0, like `Nat` division. -/
def convertInd (v : PieceRavelled) (ravInd : Nat) : Nat :=
  let piece := ravInd / (v.shape.drop 1).prod
  let urInd := ravInd - piece * (v.shape.drop 2).prod
  v.unravelled.convertInd urInd

end PieceRavelled
end Ceacoest
