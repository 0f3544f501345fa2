import Verif.NumPy.Basic

/-!
# `ceacoest/optim.py`, class `Component` (and `Decision`)
-/

namespace Ceacoest

/-- optim.py:276-284 `Component.__init__`: a block of a parent vector.  `shape` is already a tuple
(the integer case is normalised by the callers, see `ShapeArg.norm`).  Also optim.py:322 `Decision`. -/
structure Component where
  shape : List Nat
  offset : Nat
  deriving DecidableEq, Repr

namespace Component
variable {α : Type _}

/-- optim.py:292-295 `Component.size`.  Simplification: the product is exact here; the code takes it in
C `int` arithmetic (`dtype=np.intc`), which is modelled separately in `Verif.Model.IntC` (property C62). -/
def size (c : Component) : Nat := c.shape.prod

/-- optim.py:302-304 `Component.unpack_from`: slice (optim.py:297-300; a slice past the end is silently
shortened) and reshape (which then raises ValueError). -/
def unpackFrom (c : Component) (vec : List α) : Py (NDArray α) :=
  let s := (vec.take (c.offset + c.size)).drop c.offset
  NDArray.reshape ⟨[s.length], s⟩ c.shape

/-- optim.py:306-309 `Component.add_to` (`destination.ndim == 1` holds by typing). -/
def addTo [Add α] (c : Component) (dest : List α) (value : NDArray α) : Py (List α) := do
  pyAssert (dest.length ≥ c.offset + c.size)
  let b ← broadcastTo value c.shape
  let old := (dest.take (c.offset + c.size)).drop c.offset
  return dest.take c.offset ++ List.zipWith (· + ·) old b.data ++ dest.drop (c.offset + c.size)

/-- optim.py:311-314 `Component.pack_into`. -/
def packInto (c : Component) (dest : List α) (value : NDArray α) : Py (List α) := do
  pyAssert (dest.length ≥ c.offset + c.size)
  let b ← broadcastTo value c.shape
  return dest.take c.offset ++ b.data ++ dest.drop (c.offset + c.size)

/-- optim.py:316-319 `Component.convert_ind`, on one index (the code is elementwise). -/
def convertInd (c : Component) (i : Nat) : Nat := i + c.offset

end Component

/-- The `shape` argument of the `add_*` methods: an integer or a tuple. -/
inductive ShapeArg
  | int (n : Nat)
  | tuple (l : List Nat)
  deriving DecidableEq, Repr

/-- optim.py:44-45, 53-54, 69-70: `if isinstance(shape, numbers.Integral): shape = shape,`. -/
def ShapeArg.norm : ShapeArg → List Nat
  | .int n => [n]
  | .tuple l => l

end Ceacoest
