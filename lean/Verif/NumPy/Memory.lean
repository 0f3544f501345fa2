import Verif.NumPy.Basic

/-!
# Memory of NumPy arrays

Every array is a view of a buffer: `arr.base`, the places of its entries in it (in C order), and its shape.  Basic indexing and `reshape`
of a one-dimensional array give a view of the same buffer; `np.zeros` and indexing with a list of indices give a new buffer.
-/

namespace Ceacoest

/-- The buffers; a buffer is called by its place in this list. -/
abbrev Heap (α : Type _) := List (List α)

/-- An array: the buffer, the place in it of every entry in C order, and the shape. -/
structure View where
  buf : Nat
  pos : List Nat
  shape : List Nat
  deriving DecidableEq, Repr

namespace Heap
variable {α : Type _}

/-- The entries of a buffer at the given places. -/
def get (h : Heap α) (buf : Nat) (pos : List Nat) : Py (List α) := match h[buf]? with
  | some b => readAt b pos
  | none => .error .indexError

/-- A new array with the given content. -/
def alloc (h : Heap α) (a : NDArray α) : View × Heap α := (⟨h.length, List.range a.data.length, a.shape⟩, h ++ [a.data])

/-- Store in a buffer, in order. -/
def put (h : Heap α) (buf : Nat) (pos : List Nat) (vals : List α) : Heap α := h.modify buf fun b => writeAt b pos vals

/-- Store in a buffer through `.flat` of a selection. -/
def putFlat (h : Heap α) (buf : Nat) (pos : List Nat) (vals : List α) : Py (Heap α) := match h[buf]? with
  | some b => do return h.set buf (← flatAssign b pos vals)
  | none => .error .indexError

end Heap

namespace View
variable {α : Type _}

/-- The content of an array. -/
def read (v : View) (h : Heap α) : Py (NDArray α) := do return ⟨v.shape, ← h.get v.buf v.pos⟩

/-- `v[lo:hi]` of a one-dimensional array; a slice past the end is silently shortened. -/
def slice (v : View) (lo hi : Nat) : View :=
  let pos := (v.pos.take hi).drop lo
  ⟨v.buf, pos, [pos.length]⟩

/-- `v.reshape(shape)` of a one-dimensional array (its entries are evenly spaced, so that no copy is needed). -/
def reshape (v : View) (shape : List Nat) : Py View :=
  if v.pos.length = shape.prod then .ok ⟨v.buf, v.pos, shape⟩ else .error .valueError

/-- The places of `v[sel]`, for selectors as in `selPos`. -/
def at_ (v : View) (sel : List (List Nat)) : Py (List Nat) := readAt v.pos (selPos v.shape sel)

/-- `v.flat[i] = x`, or `v[idx] = x` with `i` the C-order index of `idx`. -/
def setEntry (v : View) (i : Nat) (x : α) (h : Heap α) : Py (Heap α) := match v.pos[i]? with
  | some p => .ok (h.put v.buf [p] [x])
  | none => .error .indexError

end View
end Ceacoest
