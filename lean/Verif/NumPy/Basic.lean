/-!
# The fragment of Python and NumPy that ceacoest relies on

Everything here models the *language and array library*, not ceacoest itself: Python exceptions, `assert`,
index and slice normalisation, dictionaries, and C-contiguous `ndarray`s given by a shape and the flat list
of their entries in C (row-major) order.  Entries are of an arbitrary type `α`; rounding is not modelled.
All definitions are executable.
-/

namespace Ceacoest

/-- The Python exceptions that ceacoest (or the NumPy calls it makes) can raise. -/
inductive PyErr
  | typeError | valueError | assertionError | indexError | keyError
  | nameError | attributeError | runtimeError | linAlgError | zeroDivisionError
  deriving DecidableEq, Repr

/-- A Python computation: a value or a raised exception. -/
abbrev Py (α : Type _) := Except PyErr α

/-- Python `assert p`. -/
def pyAssert (p : Prop) [Decidable p] : Py Unit :=
  if p then .ok () else .error .assertionError

/-! ### Indexing and slicing of one axis -/

/-- `a[i]` on an axis of length `n`: negative indices count from the end; out of range raises IndexError. -/
def pyIndex (n : Nat) (i : Int) : Py Nat :=
  if 0 ≤ i ∧ i < n then .ok i.toNat
  else if i < 0 ∧ 0 ≤ i + n then .ok (i + n).toNat
  else .error .indexError

/-- Clamp a slice bound into `[0, n]` the way Python does (negative counts from the end). -/
def clampIdx (n : Nat) (i : Int) : Nat :=
  if i < 0 then (i + n).toNat else min i.toNat n

/-- The positions selected by `a[start:stop:step]` on an axis of length `n`, for `step ≥ 1`. -/
def sliceIdx (n : Nat) (start stop : Option Int) (step : Nat) : List Nat :=
  let lo := match start with | none => 0 | some i => clampIdx n i
  let hi := match stop with | none => n | some i => clampIdx n i
  List.range' lo ((hi - lo + (step - 1)) / step) step

/-! ### Dictionaries -/

/-- A Python dict, as an association list in insertion order. -/
abbrev Dict (κ α : Type _) := List (κ × α)

namespace Dict

variable {κ α : Type _} [DecidableEq κ]

/-- `d.get(k)` -/
def get? (d : Dict κ α) (k : κ) : Option α :=
  match d with
  | [] => none
  | (k', v) :: r => if k' = k then some v else get? r k

/-- `d[k]`, raising KeyError -/
def getItem (d : Dict κ α) (k : κ) : Py α :=
  match get? d k with
  | some v => .ok v
  | none => .error .keyError

/-- `k in d` -/
def contains (d : Dict κ α) (k : κ) : Bool := (get? d k).isSome

/-- `d[k] = v`: an existing key keeps its position, a new one goes last. -/
def set (d : Dict κ α) (k : κ) (v : α) : Dict κ α :=
  match d with
  | [] => [(k, v)]
  | (k', v') :: r => if k' = k then (k, v) :: r else (k', v') :: set r k v

/-- `{**d, **e}` / `d.update(e)`; with `d = []` this is also a dict display or comprehension. -/
def update (d e : Dict κ α) : Dict κ α := e.foldl (fun d kv => set d kv.1 kv.2) d

/-- `d.keys()` -/
def keys (d : Dict κ α) : List κ := d.map Prod.fst

end Dict

/-! ### Arrays -/

/-- An `ndarray` in C order. -/
structure NDArray (α : Type _) where
  /-- `a.shape` -/
  shape : List Nat
  /-- `a.ravel()` -/
  data : List α
  deriving DecidableEq, Repr

namespace NDArray
variable {α : Type _}

/-- Every NumPy array has as many entries as the product of its shape. -/
def WF (a : NDArray α) : Prop := a.data.length = a.shape.prod

instance (a : NDArray α) : Decidable a.WF := inferInstanceAs (Decidable (_ = _))

/-- `np.size(a)` -/
def size (a : NDArray α) : Nat := a.data.length

/-- `np.zeros(shape)` -/
def zeros [Zero α] (shape : List Nat) : NDArray α := ⟨shape, List.replicate shape.prod 0⟩

/-- `a.reshape(shape)`: the size must not change. -/
def reshape (a : NDArray α) (shape : List Nat) : Py (NDArray α) :=
  if a.data.length = shape.prod then .ok ⟨shape, a.data⟩ else .error .valueError

end NDArray

/-- Flat C-order positions of the sub-array of an array of shape `shape` that selects, on its leading axes,
the given positions (axes without a selector are taken whole), in C order of the selection. -/
def selPos : List Nat → List (List Nat) → List Nat
  | sh, [] => List.range sh.prod
  | [], _ :: _ => []
  | _ :: sh, is :: rest => is.flatMap fun i => (selPos sh rest).map (i * sh.prod + ·)

/-- Read entries at flat positions. -/
def readAt {α : Type _} (a : List α) (pos : List Nat) : Py (List α) :=
  pos.mapM fun p => match a[p]? with
    | some v => .ok v
    | none => .error .indexError

/-- Store values at flat positions, in order (a repeated position keeps the last value). -/
def writeAt {α : Type _} : List α → List Nat → List α → List α
  | a, p :: ps, v :: vs => writeAt (a.set p v) ps vs
  | a, _, _ => a

/-- `a[sel].flat = values`: the values are repeated cyclically or cut to the size of the selection. -/
def flatAssign {α : Type _} (a : List α) (pos : List Nat) (vals : List α) : Py (List α) :=
  if pos = [] then .ok a
  else if h : vals.length = 0 then .error .valueError
  else .ok (writeAt a pos
    ((List.range pos.length).map fun i =>
      vals[i % vals.length]'(Nat.mod_lt _ (Nat.pos_of_ne_zero h))))

/-- Pad a shape with leading ones to `n` axes. -/
def padShape (n : Nat) (s : List Nat) : List Nat := List.replicate (n - s.length) 1 ++ s

/-- Whether an array of (padded) shape `src` broadcasts to `dst`. -/
def bcOK : List Nat → List Nat → Bool
  | [], [] => true
  | s :: ss, d :: ds => (s == 1 || s == d) && bcOK ss ds
  | _, _ => false

/-- Flat position in the (padded) source array of flat position `i` of the broadcast array. -/
def bcIdxPadded : List Nat → List Nat → Nat → Nat
  | s :: ss, _ :: ds, i =>
    (if s = 1 then 0 else i / ds.prod) * ss.prod + bcIdxPadded ss ds (i % ds.prod)
  | _, _, _ => 0

/-- Flat source position read by flat position `i` of `np.broadcast_to(a, dst)`, `a.shape = src`. -/
def bcIdx (src dst : List Nat) (i : Nat) : Nat := bcIdxPadded (padShape dst.length src) dst i

/-- Whether `np.broadcast_to` from shape `src` to `dst` is possible. -/
def canBroadcast (src dst : List Nat) : Bool :=
  src.length ≤ dst.length && bcOK (padShape dst.length src) dst

/-- `np.broadcast_to(a, dst)`, raising ValueError if impossible. -/
def broadcastTo {α : Type _} (a : NDArray α) (dst : List Nat) : Py (NDArray α) :=
  if canBroadcast a.shape dst then
    match (List.range dst.prod).mapM fun i => a.data[bcIdx a.shape dst i]? with
    | some d => .ok ⟨dst, d⟩
    | none => .error .indexError   -- unreachable for well-formed `a`
  else .error .valueError

end Ceacoest
