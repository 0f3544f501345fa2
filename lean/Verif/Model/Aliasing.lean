import Verif.NumPy.Memory
import Verif.Model.Optim

/-!
# `unpack_from` and `variables` again, on arrays in memory

The functions of `Model.Component`, `Model.Col`, `Model.OCVar`, `Model.OEMVar` and `Model.Optim` on array contents say nothing about which
arrays share memory.  Here the same statements work on arrays as views of buffers.  The decision vector is a one-dimensional array.
-/

namespace Ceacoest
variable {α : Type _}

/-- optim.py:302-304 `Component.unpack_from`; `np.asarray` of an array is that array. -/
def Component.unpackView (c : Component) (vec : View) : Py View := (vec.slice c.offset (c.offset + c.size)).reshape c.shape

/-- col.py:79-86 `unpack_from`. -/
def PieceRavelled.unpackMem [Zero α] (v : PieceRavelled) (vec : View) (h : Heap α) : Py (View × Heap α) := do
  let ur ← v.unravelled.unpackView vec
  let (out, h) := h.alloc (NDArray.zeros v.shape)
  -- out[:, :-1].flat = ur[:-1].flat
  let npoints ← match ur.shape with | n :: _ => pure n | [] => .error .indexError
  let src ← h.get ur.buf (← ur.at_ [sliceIdx npoints none (some (-1)) 1])
  let h ← h.putFlat out.buf (← out.at_ [sliceIdx v.npieces none none 1, sliceIdx v.ncol none (some (-1)) 1]) src
  -- out[:-1, -1] = out[1:, 0]
  let last ← pyIndex v.ncol (-1)
  let first ← pyIndex v.ncol 0
  let src ← h.get out.buf (← out.at_ [sliceIdx v.npieces (some 1) none 1, [first]])
  let h := h.put out.buf (← out.at_ [sliceIdx v.npieces none (some (-1)) 1, [last]]) src
  -- out[-1, -1] = ur[-1]
  let lastPiece ← pyIndex v.npieces (-1)
  let lastPoint ← pyIndex npoints (-1)
  let src ← h.get ur.buf (← ur.at_ [[lastPoint]])
  let h := h.put out.buf (← out.at_ [[lastPiece], [last]]) src
  return (out, h)

/-- oc.py:55-58 `unpack_from`: indexing with a list copies. -/
def XEVar.unpackMem (v : XEVar) (vec : View) (h : Heap α) : Py (View × Heap α) := do
  let x ← v.x.unpackView vec
  let npoints ← match x.shape with | n :: _ => pure n | [] => .error .indexError
  let i0 ← pyIndex npoints 0
  let i1 ← pyIndex npoints (-1)
  let d ← h.get x.buf (← x.at_ [[i0, i1]])
  return h.alloc ⟨2 :: x.shape.tail, d⟩

/-- oem.py:84-87 `unpack_from`: indexing with an array of indices copies. -/
def XMVar.unpackMem (v : XMVar) (vec : View) (h : Heap α) : Py (View × Heap α) := do
  let x ← v.x.unpackView vec
  let npoints ← match x.shape with | n :: _ => pure n | [] => .error .indexError
  let rows ← v.kmeas.mapM fun (k : Nat) => pyIndex npoints (k : Int)
  let d ← h.get x.buf (← x.at_ [rows])
  return h.alloc ⟨rows.length :: x.shape.tail, d⟩

/-- dispatch of `.unpack_from` -/
def VarSpec.unpackMem [Zero α] : VarSpec → View → Heap α → Py (View × Heap α)
  | comp c, vec, h => do return (← c.unpackView vec, h)
  | piece v, vec, h => v.unpackMem vec h
  | xe v, vec, h => v.unpackMem vec h
  | xm v, vec, h => v.unpackMem vec h

/-- optim.py:79-80: the loop of the dict comprehension. -/
def unpackItems [Zero α] (vec : View) : Dict String VarSpec → Heap α → Py (Dict String View × Heap α)
  | [], h => .ok ([], h)
  | (k, v) :: rest, h => do
    let (a, h) ← v.unpackMem vec h
    let (r, h) ← unpackItems vec rest h
    return ((k, a) :: r, h)

/-- optim.py:75-80 `variables`, and its overrides (col.py:53-55, oem.py:57-60, jme.py:31-34): `extra` are the arrays which the problem
object holds; it is they that are returned, not copies. -/
def Problem.variablesMem [Zero α] (p : Problem α) (extra : Dict String View) (dvec : View) (h : Heap α) : Py (Dict String View × Heap α) := do
  pyAssert (dvec.shape = [p.ndec])
  let (vs, h) ← unpackItems dvec p.items h
  return (Dict.update extra (Dict.update [] vs), h)

/-- What a user does with one decision vector. -/
inductive MemOp (α : Type _)
  /-- another call `problem.variables(dvec)` -/
  | variables
  /-- `r[name].flat[i] = x`, where `r` is what call number `call` returned; any assignment to (parts of) an array is a sequence of these -/
  | assign (call : Nat) (name : String) (i : Nat) (x : α)

/-- The memory, and what the calls of `variables` have returned. -/
structure MemState (α : Type _) where
  heap : Heap α
  results : List (Dict String View)

/-- One operation. -/
def MemState.step [Zero α] (p : Problem α) (extra : Dict String View) (dvec : View) (s : MemState α) : MemOp α → Py (MemState α)
  | .variables => do
    let (r, h) ← p.variablesMem extra dvec s.heap
    return ⟨h, s.results ++ [r]⟩
  | .assign call name i x => match s.results[call]? with
    | none => .error .indexError
    | some r => do
      let v ← r.getItem name
      return ⟨← v.setEntry i x s.heap, s.results⟩

/-- A sequence of operations. -/
def MemState.run [Zero α] (p : Problem α) (extra : Dict String View) (dvec : View) (ops : List (MemOp α)) (s : MemState α) : Py (MemState α) :=
  ops.foldlM (MemState.step p extra dvec) s

end Ceacoest
