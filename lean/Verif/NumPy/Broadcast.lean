import Verif.NumPy.Basic

/-! # Binary broadcasting -/

namespace Ceacoest

/-- Common length of two broadcast axes (axes of equal rank, padded). -/
def bcShapePadded : List Nat → List Nat → Option (List Nat)
  | [], [] => some []
  | s :: ss, t :: ts =>
    match bcShapePadded ss ts with
    | none => none
    | some r => if s = t then some (s :: r) else if s = 1 then some (t :: r) else if t = 1 then some (s :: r) else none
  | _, _ => none

/-- `np.broadcast_shapes(s, t)`: the shape, or `none` where NumPy raises ValueError. -/
def bcShape2 (s t : List Nat) : Option (List Nat) :=
  let n := max s.length t.length
  bcShapePadded (padShape n s) (padShape n t)

/-- A binary ufunc. -/
def binop {α β γ : Type _} (f : α → β → γ) (a : NDArray α) (b : NDArray β) : Py (NDArray γ) :=
  match bcShape2 a.shape b.shape with
  | none => .error .valueError
  | some sh => do
    let a ← broadcastTo a sh
    let b ← broadcastTo b sh
    return ⟨sh, List.zipWith f a.data b.data⟩

/-- `a.ravel(order='F')` for an array of shape `shape`: flat C-order positions in Fortran order (first index fastest). -/
def fPos : List Nat → List Nat
  | [] => [0]
  | n :: sh => (fPos sh).flatMap fun p => (List.range n).map fun i => i * sh.prod + p

end Ceacoest
