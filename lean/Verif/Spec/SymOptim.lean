import Verif.Spec.Layout
import Verif.Model.SymOptim
import Mathlib.Algebra.BigOperators.Group.Finset.Basic
import Mathlib.Data.Real.Basic

/-! # Specification of sparse listings of derivative tensors (C30, C31) -/

namespace Ceacoest.Spec

/-- Column `c` of an index array. -/
def column (ind : List (List Nat)) (c : Nat) : List Nat := ind.map (·.getD c 0)

/-- The index array `ind` and the values `vals` list, each once, the entries of the tensor `T` (C order) that are not zero; with
`tri`, only those of the upper triangle of the first two axes. -/
structure Lists {X : Type} (isZero : X → Bool) (shape : List Nat) (tri : Prop) (T : List X) (ind : List (List Nat)) (vals : List X) (n : Nat) :
    Prop where
  rows : ind.length = shape.length
  cols : ∀ row ∈ ind, row.length = n
  nvals : vals.length = n
  sound : ∀ c < n, InBounds shape (column ind c) ∧ (tri → (column ind c).getD 0 0 ≤ (column ind c).getD 1 0) ∧
    ∃ v, vals[c]? = some v ∧ T[cOrder shape (column ind c)]? = some v ∧ isZero v = false
  once : ∀ c < n, ∀ c' < n, column ind c = column ind c' → c = c'
  complete : ∀ idx, InBounds shape idx → (tri → idx.getD 0 0 ≤ idx.getD 1 0) → ∀ v, T[cOrder shape idx]? = some v →
    isZero v = false → ∃ c < n, column ind c = idx

/-- The keys of a dictionary of second derivatives with respect to the arguments `wrt`: every unordered pair of arguments occurs
at most once, and does occur unless `zero` says that its block vanishes. -/
structure PairsOnce (wrt : List String) (zero : String → String → Prop) (hess : Dict (List String) String) : Prop where
  nodup : (Dict.keys hess).Nodup
  mem : ∀ k ∈ Dict.keys hess, ∃ a ∈ wrt, ∃ b ∈ wrt, k = [a, b]
  once : ∀ a b, [a, b] ∈ Dict.keys hess → [b, a] ∈ Dict.keys hess → a = b
  all : ∀ a ∈ wrt, ∀ b ∈ wrt, [a, b] ∈ Dict.keys hess ∨ [b, a] ∈ Dict.keys hess ∨ zero a b ∨ zero b a

/-- All entries of a tensor (C order) are zero; with `tri`, of the upper triangle of the first two axes. -/
def Vanishes {X : Type} (isZero : X → Bool) (shape : List Nat) (tri : Prop) (T : List X) : Prop :=
  ∀ idx, InBounds shape idx → (tri → idx.getD 0 0 ≤ idx.getD 1 0) → ∀ v, T[cOrder shape idx]? = some v → isZero v = true

end Ceacoest.Spec
