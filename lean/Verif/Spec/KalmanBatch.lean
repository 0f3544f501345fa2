import Verif.Model.KalmanBatch

/-! # What it means that a filter of a stack filters each entry of it -/

namespace Ceacoest.Spec

/-- `a` is the stack of shape `s` with the given entries, in C order. -/
def StackOf {α : Type} (s : List Nat) (a : NDArray α) (g : Fin s.prod → α) : Prop := a.shape = s ∧ a.data = List.ofFn g

/-- `a` is that stack, or one array that stands for every entry. -/
def StackOrOne {α : Type} (s : List Nat) (a : NDArray α) (g : Fin s.prod → α) : Prop :=
  StackOf s a g ∨ ∃ v, a.shape = [] ∧ a.data = [v] ∧ ∀ b, g b = v

/-- `out[k]` is the stack of the `k`-th means, and of the `k`-th covariances. -/
def Stacked {nx : Nat} (s : List Nat) (out : List (BMoments nx)) (ms : Fin s.prod → List (Moments nx)) : Prop :=
  (∀ b, (ms b).length = out.length) ∧ ∀ (k : Nat) (m : BMoments nx), out[k]? = some m →
    ∃ g : Fin s.prod → Moments nx, (∀ b, (ms b)[k]? = some (g b)) ∧ StackOf s m.1 (fun b => (g b).1) ∧ StackOf s m.2 fun b => (g b).2

/-- `a` returns if and only if every program of the family does, and then it returns the stack of what they return. -/
def Entrywise {nx : Nat} {σ τ : Type} (s : List Nat) (a : Py (List (BMoments nx) × τ)) (f : Fin s.prod → Py (List (Moments nx) × σ)) : Prop :=
  ((∃ r, a = .ok r) ↔ ∀ b, ∃ r, f b = .ok r) ∧
    ∀ out a', a = .ok (out, a') → ∃ ms : Fin s.prod → List (Moments nx), (∀ b, ∃ t', f b = .ok (ms b, t')) ∧ Stacked s out ms

end Ceacoest.Spec
