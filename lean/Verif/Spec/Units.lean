import Verif.Model.Kalman

/-! # Changes of units and of coordinates (C90) -/

namespace Ceacoest.Spec
open Matrix

/-- Two calls do the same: both raise the same exception, or both return, and `R` holds for what they return. -/
def SameOutcome {A B : Type} (R : A → B → Prop) : Py A → Py B → Prop
  | .ok a, .ok b => R a b
  | .error e, .error e' => e = e'
  | _, _ => False

/-- New coordinates: a state `x` becomes `T x + b`, and an output `y` becomes `D y + c`. -/
structure Units (nx : Nat) (o : Type) where
  T : Matrix (Fin nx) (Fin nx) ℝ
  b : Fin nx → ℝ
  D : o → ℝ
  c : o → ℝ

namespace Units
variable {nx : Nat} {o p : Type} (U : Units nx o)

def state (x : Fin nx → ℝ) : Fin nx → ℝ := U.T *ᵥ x + U.b

/-- Covariances of two states. -/
def cov (P : Matrix (Fin nx) (Fin nx) ℝ) : Matrix (Fin nx) (Fin nx) ℝ := U.T * P * U.Tᵀ

def moments (m : Moments nx) : Moments nx := (U.state m.1, U.cov m.2)

/-- A row of measurements; what is masked remains so. -/
@[reducible] def row (y : MaskedRow o) : MaskedRow o := ⟨fun j => U.D j * y.data j + U.c j, y.mask⟩

/-- `M'` is the model `M` in the new coordinates. -/
structure Converts (M M' : KModel nx o p) : Prop where
  f : ∀ k x, M'.f k (U.state x) = U.state (M.f k x)
  h : ∀ k x j, M'.h k (U.state x) j = U.D j * M.h k x j + U.c j
  Q : ∀ k x, M'.Q k (U.state x) = U.cov (M.Q k x)
  R : ∀ i j, M'.R i j = U.D i * M.R i j * U.D j

/-- And so are its derivatives (the chain rule; `df_dx k x i j` is the derivative of `f j` in `x i`). -/
structure ConvertsDeriv (M M' : KModel nx o p) : Prop where
  f : ∀ k x i j, ∑ l, U.T l i * M'.df_dx k (U.state x) l j = ∑ l, M.df_dx k x i l * U.T j l
  h : ∀ k x i j, ∑ l, U.T l i * M'.dh_dx k (U.state x) l j = M.dh_dx k x i j * U.D j

/-- The second filter is where the first one is. -/
def Same (s t : FilterAttrs nx p) : Prop := t.k = s.k ∧ t.x = U.state s.x ∧ t.Px = U.cov s.Px

open Classical in
/-- The logarithm of the volume of a unit of the measurements that are there. -/
noncomputable def logVolume [Fintype o] (y : MaskedRow o) : ℝ := ∑ j, if y.mask j = false then Real.log (U.D j) else 0

end Units

end Ceacoest.Spec
