import Verif.Spec.Transcription

/-! # Changes of coordinates, units and time of control and estimation problems (C94) -/

namespace Ceacoest.Spec

/-- The state `A z + b`, of `nx` numbers. -/
noncomputable def affine (A : Nat → Nat → ℝ) (b : Nat → ℝ) (nz nx : Nat) (z : List ℝ) : List ℝ :=
  (List.range nx).map fun i => ∑ j ∈ Finset.range nz, A i j * z.getD j 0 + b i

/-- A change of coordinates from states `z`, inputs `v` and parameters `q` to `x = A z + b`, `u` and `p`. The matrix, the shift and the unit `τ` of time may
depend on the parameters, the inputs also on the states (feedback). The unit of the cost is `κ`. -/
structure Change where
  A : List ℝ → Nat → Nat → ℝ
  b : List ℝ → Nat → ℝ
  u : List ℝ → List ℝ → List ℝ → List ℝ
  p : List ℝ → List ℝ
  τ : List ℝ → ℝ
  κ : ℝ

noncomputable def Change.x (C : Change) (nz nx : Nat) (z q : List ℝ) : List ℝ := affine (C.A q) (C.b q) nz nx z

/-- The problem `F'` in the coordinates `z, v, q` describes the processes of the problem `F` in the coordinates `x, u, p`, in the unit `τ` of time. -/
structure SameProcesses (F' F : OCFunctions) (C : Change) (nz nv nq nx nu np : Nat) : Prop where
  lenu : ∀ z v q, z.length = nz → v.length = nv → q.length = nq → (C.u z v q).length = nu
  lenp : ∀ q, q.length = nq → (C.p q).length = np
  f : ∀ z v q, z.length = nz → v.length = nv → q.length = nq → ∀ i < nx,
    ∑ j ∈ Finset.range nz, C.A q i j * (F'.f z v q).getD j 0 = C.τ q * (F.f (C.x nz nx z q) (C.u z v q) (C.p q)).getD i 0
  L : ∀ z v q, z.length = nz → v.length = nv → q.length = nq → C.κ * F'.L z v q = C.τ q * F.L (C.x nz nx z q) (C.u z v q) (C.p q)
  M : ∀ z0 z1 q, z0.length = nz → z1.length = nz → q.length = nq → C.κ * F'.M (z0 ++ z1) q = F.M (C.x nz nx z0 q ++ C.x nz nx z1 q) (C.p q)
  g : ∀ z v q, z.length = nz → v.length = nv → q.length = nq → F'.g z v q = F.g (C.x nz nx z q) (C.u z v q) (C.p q)
  h : ∀ z0 z1 q, z0.length = nz → z1.length = nz → q.length = nq → F'.h (z0 ++ z1) q = F.h (C.x nz nx z0 q ++ C.x nz nx z1 q) (C.p q)

/-- The matrix `B` undoes the matrix `A`. -/
def LeftInverse (B A : Nat → Nat → ℝ) (nz nx : Nat) : Prop :=
  ∀ a < nz, ∀ a' < nz, ∑ j ∈ Finset.range nx, B a j * A j a' = if a = a' then 1 else 0

/-- Nothing but the unit of time changes: it is given by the parameters. -/
def Change.time (τ : List ℝ → ℝ) : Change where
  A _ i j := if i = j then 1 else 0
  b _ _ := 0
  u _ v _ := v
  p q := q
  τ := τ
  κ := 1

/-- The problem with a duration that is a parameter: all rates are multiplied by it. -/
def OCFunctions.withDuration (F : OCFunctions) (τ : List ℝ → ℝ) : OCFunctions where
  f x u p := (F.f x u p).map (· * τ p)
  L x u p := F.L x u p * τ p
  M := F.M
  g := F.g
  h := F.h

/-- The decision vector in the other coordinates. -/
noncomputable def Change.decision (C : Change) (P N nz nv nq nx : Nat) (d : List ℝ) : List ℝ :=
  let q := ocP P N nz nv nq d
  ((List.range (P * N + 1)).flatMap fun r => C.x nz nx (ocX nz d r) q) ++
    ((List.range (P * N + 1)).flatMap fun r => C.u (ocX nz d r) (ocU P N nz nv d r) q) ++ C.p q

/-- The same times in another unit and from another origin. -/
def scaledTimes (τ t₀ : ℝ) (t : List ℝ) : List ℝ := t.map fun s => τ * s + t₀

/-- An output error problem in other coordinates: the inputs are known. -/
structure SameOutputs (F' F : OEMFunctions) (C : Change) (nz nv nq ny nx nu np : Nat) : Prop where
  lenp : ∀ q, q.length = nq → (C.p q).length = np
  f : ∀ z v q, z.length = nz → v.length = nv → q.length = nq → ∀ i < nx,
    ∑ j ∈ Finset.range nz, C.A q i j * (F'.f z v q).getD j 0 = C.τ q * (F.f (C.x nz nx z q) (C.u [] v []) (C.p q)).getD i 0
  L : ∀ y z v q, y.length = ny → z.length = nz → v.length = nv → q.length = nq → C.κ * F'.L y z v q = F.L y (C.x nz nx z q) (C.u [] v []) (C.p q)

noncomputable def Change.states (C : Change) (P N nz nq nx : Nat) (d : List ℝ) : List ℝ :=
  let q := rowAt d ((P * N + 1) * nz) nq 0
  ((List.range (P * N + 1)).flatMap fun r => C.x nz nx (rowAt d 0 nz r) q) ++ C.p q

end Ceacoest.Spec
