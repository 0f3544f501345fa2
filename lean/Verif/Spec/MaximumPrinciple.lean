import Verif.Spec.Transcription
import Verif.Spec.Poly

/-!
# The maximum principle, in discrete form (C92)

The conditions that a minimiser of an optimal control problem satisfies, with costates and the Hamiltonian, as discretised by the pair of Lobatto IIIA and IIIB methods.
-/

namespace Ceacoest.Spec
open Polynomial

/-- The partial derivative of `φ` at `x` with respect to entry `j`. -/
noncomputable def pderiv (φ : List ℝ → ℝ) (x : List ℝ) (j : Nat) : ℝ := deriv (fun s => φ (x.set j s)) (x.getD j 0)

/-- `φ` has the first `n` partial derivatives at `x`. -/
def HasPDerivs (n : Nat) (φ : List ℝ → ℝ) (x : List ℝ) : Prop := ∀ j < n, DifferentiableAt ℝ (fun s => φ (x.set j s)) (x.getD j 0)

/-- The coefficients of the Lobatto IIIB method with points `c` and weights `K`: they integrate polynomials of degree at most `N - 2` from zero to each of the points, using the first
point with its weight in `K` and the last one with weight zero. -/
structure LobattoIIIB (c K : List ℝ) (N : Nat) (B : Nat → Nat → ℝ) : Prop where
  first : ∀ l ≤ N, B l 0 = K.getD 0 0
  last : ∀ l ≤ N, B l N = 0
  exact : ∀ l ≤ N, ∀ q : ℝ[X], q.natDegree + 2 ≤ N → ∑ m ∈ Finset.range (N + 1), B l m * q.eval (c.getD m 0) = integral q 0 (c.getD l 0)

namespace OCFunctions
variable (F : OCFunctions)

/-- The Hamiltonian: the running cost plus the costates times the rates of the states. -/
noncomputable def hamiltonian (nx : Nat) (ψ : Nat → ℝ) (x u p : List ℝ) : ℝ := F.L x u p + ∑ a ∈ Finset.range nx, ψ a * (F.f x u p).getD a 0

/-- The path constraints with their multipliers. -/
noncomputable def pathTerm (ng : Nat) (μ : Nat → ℝ) (x u p : List ℝ) : ℝ := ∑ a ∈ Finset.range ng, μ a * (F.g x u p).getD a 0

/-- The cost of the end points and the end point constraints with their multipliers. -/
noncomputable def endTerm (nh : Nat) (ν : Nat → ℝ) (xe p : List ℝ) : ℝ := F.M xe p + ∑ a ∈ Finset.range nh, ν a * (F.h xe p).getD a 0

/-- The partial derivatives exist at the points of a decision vector. -/
structure PartialsAt (nx nu np ng nh m : Nat) (x u : Nat → List ℝ) (p : List ℝ) : Prop where
  fx : ∀ r ≤ m, ∀ a < nx, HasPDerivs nx (fun x => (F.f x (u r) p).getD a 0) (x r)
  fu : ∀ r ≤ m, ∀ a < nx, HasPDerivs nu (fun u => (F.f (x r) u p).getD a 0) (u r)
  fp : ∀ r ≤ m, ∀ a < nx, HasPDerivs np (fun p => (F.f (x r) (u r) p).getD a 0) p
  Lx : ∀ r ≤ m, HasPDerivs nx (fun x => F.L x (u r) p) (x r)
  Lu : ∀ r ≤ m, HasPDerivs nu (fun u => F.L (x r) u p) (u r)
  Lp : ∀ r ≤ m, HasPDerivs np (fun p => F.L (x r) (u r) p) p
  gx : ∀ r ≤ m, ∀ a < ng, HasPDerivs nx (fun x => (F.g x (u r) p).getD a 0) (x r)
  gu : ∀ r ≤ m, ∀ a < ng, HasPDerivs nu (fun u => (F.g (x r) u p).getD a 0) (u r)
  gp : ∀ r ≤ m, ∀ a < ng, HasPDerivs np (fun p => (F.g (x r) (u r) p).getD a 0) p
  Mx : HasPDerivs (2 * nx) (fun xe => F.M xe p) (x 0 ++ x m)
  Mp : HasPDerivs np (fun p => F.M (x 0 ++ x m) p) p
  hx : ∀ a < nh, HasPDerivs (2 * nx) (fun xe => (F.h xe p).getD a 0) (x 0 ++ x m)
  hp : ∀ a < nh, HasPDerivs np (fun p => (F.h (x 0 ++ x m) p).getD a 0) p

/-- What changes the costate `b` at point `m` of piece `k`: the derivative of the Hamiltonian with the weight of the point, and between the mesh times the path constraints. -/
noncomputable def force (K len : List ℝ) (N nx ng : Nat) (x u : Nat → List ℝ) (p : List ℝ) (μ : Nat → Nat → ℝ) (ψ : Nat → Nat → Nat → ℝ) (k m b : Nat) : ℝ :=
  len.getD k 0 * K.getD m 0 * pderiv (fun y => F.hamiltonian nx (ψ k m) y (u (k * N + m)) p) (x (k * N + m)) b +
    if 0 < m ∧ m < N then pderiv (fun y => F.pathTerm ng (μ (k * N + m)) y (u (k * N + m)) p) (x (k * N + m)) b else 0

/-- The maximum principle in discrete form. The states and inputs at point `l` of piece `k` are `x (k * N + l)` and `u (k * N + l)`, the costates there are `ψ k l`. The costates just
before and after mesh time `k` are `before k` and `after k`; they differ if there are path constraints. `K` are the weights and `B` the coefficients of the Lobatto IIIB method. -/
structure MaximumPrinciple (K len : List ℝ) (B : Nat → Nat → ℝ) (P N nx nu np ng nh : Nat) (x u : Nat → List ℝ) (p : List ℝ) (μ : Nat → Nat → ℝ) (ν : Nat → ℝ)
    (ψ : Nat → Nat → Nat → ℝ) (before after : Nat → Nat → ℝ) : Prop where
  /-- transversality at the first time -/
  start : ∀ b < nx, before 0 b = -pderiv (fun xe => F.endTerm nh ν xe p) (x 0 ++ x (P * N)) b
  /-- transversality at the last time -/
  stop : ∀ b < nx, after P b = pderiv (fun xe => F.endTerm nh ν xe p) (x 0 ++ x (P * N)) (nx + b)
  /-- the jumps at the mesh times -/
  jump : ∀ k ≤ P, ∀ b < nx, after k b = before k b - pderiv (fun y => F.pathTerm ng (μ (k * N)) y (u (k * N)) p) (x (k * N)) b
  /-- the costate equation from mesh time to mesh time … -/
  mesh : ∀ k < P, ∀ b < nx, before (k + 1) b = after k b - ∑ m ∈ Finset.range (N + 1), F.force K len N nx ng x u p μ ψ k m b
  /-- … and at the points -/
  inner : ∀ k < P, ∀ l ≤ N, ∀ b < nx, ψ k l b = after k b - ∑ m ∈ Finset.range (N + 1), B l m / K.getD m 0 * F.force K len N nx ng x u p μ ψ k m b
  /-- the inputs make the Hamiltonian stationary at every point; the mesh times belong to two pieces -/
  input : ∀ r ≤ P * N, ∀ b < nu, (∑ k ∈ Finset.range P, ∑ l ∈ Finset.range (N + 1), if k * N + l = r then
      len.getD k 0 * K.getD l 0 * pderiv (fun v => F.hamiltonian nx (ψ k l) (x r) v p) (u r) b else 0) +
    pderiv (fun v => F.pathTerm ng (μ r) (x r) v p) (u r) b = 0
  /-- the parameters make the integral of the Hamiltonian stationary -/
  param : ∀ b < np, (∑ k ∈ Finset.range P, ∑ l ∈ Finset.range (N + 1),
      len.getD k 0 * K.getD l 0 * pderiv (fun w => F.hamiltonian nx (ψ k l) (x (k * N + l)) (u (k * N + l)) w) p b) +
    (∑ r ∈ Finset.range (P * N + 1), pderiv (fun w => F.pathTerm ng (μ r) (x r) (u r) w) p b) +
    pderiv (fun w => F.endTerm nh ν (x 0 ++ x (P * N)) w) p b = 0

end OCFunctions
end Ceacoest.Spec
