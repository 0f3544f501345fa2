import Verif.Spec.MaximumPrinciple

/-!
# Smoothing, in discrete form (C100)

The conditions that an estimate of states, parameters and noise satisfies: the costates run by the adjoint equation between the measurements and jump by the gradient of the log-likelihood at
each of them, and the noise is what the costates drive it to.
-/

namespace Ceacoest.Spec
namespace JMEFunctions
variable (F : JMEFunctions)

/-- The Hamiltonian: the costates times the drift, and half of the divergence of the drift where it counts. -/
noncomputable def hamiltonian (useOm : Bool) (nx nw : Nat) (ψ : Nat → ℝ) (x u p : List ℝ) : ℝ :=
  -(1 / 2) * (if useOm then driftDiv (F.div x u p) nx nw else 0) + ∑ a ∈ Finset.range nx, ψ a * (F.f x u p).getD a 0

/-- The partial derivatives exist at the points of a decision vector; those of the log-likelihood where something was measured. -/
structure PartialsAt (useOm : Bool) (nx nw np m N : Nat) (rows : List Nat) (y x u : Nat → List ℝ) (p : List ℝ) : Prop where
  fx : ∀ r ≤ m, ∀ a < nx, HasPDerivs nx (fun x => (F.f x (u r) p).getD a 0) (x r)
  fp : ∀ r ≤ m, ∀ a < nx, HasPDerivs np (fun p => (F.f (x r) (u r) p).getD a 0) p
  divx : useOm = true → ∀ r ≤ m, HasPDerivs nx (fun x => driftDiv (F.div x (u r) p) nx nw) (x r)
  divp : useOm = true → ∀ r ≤ m, HasPDerivs np (fun p => driftDiv (F.div (x r) (u r) p) nx nw) p
  Lx : ∀ k ∈ rows, HasPDerivs nx (fun x => F.L (y k) x (u (k * N)) p) (x (k * N))
  Lp : ∀ k ∈ rows, HasPDerivs np (fun p => F.L (y k) (x (k * N)) (u (k * N)) p) p

/-- The equations of the costates. Measurement `k` was taken at mesh time `k`; the costates there are `before k` and `after k`. The costates at point `l` of piece `k` are `ψ k l`;
`K` are the weights and `B` the coefficients of the Lobatto IIIB method. -/
structure Adjoint (useOm : Bool) (K len : List ℝ) (B : Nat → Nat → ℝ) (P N nx nw np : Nat) (rows : List Nat) (y x u : Nat → List ℝ) (p : List ℝ)
    (ψ : Nat → Nat → Nat → ℝ) (before after : Nat → Nat → ℝ) : Prop where
  /-- nothing is known before the first time … -/
  start : ∀ b < nx, before 0 b = 0
  /-- … and after the last -/
  stop : ∀ b < nx, after P b = 0
  /-- the jumps at the measurements -/
  jump : ∀ k ≤ P, ∀ b < nx, after k b = before k b - if k ∈ rows then pderiv (fun z => F.L (y k) z (u (k * N)) p) (x (k * N)) b else 0
  /-- the adjoint equation from mesh time to mesh time … -/
  mesh : ∀ k < P, ∀ b < nx, before (k + 1) b = after k b - len.getD k 0 * ∑ m ∈ Finset.range (N + 1),
    K.getD m 0 * pderiv (fun z => F.hamiltonian useOm nx nw (ψ k m) z (u (k * N + m)) p) (x (k * N + m)) b
  /-- … and at the points -/
  inner : ∀ k < P, ∀ l ≤ N, ∀ b < nx, ψ k l b = after k b - len.getD k 0 * ∑ m ∈ Finset.range (N + 1),
    B l m * pderiv (fun z => F.hamiltonian useOm nx nw (ψ k m) z (u (k * N + m)) p) (x (k * N + m)) b
  /-- the parameters make the sum of the log-likelihood and the integral of the Hamiltonian stationary -/
  param : ∀ b < np, (∑ k ∈ Finset.range P, len.getD k 0 * ∑ l ∈ Finset.range (N + 1),
      K.getD l 0 * pderiv (fun w => F.hamiltonian useOm nx nw (ψ k l) (x (k * N + l)) (u (k * N + l)) w) p b) +
    (rows.map fun k => pderiv (fun w => F.L (y k) (x (k * N)) (u (k * N)) w) p b).sum = 0

end JMEFunctions

/-- The noise differs from `Gᵀ ψ` by something orthogonal to all that the noise coefficients can make of it: it is the projection of `Gᵀ ψ`, with the weights `K`. -/
def NoiseProjects (K : List ℝ) (jt : List (List ℝ)) (G : Nat → List ℝ) (P N nx nw : Nat) (w : Nat → Nat → List ℝ) (ψ : Nat → Nat → Nat → ℝ) : Prop :=
  ∀ k < P, ∀ j < N, ∀ b < nw, ∑ l ∈ Finset.range (N + 1), K.getD l 0 * (jt.getD l []).getD j 0 * ((w k l).getD b 0 - ∑ a ∈ Finset.range nx, ψ k l a * (G a).getD b 0) = 0

end Ceacoest.Spec
