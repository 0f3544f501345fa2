import Verif.Model.Kalman
import Verif.Spec.Grad

/-! # Models and initial filters that depend smoothly on parameters (C46, C47) -/

namespace Ceacoest
open Spec Filter Topology Matrix
variable {nx : Nat} {o p : Type} [Fintype p]

/-- The model has the derivatives that it says it has, and `R` is symmetric. -/
structure SmoothModel (M : (p → ℝ) → KModel nx o p) (q₀ : p → ℝ) : Prop where
  f : ∀ k x j, HasGrad₂ (fun q x => (M q).f k x j) (fun a => (M q₀).df_dq k x a j) (fun i => (M q₀).df_dx k x i j) q₀ x
  h : ∀ k x j, HasGrad₂ (fun q x => (M q).h k x j) (fun a => (M q₀).dh_dq k x a j) (fun i => (M q₀).dh_dx k x i j) q₀ x
  Q : ∀ k x j l, HasGrad₂ (fun q x => (M q).Q k x j l) (fun a => (M q₀).dQ_dq k x a j l) (fun i => (M q₀).dQ_dx k x i j l) q₀ x
  R : ∀ j l, HasGrad (fun q => (M q).R j l) (fun a => (M q₀).dR_dq a j l) q₀
  symm : ∀ᶠ q in 𝓝 q₀, (M q).Rᵀ = (M q).R

/-- It also has the second derivatives that it says it has. -/
structure SmoothModel2 (M : (p → ℝ) → KModel nx o p) (q₀ : p → ℝ) : Prop where
  near : ∀ᶠ q in 𝓝 q₀, SmoothModel M q
  df_dq : ∀ k x b j, HasGrad₂ (fun q x => (M q).df_dq k x b j) (fun a => (M q₀).d2f_dq2 k x a b j) (fun i => (M q₀).d2f_dx_dq k x b i j) q₀ x
  df_dx : ∀ k x i j, HasGrad₂ (fun q x => (M q).df_dx k x i j) (fun a => (M q₀).d2f_dx_dq k x a i j) (fun l => (M q₀).d2f_dx2 k x i l j) q₀ x
  dh_dq : ∀ k x b j, HasGrad₂ (fun q x => (M q).dh_dq k x b j) (fun a => (M q₀).d2h_dq2 k x a b j) (fun i => (M q₀).d2h_dx_dq k x b i j) q₀ x
  dh_dx : ∀ k x i j, HasGrad₂ (fun q x => (M q).dh_dx k x i j) (fun a => (M q₀).d2h_dx_dq k x a i j) (fun l => (M q₀).d2h_dx2 k x i l j) q₀ x
  dQ_dq : ∀ k x b j m, HasGrad₂ (fun q x => (M q).dQ_dq k x b j m) (fun a => (M q₀).d2Q_dq2 k x a b j m)
    (fun i => (M q₀).d2Q_dx_dq k x b i j m) q₀ x
  dQ_dx : ∀ k x i j m, HasGrad₂ (fun q x => (M q).dQ_dx k x i j m) (fun a => (M q₀).d2Q_dx_dq k x a i j m)
    (fun l => (M q₀).d2Q_dx2 k x i l j m) q₀ x
  dR_dq : ∀ b j l, HasGrad (fun q => (M q).dR_dq b j l) (fun a => (M q₀).d2R_dq2 a b j l) q₀

/-- The attributes `dx_dq`, `dPx_dq` and `dL_dq` of a filter are derivatives of `x`, `Px` and `L`. -/
structure SmoothAttrs (A : (p → ℝ) → FilterAttrs nx p) (q₀ : p → ℝ) : Prop where
  k : ∀ᶠ q in 𝓝 q₀, (A q).k = (A q₀).k
  x : ∀ i, HasGrad (fun q => (A q).x i) (fun a => (A q₀).dx_dq a i) q₀
  Px : ∀ i j, HasGrad (fun q => (A q).Px i j) (fun a => (A q₀).dPx_dq a i j) q₀
  L : HasGrad (fun q => (A q).L) (A q₀).dL_dq q₀

/-- The attributes `d2x_dq2`, `d2Px_dq2` and `d2L_dq2` are derivatives of those. -/
structure SmoothAttrs2 (A : (p → ℝ) → FilterAttrs nx p) (q₀ : p → ℝ) : Prop where
  near : ∀ᶠ q in 𝓝 q₀, SmoothAttrs A q
  dx : ∀ b i, HasGrad (fun q => (A q).dx_dq b i) (fun a => (A q₀).d2x_dq2 a b i) q₀
  dPx : ∀ b i j, HasGrad (fun q => (A q).dPx_dq b i j) (fun a => (A q₀).d2Px_dq2 a b i j) q₀
  dL : ∀ b, HasGrad (fun q => (A q).dL_dq b) (fun a => (A q₀).d2L_dq2 a b) q₀

/-- The attributes that a filter is started with are derivatives only at `q₀`: those of first order are the derivatives of the moments
there, and those of second order are the derivatives of whatever is assigned to those of first order. -/
structure SeededAttrs2 (A : (p → ℝ) → FilterAttrs nx p) (q₀ : p → ℝ) : Prop where
  here : SmoothAttrs A q₀
  dx : ∀ b i, HasGrad (fun q => (A q).dx_dq b i) (fun a => (A q₀).d2x_dq2 a b i) q₀
  dPx : ∀ b i j, HasGrad (fun q => (A q).dPx_dq b i j) (fun a => (A q₀).d2Px_dq2 a b i j) q₀
  dL : ∀ b, HasGrad (fun q => (A q).dL_dq b) (fun a => (A q₀).d2L_dq2 a b) q₀

end Ceacoest
