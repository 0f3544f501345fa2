import Verif.Model.Kalman
import Verif.Spec.Kalman

/-! # Conditions on what the Kalman filters are given (C34–C48) -/

namespace Ceacoest
open Matrix
variable {nx : Nat} {o p : Type}

/-- What the square root must satisfy: nothing for Cholesky factors, to decompose every matrix for singular values. -/
def RootOK : SqrtKind (Fin nx) → Prop
  | .cholesky => True
  | .svd f => Spec.SvdOK f

/-- Covariances of which a transform can take the square root. -/
def RootDom (kind : SqrtKind (Fin nx)) (P : Matrix (Fin nx) (Fin nx) ℝ) : Prop := match kind with
  | .cholesky => P.PosDef
  | .svd f => Spec.SvdOK f ∧ P.PosSemidef

/-- The rows of the derivative of the output that belong to the active outputs. -/
def activeH (y : MaskedRow o) (H : Fin nx → o → ℝ) : Matrix (Fin nx) y.Active ℝ := of fun i j => H i j.1

/-- The block of `R` that belongs to the active outputs. -/
def activeR (y : MaskedRow o) (R : Matrix o o ℝ) : Matrix y.Active y.Active ℝ := of fun i j => R i.1 j.1

/-- The model that has only the outputs `φ j`. -/
def KModel.outputs {o' : Type} (φ : o' → o) (M : KModel nx o p) : KModel nx o' p where
  f := M.f
  h k x j := M.h k x (φ j)
  Q := M.Q
  R := of fun i j => M.R (φ i) (φ j)
  df_dx := M.df_dx
  dh_dx k x i j := M.dh_dx k x i (φ j)
  df_dq := M.df_dq
  dh_dq k x a j := M.dh_dq k x a (φ j)
  dQ_dq := M.dQ_dq
  dQ_dx := M.dQ_dx
  dR_dq a := of fun i j => M.dR_dq a (φ i) (φ j)
  d2f_dq2 := M.d2f_dq2
  d2f_dx2 := M.d2f_dx2
  d2f_dx_dq := M.d2f_dx_dq
  d2h_dq2 k x a b j := M.d2h_dq2 k x a b (φ j)
  d2h_dx2 k x i l j := M.d2h_dx2 k x i l (φ j)
  d2h_dx_dq k x a i j := M.d2h_dx_dq k x a i (φ j)
  d2Q_dq2 := M.d2Q_dq2
  d2Q_dx2 := M.d2Q_dx2
  d2Q_dx_dq := M.d2Q_dx_dq
  d2R_dq2 a b := of fun i j => M.d2R_dq2 a b (φ i) (φ j)

/-- A row without masked entries. -/
def MaskedRow.full (y : o → ℝ) : MaskedRow o := ⟨y, fun _ => false⟩

/-- `f` and `h` are affine, with the derivatives that the model gives. -/
structure AffineModel (M : KModel nx o p) (A : ℤ → Matrix (Fin nx) (Fin nx) ℝ) (b : ℤ → Fin nx → ℝ) (C : ℤ → Matrix o (Fin nx) ℝ)
    (c : ℤ → o → ℝ) : Prop where
  f : ∀ k x, M.f k x = A k *ᵥ x + b k
  df_dx : ∀ k x i j, M.df_dx k x i j = A k j i
  h : ∀ k x, M.h k x = C k *ᵥ x + c k
  dh_dx : ∀ k x i j, M.dh_dx k x i j = C k j i

/-- What a sample adds to the likelihood, given the state before its correction: nothing if it is masked; otherwise the logarithm of the
density of the innovation of its active outputs, but for the constant.  The outputs at the sigma points give mean and covariance. -/
def Contribution [Fintype o] [LinearOrder o] (cut : UT nx) (M : KModel nx o p) (y : MaskedRow o) (prior : ℤ × Moments nx) (l : ℝ) : Prop :=
  ((∀ j, y.mask j = true) ∧ l = 0) ∨
  ((¬∀ j, y.mask j = true) ∧ ∃ S idev isigma, cut.sigmaPoints prior.2.1 prior.2.2 = .ok (S, idev, isigma) ∧
    let out : Fin cut.nsigma → y.Active → ℝ := fun k j => M.h prior.1 (isigma k) j.1
    let C := Spec.wcov cut.weights out out + activeR y M.R
    C.PosDef ∧ l = Real.log (Spec.gaussian C fun j => y.data j.1 - Spec.wmean cut.weights out j) +
      Fintype.card y.Active / 2 * Real.log (2 * Real.pi))

end Ceacoest
