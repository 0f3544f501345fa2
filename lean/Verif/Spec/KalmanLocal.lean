import Verif.Model.Kalman

/-! # Runs of the unscented filter that stay in a set of states (C116) -/

namespace Ceacoest.Spec
variable {nx : Nat} {o p : Type} [Fintype o] [LinearOrder o]

/-- A mean, and the sigma points of it with a covariance, are in the set. -/
def PointsIn (ut : UT nx) (D : Set (Fin nx → ℝ)) (x : Fin nx → ℝ) (P : Matrix (Fin nx) (Fin nx) ℝ) : Prop :=
  x ∈ D ∧ ∀ S idev isigma, ut.sigmaPoints x P = .ok (S, idev, isigma) → ∀ k, isigma k ∈ D

/-- Whenever the filter predicts in a run over the measurements, its mean and the sigma points are in the set: the moments after each correction but the last. -/
def StaysIn (put cut : UT nx) (M : KModel nx o p) (D : Set (Fin nx → ℝ)) (y : List (MaskedRow o)) (s : UKF nx cut.nsigma put.nsigma o p) : Prop :=
  ∀ (n : Nat) (L : ℝ) s', n + 1 < y.length → (UKF.cls put cut M).pemMerit (y.take (n + 1)) s = .ok (L, s') → PointsIn put D s'.x s'.Px

/-- The functions of the state transition and its noise have the same values and the same derivatives for all states in the set; those of the measurement agree everywhere. -/
structure AgreeOn (D : Set (Fin nx → ℝ)) (M M' : KModel nx o p) : Prop where
  f : ∀ k, ∀ x ∈ D, M.f k x = M'.f k x
  df_dx : ∀ k, ∀ x ∈ D, M.df_dx k x = M'.df_dx k x
  df_dq : ∀ k, ∀ x ∈ D, M.df_dq k x = M'.df_dq k x
  d2f_dx2 : ∀ k, ∀ x ∈ D, M.d2f_dx2 k x = M'.d2f_dx2 k x
  d2f_dx_dq : ∀ k, ∀ x ∈ D, M.d2f_dx_dq k x = M'.d2f_dx_dq k x
  d2f_dq2 : ∀ k, ∀ x ∈ D, M.d2f_dq2 k x = M'.d2f_dq2 k x
  Q : ∀ k, ∀ x ∈ D, M.Q k x = M'.Q k x
  dQ_dx : ∀ k, ∀ x ∈ D, M.dQ_dx k x = M'.dQ_dx k x
  dQ_dq : ∀ k, ∀ x ∈ D, M.dQ_dq k x = M'.dQ_dq k x
  d2Q_dx2 : ∀ k, ∀ x ∈ D, M.d2Q_dx2 k x = M'.d2Q_dx2 k x
  d2Q_dx_dq : ∀ k, ∀ x ∈ D, M.d2Q_dx_dq k x = M'.d2Q_dx_dq k x
  d2Q_dq2 : ∀ k, ∀ x ∈ D, M.d2Q_dq2 k x = M'.d2Q_dq2 k x
  h : M.h = M'.h
  dh_dx : M.dh_dx = M'.dh_dx
  dh_dq : M.dh_dq = M'.dh_dq
  d2h_dx2 : M.d2h_dx2 = M'.d2h_dx2
  d2h_dx_dq : M.d2h_dx_dq = M'.d2h_dx_dq
  d2h_dq2 : M.d2h_dq2 = M'.d2h_dq2
  R : M.R = M'.R
  dR_dq : M.dR_dq = M'.dR_dq
  d2R_dq2 : M.d2R_dq2 = M'.d2R_dq2

end Ceacoest.Spec
