import Verif.Model.SymSDE
import Verif.Model.Kalman
import Verif.Model.TestKalmanDiff
import Mathlib.LinearAlgebra.Matrix.Notation

/-!
# Parameter estimation with discretised stochastic differential equations: `examples/duffing_old.py`

The example imports `ceacoest.sde`, which this commit does not have; the discretisation is that of its successor `ceacoest/modelling/symsde.py`. Derivatives that sym2num
generates are partial derivatives, as in `Model/TestKalmanDiff`. Simplifications: exact arithmetic; the times of the samples are `k * dt`, which is what the script passes.
-/

namespace Ceacoest.Pem
open SymSDE Matrix TestKalman

variable {nx nw ny nq : Nat}

/-- The functions of a continuous-time model with parameters `q` (duffing_old.py:39-70), for fixed constants `c`. -/
structure SDE (nx nw ny nq : Nat) where
  f : (Fin nq → ℝ) → ℝ → (Fin nx → ℝ) → Fin nx → ℝ
  g : (Fin nq → ℝ) → ℝ → (Fin nx → ℝ) → Matrix (Fin nx) (Fin nw) ℝ
  h : (Fin nq → ℝ) → ℝ → (Fin nx → ℝ) → Fin ny → ℝ
  R : (Fin nq → ℝ) → Matrix (Fin ny) (Fin ny) ℝ
  x0 : (Fin nq → ℝ) → Fin nx → ℝ
  Px0 : (Fin nq → ℝ) → Matrix (Fin nx) (Fin nx) ℝ

/-- symsde.py:82-87: the model at `q`, with the derivatives that the discretisation adds. -/
noncomputable def SDE.at (S : SDE nx nw ny nq) (q : Fin nq → ℝ) : CtModel nx nw ny where
  f := S.f q
  g := S.g q
  h := S.h q
  R := S.R q
  df_dt t x i := deriv (fun s => S.f q s x i) t
  df_dx t x := of fun p i => partialDiff p (fun x => S.f q t x i) x
  d2f_dx2 t x p r i := partialDiff p (fun x => partialDiff r (fun x => S.f q t x i) x) x

/-- duffing_old.py:74-90, attitude.py:130-144 `derivatives`: a discrete-time model with the derivatives that are generated of its functions, at `q`. -/
noncomputable def generated (f : (Fin nq → ℝ) → ℤ → (Fin nx → ℝ) → Fin nx → ℝ) (h : (Fin nq → ℝ) → ℤ → (Fin nx → ℝ) → Fin ny → ℝ)
    (Q : (Fin nq → ℝ) → ℤ → (Fin nx → ℝ) → Matrix (Fin nx) (Fin nx) ℝ) (R : (Fin nq → ℝ) → Matrix (Fin ny) (Fin ny) ℝ) (q : Fin nq → ℝ) : KModel nx (Fin ny) (Fin nq) where
  f := f q
  h := h q
  Q := Q q
  R := R q
  df_dx k x i j := partialDiff i (fun x => f q k x j) x
  df_dq k x a j := partialDiff a (fun q => f q k x j) q
  d2f_dx2 k x l i j := partialDiff l (fun x => partialDiff i (fun x => f q k x j) x) x
  d2f_dx_dq k x a i j := partialDiff a (fun q => partialDiff i (fun x => f q k x j) x) q
  d2f_dq2 k x a b j := partialDiff a (fun q => partialDiff b (fun q => f q k x j) q) q
  dQ_dx k x i := of fun j m => partialDiff i (fun x => Q q k x j m) x
  dQ_dq k x a := of fun j m => partialDiff a (fun q => Q q k x j m) q
  d2Q_dx2 k x l i := of fun j m => partialDiff l (fun x => partialDiff i (fun x => Q q k x j m) x) x
  d2Q_dx_dq k x a i := of fun j m => partialDiff a (fun q => partialDiff i (fun x => Q q k x j m) x) q
  d2Q_dq2 k x a b := of fun j m => partialDiff a (fun q => partialDiff b (fun q => Q q k x j m) q) q
  dh_dx k x i j := partialDiff i (fun x => h q k x j) x
  dh_dq k x a j := partialDiff a (fun q => h q k x j) q
  d2h_dx2 k x l i j := partialDiff l (fun x => partialDiff i (fun x => h q k x j) x) x
  d2h_dx_dq k x a i j := partialDiff a (fun q => partialDiff i (fun x => h q k x j) x) q
  d2h_dq2 k x a b j := partialDiff a (fun q => partialDiff b (fun q => h q k x j) q) q
  dR_dq a := of fun j l => partialDiff a (fun q => R q j l) q
  d2R_dq2 a b := of fun j l => partialDiff a (fun q => partialDiff b (fun q => R q j l) q) q

/-- symsde.py:35-48, 89-130 `ItoTaylorAS15DiscretizedModel`, and its derivatives. -/
noncomputable def ito (S : SDE nx nw ny nq) (dt : ℝ) : (Fin nq → ℝ) → KModel nx (Fin ny) (Fin nq) :=
  generated (fun q k x => itoF (S.at q) dt k x) (fun q k x => SymSDE.h (S.at q) dt k x) (fun q k x => Q (itoG (S.at q) dt k x)) S.R

/-- base.py:18-64: the attributes of a filter of the model that is given no options; the names of the derivatives of the initial moments are those of duffing_old.py:89-90. -/
noncomputable def start (S : SDE nx nw ny nq) (q : Fin nq → ℝ) : FilterAttrs nx (Fin nq) where
  x := S.x0 q
  Px := S.Px0 q
  k := 0
  L := 0
  dL_dq := 0
  d2L_dq2 := 0
  dx_dq a i := partialDiff a (fun q => S.x0 q i) q
  dPx_dq a := of fun i j => partialDiff a (fun q => S.Px0 q i j) q
  d2x_dq2 a b i := partialDiff a (fun q => partialDiff b (fun q => S.x0 q i) q) q
  d2Px_dq2 a b := of fun i j => partialDiff a (fun q => partialDiff b (fun q => S.Px0 q i j) q) q

/-- duffing_old.py:153-156, attitude.py:228-231 `merit`. -/
noncomputable def merit (S : SDE nx nw ny nq) (dt : ℝ) (y : List (MaskedRow (Fin ny))) (q : Fin nq → ℝ) : Py ℝ := do
  let ut ← UT.init nx .cholesky 0
  let (L, _) ← (UKF.cls ut ut (ito S dt q)).pemMerit y ⟨start S q, none, .never⟩
  return L

/-- duffing_old.py:158-161, attitude.py:233-236 `grad`. -/
noncomputable def grad (S : SDE nx nw ny nq) (dt : ℝ) (y : List (MaskedRow (Fin ny))) (q : Fin nq → ℝ) : Py (Fin nq → ℝ) := do
  let ut ← UT.init nx .cholesky 0
  let (g, _) ← (UKF.cls ut ut (ito S dt q)).pemGradient y ⟨start S q, none, .never⟩
  return g

/-- duffing_old.py:163, attitude.py:238 `np.tril_indices(n)`: row by row. -/
def trilIndices (n : Nat) : List (Fin n × Fin n) := (List.finRange n).flatMap fun a => ((List.finRange n).filter fun b => decide (b ≤ a)).map fun b => (a, b)

/-- duffing_old.py:163-167, attitude.py:238-242 `hess`, and the pairs `hess_inds`. -/
noncomputable def hess (S : SDE nx nw ny nq) (dt : ℝ) (y : List (MaskedRow (Fin ny))) (q : Fin nq → ℝ) (objFactor : ℝ) : Py (List ℝ) := do
  let ut ← UT.init nx .cholesky 0
  let (H, _) ← (UKF.cls ut ut (ito S dt q)).pemHessian y ⟨start S q, none, .never⟩
  return (trilIndices nq).map fun r => objFactor * H r.1 r.2

/-- duffing_old.py:14-70 `SymbolicDuffing`: states `x v`; parameters `alpha beta delta g2 x_meas_std x0 v0`; constants `gamma omega x0_std v0_std`. -/
noncomputable def duffing (gamma omega x0_std v0_std : ℝ) : SDE 2 2 1 7 where
  f q t x := ![x 1, -q 2 * x 1 - q 1 * x 0 - q 0 * x 0 ^ 3 + gamma * Real.cos (t * omega)]
  g q _ _ := !![0, 0; 0, q 3]
  h _ _ x := ![x 0]
  R q := !![q 4 ^ 2]
  x0 q := ![q 5, q 6]
  Px0 _ := diagonal ![x0_std ^ 2, v0_std ^ 2]

end Ceacoest.Pem
