import Verif.NumPy.Basic
import Mathlib.LinearAlgebra.Matrix.NonsingularInverse
import Mathlib.Data.Real.Sqrt

/-!
# `ceacoest/kalman/unscented.py`, lines 28-311: unscented transforms and differentiable Cholesky factors

Arrays are over `ℝ` and unbatched (`base_shape = ()`: no axes in the place of `...`), so that `np.rollaxis(S, -2)` leaves a
matrix as it is.  A vectorised model function, evaluated on the array of sigma points, is a function applied to each of them.  Every
`np.einsum` is written as the sum that its subscripts say (without `->`, output axes are in alphabetical order).
Index types are finite linear orders: `Fin nx`, or the active outputs.
-/

namespace Ceacoest
open Matrix

/-- `np.linalg.inv`. -/
noncomputable def npInv {ι : Type} [Fintype ι] [LinearOrder ι] (A : Matrix ι ι ℝ) : Py (Matrix ι ι ℝ) :=
  if A.det = 0 then .error .linAlgError else .ok A⁻¹

/-- The matrix that `np.linalg.cholesky` factors: only the lower triangle of its argument is read. -/
def lowerSym {ι : Type} [LinearOrder ι] (Q : Matrix ι ι ℝ) : Matrix ι ι ℝ := of fun i j => if j ≤ i then Q i j else Q j i

/-- The defining property of a lower triangular Cholesky factor. -/
structure IsChol {ι : Type} [Fintype ι] [LinearOrder ι] (Q L : Matrix ι ι ℝ) : Prop where
  lower : ∀ i j, i < j → L i j = 0
  pos : ∀ i, 0 < L i i
  eq : L * Lᵀ = Q

open Classical in
/-- `np.linalg.cholesky`, in exact arithmetic: the lower triangular factor with positive diagonal; `LinAlgError` if there is none. -/
noncomputable def npCholesky {ι : Type} [Fintype ι] [LinearOrder ι] (Q : Matrix ι ι ℝ) : Py (Matrix ι ι ℝ) :=
  if h : ∃ L, IsChol (lowerSym Q) L then .ok h.choose else .error .linAlgError

/-! ### unscented.py:200-280 `DifferentiableCholesky` -/

/-- unscented.py:212-215 `__call__`: the upper triangular factor. -/
noncomputable def cholU {ι : Type} [Fintype ι] [LinearOrder ι] (Q : Matrix ι ι ℝ) : Py (Matrix ι ι ℝ) := do
  return (← npCholesky Q)ᵀ

/-- `np.tril_indices`: the pairs `(i, j)` with `j ≤ i`. -/
abbrev Tril (ι : Type) [LinearOrder ι] := {p : ι × ι // p.2 ≤ p.1}

instance {ι : Type} [Fintype ι] [LinearOrder ι] : Fintype (Tril ι) := inferInstance

/-- unscented.py:242-244 and 269-271: `A[i, j, i, k] = S[k, j]`, then `A[i, j, j, k] += S[k, i]`. -/
def cholA {ι : Type} [LinearOrder ι] (S : Matrix ι ι ℝ) (i j l k : ι) : ℝ := (if l = i then S k j else 0) + if l = j then S k i else 0

/-- unscented.py:245 and 272. -/
def cholAL {ι : Type} [LinearOrder ι] (S : Matrix ι ι ℝ) : Matrix (Tril ι) (Tril ι) ℝ :=
  of fun r c => cholA S r.1.1 r.1.2 c.1.1 c.1.2

/-- `np.linalg.inv` of a matrix indexed by the lower triangle. -/
noncomputable def npInvT {ι : Type} [Fintype ι] [LinearOrder ι] (A : Matrix (Tril ι) (Tril ι) ℝ) : Py (Matrix (Tril ι) (Tril ι) ℝ) :=
  if A.det = 0 then .error .linAlgError else .ok A⁻¹

/-- What `diff` saves for `diff2`. -/
structure CholDiff (ι p : Type) [LinearOrder ι] where
  dS : p → Matrix ι ι ℝ
  dQL : p → Tril ι → ℝ
  ALI : Matrix (Tril ι) (Tril ι) ℝ

/-- `dS[..., j, i] = dSL` into an array of zeros (unscented.py:250-251, 278-279). -/
def fromTril {ι : Type} [LinearOrder ι] (v : Tril ι → ℝ) : Matrix ι ι ℝ := of fun j i => if h : j ≤ i then v ⟨(i, j), h⟩ else 0

/-- unscented.py:217-257 `diff`. -/
noncomputable def cholDiff {ι p : Type} [Fintype ι] [LinearOrder ι] (S : Matrix ι ι ℝ) (dQ : p → Matrix ι ι ℝ) : Py (CholDiff ι p) := do
  let ALI ← npInvT (cholAL S)
  let dQL : p → Tril ι → ℝ := fun b r => dQ b r.1.1 r.1.2
  let dSL : p → Tril ι → ℝ := fun b r => ∑ c, ALI r c * dQL b c
  return ⟨fun b => fromTril (dSL b), dQL, ALI⟩

/-- unscented.py:259-280 `diff2`. -/
noncomputable def cholDiff2 {ι p : Type} [Fintype ι] [LinearOrder ι] (c : CholDiff ι p) (d2Q : p → p → Matrix ι ι ℝ) :
    p → p → Matrix ι ι ℝ :=
  let dAL : p → Matrix (Tril ι) (Tril ι) ℝ := fun a => cholAL (c.dS a)
  let dALI : p → Matrix (Tril ι) (Tril ι) ℝ := fun a => of fun i l => -∑ j, ∑ k, c.ALI i j * dAL a j k * c.ALI k l
  let d2QL : p → p → Tril ι → ℝ := fun a b r => d2Q a b r.1.1 r.1.2
  let d2SL : p → p → Tril ι → ℝ := fun a b i => (∑ j, c.ALI i j * d2QL a b j) + ∑ j, dALI a i j * c.dQL b j
  fun a b => fromTril (d2SL a b)

/-! ### unscented.py:28-187 `UnscentedTransformBase` -/

/-- unscented.py:190-197, 283-311: the class of the transform; the argument of `svd` is `np.linalg.svd`. -/
inductive SqrtKind (n : Type) where
  | cholesky
  | svd (f : Matrix n n ℝ → Py (Matrix n n ℝ × (n → ℝ) × Matrix n n ℝ))

/-- The attributes of a transform with `ni` inputs. -/
structure UT (ni : Nat) where
  kappa : ℝ
  nsigma : Nat
  weights : Fin nsigma → ℝ
  kind : SqrtKind (Fin ni)

/-- unscented.py:31-60 `__init__`. -/
noncomputable def UT.init (ni : Nat) (kind : SqrtKind (Fin ni)) (kappa : ℝ := 0) : Py (UT ni) := do
  if (ni : ℝ) + kappa = 0 then .error .assertionError else
  let nsigma := 2 * ni + if kappa ≠ 0 then 1 else 0
  let weights : Fin nsigma → ℝ := fun _ => 0.5 / (ni + kappa)
  let weights : Fin nsigma → ℝ := if kappa ≠ 0 then fun k => if k.1 + 1 = nsigma then kappa / (ni + kappa) else weights k else weights
  return ⟨kappa, nsigma, weights, kind⟩

/-- What `transform` saves; `S` is the square root. -/
structure UTData (ns : Nat) (n o : Type) where
  S : Matrix n n ℝ
  isigma : Fin ns → n → ℝ
  idev : Fin ns → n → ℝ
  odev : Fin ns → o → ℝ
  mean : o → ℝ
  Po : Matrix o o ℝ

/-- What `transform_diff` saves. -/
structure UTDiff (ns : Nat) (n o p : Type) [LinearOrder n] where
  chol : CholDiff n p
  didev : Fin ns → p → n → ℝ
  disigma : Fin ns → p → n → ℝ
  df_di : Fin ns → n → o → ℝ
  dodev : Fin ns → p → o → ℝ
  do_dq : p → o → ℝ
  dPo_dq : p → Matrix o o ℝ

/-- What `transform_diff2` saves. -/
structure UTDiff2 (ns : Nat) (n o p : Type) where
  d2idev : Fin ns → p → p → n → ℝ
  d2odev : Fin ns → p → p → o → ℝ
  d2o_dq2 : p → p → o → ℝ
  d2Po_dq2 : p → p → Matrix o o ℝ

namespace UT
variable {ni : Nat} {o p : Type} [Fintype o]

/-- unscented.py:193-197 and 290-292 `sqrt`. -/
noncomputable def sqrt (ut : UT ni) (Q : Matrix (Fin ni) (Fin ni) ℝ) : Py (Matrix (Fin ni) (Fin ni) ℝ) :=
  match ut.kind with
  | .cholesky => cholU Q
  | .svd svd => do
    let (U, s, _VT) ← svd Q
    return of fun j i => U i j * Real.sqrt (s j)

/-- Rows `[:ni]` get `A`, rows `[ni:2 * ni]` get `-A`, in an array of zeros (unscented.py:74-76, 88-90, 102-104). -/
def spread {β : Type} [Zero β] [Neg β] (ns : Nat) (A : Fin ni → β) : Fin ns → β := fun k =>
  if h : k.1 < ni then A ⟨k.1, h⟩ else if h' : k.1 < 2 * ni then -A ⟨k.1 - ni, by omega⟩ else 0

/-- unscented.py:67-81 `sigma_points`; the deviations and the square root, too. -/
noncomputable def sigmaPoints (ut : UT ni) (i : Fin ni → ℝ) (Pi : Matrix (Fin ni) (Fin ni) ℝ) :
    Py (Matrix (Fin ni) (Fin ni) ℝ × (Fin ut.nsigma → Fin ni → ℝ) × (Fin ut.nsigma → Fin ni → ℝ)) := do
  let S ← ut.sqrt (((ni : ℝ) + ut.kappa) • Pi)
  let idev : Fin ut.nsigma → Fin ni → ℝ := spread ut.nsigma fun k => S k
  let isigma : Fin ut.nsigma → Fin ni → ℝ := fun k => idev k + i
  return (S, idev, isigma)

/-- unscented.py:109-122 `transform`. -/
noncomputable def transform (ut : UT ni) (i : Fin ni → ℝ) (Pi : Matrix (Fin ni) (Fin ni) ℝ) (f : (Fin ni → ℝ) → o → ℝ) :
    Py (UTData ut.nsigma (Fin ni) o) := do
  let (S, idev, isigma) ← ut.sigmaPoints i Pi
  let osigma : Fin ut.nsigma → o → ℝ := fun k => f (isigma k)
  let om : o → ℝ := fun j => ∑ k, ut.weights k * osigma k j
  let odev : Fin ut.nsigma → o → ℝ := fun k => osigma k - om
  let Po : Matrix o o ℝ := of fun i j => ∑ k, odev k i * odev k j * ut.weights k
  return ⟨S, isigma, idev, odev, om, Po⟩

/-- unscented.py:169-170 `crosscov`. -/
noncomputable def crosscov (ut : UT ni) (d : UTData ut.nsigma (Fin ni) o) : Matrix (Fin ni) o ℝ :=
  of fun i j => ∑ k, d.idev k i * d.odev k j * ut.weights k

/-- unscented.py:294-296; the class for the singular value decomposition has no method `sqrt_diff`. -/
noncomputable def sqrtDiff (ut : UT ni) (S : Matrix (Fin ni) (Fin ni) ℝ) (dQ : p → Matrix (Fin ni) (Fin ni) ℝ) :
    Py (CholDiff (Fin ni) p) :=
  match ut.kind with
  | .cholesky => cholDiff S dQ
  | .svd _ => .error .attributeError

/-- unscented.py:83-95, 124-143 `transform_diff`, with `sigma_points_diff`. -/
noncomputable def transformDiff (ut : UT ni) (d : UTData ut.nsigma (Fin ni) o) (df_dq : (Fin ni → ℝ) → p → o → ℝ)
    (df_di : (Fin ni → ℝ) → Fin ni → o → ℝ) (di_dq : p → Fin ni → ℝ) (dPi_dq : p → Matrix (Fin ni) (Fin ni) ℝ) :
    Py (UTDiff ut.nsigma (Fin ni) o p) := do
  let df_di : Fin ut.nsigma → Fin ni → o → ℝ := fun k => df_di (d.isigma k)
  -- sigma_points_diff
  let c ← ut.sqrtDiff d.S fun a => ((ni : ℝ) + ut.kappa) • dPi_dq a
  let didev : Fin ut.nsigma → p → Fin ni → ℝ := spread ut.nsigma fun k a i => c.dS a k i
  let disigma : Fin ut.nsigma → p → Fin ni → ℝ := fun k => didev k + di_dq
  let Dosigma : Fin ut.nsigma → p → o → ℝ := fun k a f => df_dq (d.isigma k) a f + ∑ i, df_di k i f * disigma k a i
  let do_dq : p → o → ℝ := fun a j => ∑ k, ut.weights k * Dosigma k a j
  let dodev : Fin ut.nsigma → p → o → ℝ := fun k => Dosigma k - do_dq
  let dPo : p → Matrix o o ℝ := fun l => of fun i j => ∑ k, dodev k l j * d.odev k i * ut.weights k
  let dPo : p → Matrix o o ℝ := fun l => dPo l + (dPo l)ᵀ
  return ⟨c, didev, disigma, df_di, dodev, do_dq, dPo⟩

/-- unscented.py:172-177 `crosscov_diff`. -/
noncomputable def crosscovDiff (ut : UT ni) (d : UTData ut.nsigma (Fin ni) o) (dd : UTDiff ut.nsigma (Fin ni) o p) :
    p → Matrix (Fin ni) o ℝ := fun a => of fun i j =>
  (∑ k, dd.didev k a i * d.odev k j * ut.weights k) + ∑ k, d.idev k i * dd.dodev k a j * ut.weights k

/-- unscented.py:97-107, 145-167 `transform_diff2`, with `sigma_points_diff2` (unscented.py:298-300: `sqrt_diff2` of the
Cholesky class; `transform_diff` has been called before, so this is not the other class). -/
noncomputable def transformDiff2 (ut : UT ni) (d : UTData ut.nsigma (Fin ni) o) (dd : UTDiff ut.nsigma (Fin ni) o p)
    (d2f_dq2 : (Fin ni → ℝ) → p → p → o → ℝ) (d2f_di2 : (Fin ni → ℝ) → Fin ni → Fin ni → o → ℝ)
    (d2f_di_dq : (Fin ni → ℝ) → p → Fin ni → o → ℝ) (d2i_dq2 : p → p → Fin ni → ℝ)
    (d2Pi_dq2 : p → p → Matrix (Fin ni) (Fin ni) ℝ) : UTDiff2 ut.nsigma (Fin ni) o p :=
  -- sigma_points_diff2
  let d2S := cholDiff2 dd.chol fun a b => ((ni : ℝ) + ut.kappa) • d2Pi_dq2 a b
  let d2idev : Fin ut.nsigma → p → p → Fin ni → ℝ := spread ut.nsigma fun k a b i => d2S a b k i
  let d2isigma : Fin ut.nsigma → p → p → Fin ni → ℝ := fun k => d2idev k + d2i_dq2
  let D2 : Fin ut.nsigma → p → p → o → ℝ := fun k b a f => ∑ i, d2f_di_dq (d.isigma k) a i f * dd.disigma k b i
  let D2 : Fin ut.nsigma → p → p → o → ℝ := fun k a b => D2 k a b + D2 k b a
  let D2 : Fin ut.nsigma → p → p → o → ℝ := fun k => D2 k + d2f_dq2 (d.isigma k)
  let D2 : Fin ut.nsigma → p → p → o → ℝ := fun k => D2 k + fun b a f =>
    ∑ i, ∑ j, d2f_di2 (d.isigma k) i j f * dd.disigma k a i * dd.disigma k b j
  let D2 : Fin ut.nsigma → p → p → o → ℝ := fun k => D2 k + fun b a f => ∑ i, dd.df_di k i f * d2isigma k b a i
  let d2o : p → p → o → ℝ := fun a b j => ∑ k, ut.weights k * D2 k a b j
  let d2odev : Fin ut.nsigma → p → p → o → ℝ := fun k => D2 k - d2o
  let d2Po : p → p → Matrix o o ℝ := fun a b => of fun i j => ∑ k, d2odev k a b i * d.odev k j * ut.weights k
  let d2Po : p → p → Matrix o o ℝ := fun a b => of fun i j => d2Po a b i j + ∑ k, dd.dodev k b i * dd.dodev k a j * ut.weights k
  let d2Po : p → p → Matrix o o ℝ := fun a b => d2Po a b + (d2Po a b)ᵀ
  ⟨d2idev, d2odev, d2o, d2Po⟩

/-- unscented.py:179-187 `crosscov_diff2`. -/
noncomputable def crosscovDiff2 (ut : UT ni) (d : UTData ut.nsigma (Fin ni) o) (dd : UTDiff ut.nsigma (Fin ni) o p)
    (d2 : UTDiff2 ut.nsigma (Fin ni) o p) : p → p → Matrix (Fin ni) o ℝ :=
  let P : p → p → Matrix (Fin ni) o ℝ := fun a b => of fun i j => ∑ k, dd.didev k b i * dd.dodev k a j * ut.weights k
  let P : p → p → Matrix (Fin ni) o ℝ := fun a b => P a b + P b a
  let P : p → p → Matrix (Fin ni) o ℝ := fun a b => of fun i j => P a b i j + ∑ k, d2.d2idev k a b i * d.odev k j * ut.weights k
  fun a b => of fun i j => P a b i j + ∑ k, d.idev k i * d2.d2odev k a b j * ut.weights k

end UT
end Ceacoest
