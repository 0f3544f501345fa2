import Verif.Model.Kalman
import Verif.NumPy.Broadcast

/-!
# `ceacoest/kalman`: filters of a stack of states (`base_shape ≠ ()`)

`self.x` has shape `base_shape + (nx,)` and `self.Px` shape `base_shape + (nx, nx)`: one call filters a whole stack of states against the
same measurements.  A stack is an `NDArray` whose entries are vectors or matrices: its `shape` is what `...` stands for in the subscripts of
`np.einsum` (the axes before the last one or two).

* A two-operand `np.einsum` with `...` is `binop` of the contraction: NumPy broadcasts the axes in the place of `...`.
* `np.linalg.inv` and `np.linalg.cholesky` work on every matrix of the stack and raise if one of them fails.
* The functions of the model are vectorised over leading axes (`Model.SymCalls`): `map`.
* `model.R()` and the measurement are not stacks; as arrays that broadcast they are stacks of shape `()`.

`L` is a number when the filter is made.  The derivative methods of the extended filter are not here: they raise as those of `Model.Kalman`.
-/

namespace Ceacoest
open Matrix

namespace Stack
variable {α β γ : Type}

/-- A vectorised function without failure. -/
def map (f : α → β) (a : NDArray α) : NDArray β := ⟨a.shape, a.data.map f⟩

/-- A generalised ufunc of `np.linalg`. -/
def mapM (f : α → Py β) (a : NDArray α) : Py (NDArray β) := do
  return ⟨a.shape, ← a.data.mapM f⟩

/-- What has no axes in the place of `...`. -/
def one (v : α) : NDArray α := ⟨[], [v]⟩

/-- `a[...] = v`: leading axes of length one are dropped from `v` while it has too many, then it is broadcast. -/
def stripOnes (n : Nat) : List Nat → List Nat
  | 1 :: s => if n ≤ s.length then stripOnes n s else 1 :: s
  | s => s

/-- What is stored by `a[...] = v` in an array whose axes in the place of `...` are `s`. -/
def assigned (v : NDArray α) (s : List Nat) : Py (NDArray α) := broadcastTo ⟨stripOnes s.length v.shape, v.data⟩ s

/-- `a += v`: the result must have the shape of `a`. -/
def iadd [Add α] (a v : NDArray α) : Py (NDArray α) := do
  let c ← binop (· + ·) a v
  if c.shape = a.shape then .ok c else .error .valueError

/-- `a -= v`. -/
def isub [Sub α] (a v : NDArray α) : Py (NDArray α) := do
  let c ← binop (· - ·) a v
  if c.shape = a.shape then .ok c else .error .valueError

/-- `np.rollaxis(S, -2)`: the rows of each matrix become the first axis. -/
def rollRows {n : Nat} {β : Type} (S : NDArray (Fin n → β)) : NDArray β :=
  ⟨n :: S.shape, (List.finRange n).flatMap fun r => S.data.map fun M => M r⟩

/-- `a[:n]`, where `a` has `n` rows or more. -/
def takeRows (n : Nat) (a : NDArray α) : NDArray α := ⟨n :: a.shape.tail, a.data.take (n * a.shape.tail.prod)⟩

/-- `a[start:start + n] = v`, where `a` has more than `start + n` rows or as many. -/
def setRows (a : NDArray α) (start n : Nat) (v : NDArray α) : Py (NDArray α) := do
  let s := a.shape.tail
  let v ← assigned v (n :: s)
  return ⟨a.shape, a.data.take (start * s.prod) ++ v.data ++ a.data.drop ((start + n) * s.prod)⟩

/-- The sum over the first axis, of length `n`, of `g k` of the `k`-th entry. -/
def sumRows [Inhabited α] [AddCommMonoid γ] (n : Nat) (a : NDArray α) (g : Fin n → α → γ) : Py (NDArray γ) := match a.shape with
  | [] => .error .valueError
  | m :: s => if m = n then
      .ok ⟨s, (List.range s.prod).map fun b => ∑ k : Fin n, g k (a.data.getD (k.1 * s.prod + b) default)⟩
    else .error .valueError

end Stack

open Stack

/-- Stacks of means and of covariances. -/
abbrev BMoments (nx : Nat) := NDArray (Fin nx → ℝ) × NDArray (Matrix (Fin nx) (Fin nx) ℝ)

/-! ### base.py:15-143 `DTFilter`, for any class with the methods that it calls -/

/-- The methods of a filter class whose instances are `σ`. -/
structure BFilterClass (nx : Nat) (Y σ : Type) where
  x : σ → NDArray (Fin nx → ℝ)
  Px : σ → NDArray (Matrix (Fin nx) (Fin nx) ℝ)
  L : σ → NDArray ℝ
  correct : Y → σ → Py (BMoments nx × σ)
  predict : σ → Py (BMoments nx × σ)
  predictionCrosscov : σ → Py (NDArray (Matrix (Fin nx) (Fin nx) ℝ))
  updateLikelihood : σ → Py σ

namespace BFilterClass
variable {nx : Nat} {Y σ : Type} (F : BFilterClass nx Y σ)

/-- base.py:86-92 `smoother_correction`. -/
noncomputable def smootherCorrection (xpred : NDArray (Fin nx → ℝ)) (Pxpred Pxf : NDArray (Matrix (Fin nx) (Fin nx) ℝ))
    (xsmooth : NDArray (Fin nx → ℝ)) (Pxsmooth : NDArray (Matrix (Fin nx) (Fin nx) ℝ)) : Py (BMoments nx) := do
  let PxIpred ← mapM npInv Pxpred
  let K : NDArray (Matrix (Fin nx) (Fin nx) ℝ) ← binop (fun C I => of fun i k => ∑ j, C i j * I j k) Pxf PxIpred
  let e ← binop (· - ·) xsmooth xpred
  let x_inc : NDArray (Fin nx → ℝ) ← binop (fun K e => fun i => ∑ j, K i j * e j) K e
  let D ← binop (· - ·) Pxsmooth Pxpred
  let KD ← binop Prod.mk K D
  let Px_inc : NDArray (Matrix (Fin nx) (Fin nx) ℝ) ← binop (fun KD L => of fun i l => ∑ j, ∑ k, KD.1 i j * KD.2 j k * L l k) KD K
  return (x_inc, Px_inc)

/-- `x[k], Px[k] = m`, where both arrays have the axes `s` in the place of `...`. -/
def store (s : List Nat) (m : BMoments nx) : Py (BMoments nx) := do
  let x ← assigned m.1 s
  let Px ← assigned m.2 s
  return (x, Px)

/-- base.py:100-103: one pass of the loop of `filter`; `s` is the shape of the stack when `filter` is called. -/
def filterStep (base : List Nat) (y : List Y) (acc : List (BMoments nx) × σ) (k : Nat) : Py (List (BMoments nx) × σ) := do
  let (out, s) := acc
  let (m, s) ← F.correct (← FilterClass.row y k) s
  let out := out.set k (← store base m)
  if k < y.length - 1 then do
    let (_, s) ← F.predict s
    return (out, s)
  else return (out, s)

/-- base.py:94-105 `filter`. -/
def filter (y : List Y) (s : σ) : Py (List (BMoments nx) × σ) :=
  let base := (F.x s).shape
  (List.range y.length).foldlM (F.filterStep base y) (List.replicate y.length (NDArray.zeros base, NDArray.zeros base), s)

/-- The arrays of `smooth`. -/
structure SmoothArrays (nx : Nat) where
  m : List (BMoments nx)
  pred : List (BMoments nx)
  cross : List (NDArray (Matrix (Fin nx) (Fin nx) ℝ))

/-- base.py:118-122. -/
def smoothForward (base : List Nat) (y : List Y) (acc : SmoothArrays nx × σ) (k : Nat) : Py (SmoothArrays nx × σ) := do
  let (a, s) := acc
  let (m, s) ← F.correct (← FilterClass.row y k) s
  let a := { a with m := a.m.set k (← store base m) }
  if k < y.length - 1 then do
    let (pr, s) ← F.predict s
    let a := { a with pred := a.pred.set (k + 1) (← store base pr) }
    let c ← F.predictionCrosscov s
    return ({ a with cross := a.cross.set k (← assigned c base) }, s)
  else return (a, s)

/-- base.py:124-129. -/
noncomputable def smoothBackward (pred : List (BMoments nx)) (cross : List (NDArray (Matrix (Fin nx) (Fin nx) ℝ))) (m : List (BMoments nx))
    (k : Nat) : Py (List (BMoments nx)) := do
  let (xpred, Pxpred) ← FilterClass.row pred k
  let Pxf ← FilterClass.row cross (k - 1)
  let (xk, Pxk) ← FilterClass.row m k
  let (x_inc, Px_inc) ← smootherCorrection xpred Pxpred Pxf xk Pxk
  let (x, Px) ← FilterClass.row m (k - 1)
  let x ← iadd x x_inc
  let Px ← iadd Px Px_inc
  return m.set (k - 1) (x, Px)

/-- base.py:107-131 `smooth`. -/
noncomputable def smooth (y : List Y) (s : σ) : Py (List (BMoments nx) × σ) := do
  let N := y.length
  if N = 0 then .error .valueError else
  let base := (F.x s).shape
  let zero : BMoments nx := (NDArray.zeros base, NDArray.zeros base)
  let first ← store base (F.x s, F.Px s)
  let (a, s) ← (List.range N).foldlM (F.smoothForward base y)
    (⟨List.replicate N zero, (List.replicate N zero).set 0 first, List.replicate (N - 1) zero.2⟩, s)
  let m ← (List.range' 1 (N - 1)).reverse.foldlM (smoothBackward a.pred a.cross) a.m
  return (m, s)

/-- base.py:137-141. -/
def meritStep (y : List Y) (s : σ) (k : Nat) : Py σ := do
  let (_, s) ← F.correct (← FilterClass.row y k) s
  let s ← F.updateLikelihood s
  if k < y.length - 1 then do
    let (_, s) ← F.predict s
    return s
  else return s

/-- base.py:133-143 `pem_merit`. -/
def pemMerit (y : List Y) (s : σ) : Py (NDArray ℝ × σ) := do
  let s ← (List.range y.length).foldlM (F.meritStep y) s
  return (F.L s, s)

end BFilterClass

/-! ### extended.py -/

/-- Whether `correct` has been called, and what was active then. -/
inductive BLast where
  | never
  | masked
  | data

/-- An extended Kalman filter of a stack. -/
structure BEKF (nx : Nat) where
  x : NDArray (Fin nx → ℝ)
  Px : NDArray (Matrix (Fin nx) (Fin nx) ℝ)
  k : ℤ
  L : NDArray ℝ
  Pxf : Option (NDArray (Matrix (Fin nx) (Fin nx) ℝ)) := none
  last : BLast := .never

namespace BEKF
variable {nx : Nat} {o p : Type} [Fintype o] [LinearOrder o]

omit [Fintype o] [LinearOrder o] in
/-- extended.py:28-46 `predict`. -/
noncomputable def predict (model : KModel nx o p) (s : BEKF nx) : Py (BMoments nx × BEKF nx) := do
  let f := map (model.f s.k) s.x
  let df_dx := map (model.df_dx s.k) s.x
  let Pxf : NDArray (Matrix (Fin nx) (Fin nx) ℝ) ← binop (fun P D => of fun y z => ∑ i, P y i * D i z) s.Px df_dx
  let Pf : NDArray (Matrix (Fin nx) (Fin nx) ℝ) ← binop (fun D C => of fun y z => ∑ i, D i y * C i z) df_dx Pxf
  let Q := map (model.Q s.k) s.x
  let Px ← binop (· + ·) Pf Q
  let s := { s with Pxf := some Pxf, k := s.k + 1, x := f, Px := Px }
  return ((s.x, s.Px), s)

/-- extended.py:124-162 `correct`. -/
noncomputable def correct (model : KModel nx o p) (y : MaskedRow o) (s : BEKF nx) : Py (BMoments nx × BEKF nx) :=
  if ∀ j, y.mask j = true then .ok ((s.x, s.Px), { s with last := .masked }) else do
  let R : NDArray (Matrix y.Active y.Active ℝ) := one (of fun i j => model.R i.1 j.1)
  let h : NDArray (y.Active → ℝ) := map (fun x j => model.h s.k x j.1) s.x
  let dh_dx : NDArray (Fin nx → y.Active → ℝ) := map (fun x i j => model.dh_dx s.k x i j.1) s.x
  let Pxh : NDArray (Matrix (Fin nx) y.Active ℝ) ← binop (fun P D => of fun i z => ∑ j, P i j * D j z) s.Px dh_dx
  let Ph : NDArray (Matrix y.Active y.Active ℝ) ← binop (fun D C => of fun y z => ∑ i, D i y * C i z) dh_dx Pxh
  let Py ← binop (· + ·) Ph R
  let PyI ← mapM npInv Py
  let K : NDArray (Matrix (Fin nx) y.Active ℝ) ← binop (fun C I => of fun i j => ∑ k, C i k * I k j) Pxh PyI
  let e ← binop (· - ·) (one fun j : y.Active => y.data j.1) h
  let Ke : NDArray (Fin nx → ℝ) ← binop (fun K e => fun i => ∑ j, K i j * e j) K e
  let x_corr ← binop (· + ·) s.x Ke
  let KK ← binop Prod.mk K K
  let KKP : NDArray (Matrix (Fin nx) (Fin nx) ℝ) ← binop (fun KK P => of fun i j => ∑ k, ∑ l, KK.1 i k * KK.2 j l * P k l) KK Py
  let Px_corr ← binop (· - ·) s.Px KKP
  return ((x_corr, Px_corr), { s with x := x_corr, Px := Px_corr, last := .data })

/-- extended.py:181-188 `update_likelihood`: the attribute `PyC` is never set. -/
def updateLikelihood (s : BEKF nx) : Py (BEKF nx) := match s.last with
  | .masked => .ok s
  | _ => .error .attributeError

/-- extended.py:118-119 `prediction_crosscov`. -/
def predictionCrosscov (s : BEKF nx) : Py (NDArray (Matrix (Fin nx) (Fin nx) ℝ)) := match s.Pxf with
  | none => .error .attributeError
  | some Pxf => .ok Pxf

/-- extended.py:221-222 `DTFilter`. -/
noncomputable def cls (model : KModel nx o p) : BFilterClass nx (MaskedRow o) (BEKF nx) where
  x := BEKF.x
  Px := BEKF.Px
  L := BEKF.L
  correct := correct model
  predict := predict model
  predictionCrosscov := predictionCrosscov
  updateLikelihood := updateLikelihood

end BEKF

/-! ### unscented.py -/

section Cholesky
variable {ι p : Type} [Fintype ι] [LinearOrder ι]

/-- What `diff` saves for `diff2`. -/
structure BCholDiff (ι p : Type) [LinearOrder ι] where
  dS : NDArray (p → Matrix ι ι ℝ)
  dQL : NDArray (p → Tril ι → ℝ)
  ALI : NDArray (Matrix (Tril ι) (Tril ι) ℝ)

/-- unscented.py:217-257 `diff`; `dS_dq` has the shape of `dQ_dq`. -/
noncomputable def bCholDiff (S : NDArray (Matrix ι ι ℝ)) (dQ : NDArray (p → Matrix ι ι ℝ)) : Py (BCholDiff ι p) := do
  let ALI ← mapM npInvT (map cholAL S)
  let dQL : NDArray (p → Tril ι → ℝ) := map (fun dQ b r => dQ b r.1.1 r.1.2) dQ
  let dSL : NDArray (p → Tril ι → ℝ) ← binop (fun ALI dQL b r => ∑ c, ALI r c * dQL b c) ALI dQL
  let dS ← assigned dSL dQ.shape
  return ⟨map (fun v b => fromTril (v b)) dS, dQL, ALI⟩

/-- unscented.py:259-280 `diff2`; `d2S_dq2` has the axes of `S` in the place of `...`. -/
noncomputable def bCholDiff2 (S : NDArray (Matrix ι ι ℝ)) (c : BCholDiff ι p) (d2Q : NDArray (p → p → Matrix ι ι ℝ)) :
    Py (NDArray (p → p → Matrix ι ι ℝ)) := do
  let dAL : NDArray (p → Matrix (Tril ι) (Tril ι) ℝ) := map (fun dS a => cholAL (dS a)) c.dS
  let ALIdAL ← binop Prod.mk c.ALI dAL
  let dALI : NDArray (p → Matrix (Tril ι) (Tril ι) ℝ) ← binop (fun A B a => of fun i l => -∑ j, ∑ k, A.1 i j * A.2 a j k * B k l) ALIdAL c.ALI
  let d2QL : NDArray (p → p → Tril ι → ℝ) := map (fun d2Q a b r => d2Q a b r.1.1 r.1.2) d2Q
  let d2SL : NDArray (p → p → Tril ι → ℝ) ← binop (fun A d a b i => ∑ j, A i j * d a b j) c.ALI d2QL
  let d2SL ← iadd d2SL (← binop (fun A d a b i => ∑ j, A a i j * d b j) dALI c.dQL)
  let d2S ← assigned d2SL S.shape
  return map (fun v a b => fromTril (v a b)) d2S

end Cholesky

/-- What `transform` saves. -/
structure BUTData (n o : Type) where
  S : NDArray (Matrix n n ℝ)
  isigma : NDArray (n → ℝ)
  idev : NDArray (n → ℝ)
  odev : NDArray (o → ℝ)
  mean : NDArray (o → ℝ)
  Po : NDArray (Matrix o o ℝ)

/-- What `transform_diff` saves. -/
structure BUTDiff (n o p : Type) [LinearOrder n] where
  chol : BCholDiff n p
  didev : NDArray (p → n → ℝ)
  disigma : NDArray (p → n → ℝ)
  df_di : NDArray (n → o → ℝ)
  dodev : NDArray (p → o → ℝ)
  do_dq : NDArray (p → o → ℝ)
  dPo_dq : NDArray (p → Matrix o o ℝ)

/-- What `transform_diff2` saves. -/
structure BUTDiff2 (n o p : Type) where
  d2idev : NDArray (p → p → n → ℝ)
  d2odev : NDArray (p → p → o → ℝ)
  d2o_dq2 : NDArray (p → p → o → ℝ)
  d2Po_dq2 : NDArray (p → p → Matrix o o ℝ)

namespace UT
variable {ni : Nat} {o p : Type}

/-- unscented.py:67-81 `sigma_points`: the square root, the deviations and the points; the first axis is that of the points. -/
noncomputable def bSigmaPoints (ut : UT ni) (i : NDArray (Fin ni → ℝ)) (Pi : NDArray (Matrix (Fin ni) (Fin ni) ℝ)) :
    Py (NDArray (Matrix (Fin ni) (Fin ni) ℝ) × NDArray (Fin ni → ℝ) × NDArray (Fin ni → ℝ)) := do
  let sq ← mapM ut.sqrt (map (fun P => ((ni : ℝ) + ut.kappa) • P) Pi)
  let S : NDArray (Fin ni → ℝ) := rollRows (map (fun (M : Matrix (Fin ni) (Fin ni) ℝ) r => M r) sq)
  let idev : NDArray (Fin ni → ℝ) := NDArray.zeros (ut.nsigma :: i.shape)
  let idev ← setRows idev 0 ni S
  let idev ← setRows idev ni ni (map (- ·) S)
  let isigma ← binop (· + ·) idev i
  return (sq, idev, isigma)

/-- unscented.py:109-122 `transform`. -/
noncomputable def bTransform (ut : UT ni) (i : NDArray (Fin ni → ℝ)) (Pi : NDArray (Matrix (Fin ni) (Fin ni) ℝ))
    (f : (Fin ni → ℝ) → o → ℝ) : Py (BUTData (Fin ni) o) := do
  let (S, idev, isigma) ← ut.bSigmaPoints i Pi
  let osigma := map f isigma
  let om : NDArray (o → ℝ) ← sumRows ut.nsigma osigma fun k v j => ut.weights k * v j
  let odev ← binop (· - ·) osigma om
  let oo ← binop Prod.mk odev odev
  let Po : NDArray (Matrix o o ℝ) ← sumRows ut.nsigma oo fun k v => of fun i j => v.1 i * v.2 j * ut.weights k
  return ⟨S, isigma, idev, odev, om, Po⟩

/-- unscented.py:169-170 `crosscov`. -/
noncomputable def bCrosscov (ut : UT ni) (d : BUTData (Fin ni) o) : Py (NDArray (Matrix (Fin ni) o ℝ)) := do
  let io ← binop Prod.mk d.idev d.odev
  sumRows ut.nsigma io fun k v => of fun i j => v.1 i * v.2 j * ut.weights k

/-- unscented.py:294-296; the class for the singular value decomposition has no method `sqrt_diff`. -/
noncomputable def bSqrtDiff (ut : UT ni) (S : NDArray (Matrix (Fin ni) (Fin ni) ℝ)) (dQ : NDArray (p → Matrix (Fin ni) (Fin ni) ℝ)) :
    Py (BCholDiff (Fin ni) p) :=
  match ut.kind with
  | .cholesky => bCholDiff S dQ
  | .svd _ => .error .attributeError

/-- `d[:ni] = v`, `d[ni:(2 * ni)] = -d[:ni]`, in an array of zeros with the axes `s` after the first (unscented.py:88-90, 102-104). -/
noncomputable def bSpread {β : Type} [Zero β] [Neg β] (ut : UT ni) (s : List Nat) (v : NDArray β) : Py (NDArray β) := do
  let d : NDArray β := NDArray.zeros (ut.nsigma :: s)
  let d ← setRows d 0 ni v
  setRows d ni ni (map (- ·) (takeRows ni d))

/-- unscented.py:83-95 `sigma_points_diff`. -/
noncomputable def bSigmaPointsDiff (ut : UT ni) (S : NDArray (Matrix (Fin ni) (Fin ni) ℝ)) (di_dq : NDArray (p → Fin ni → ℝ))
    (dPi_dq : NDArray (p → Matrix (Fin ni) (Fin ni) ℝ)) :
    Py (BCholDiff (Fin ni) p × NDArray (p → Fin ni → ℝ) × NDArray (p → Fin ni → ℝ)) := do
  let c ← ut.bSqrtDiff S (map (fun dP a => ((ni : ℝ) + ut.kappa) • dP a) dPi_dq)
  let didev ← ut.bSpread di_dq.shape (rollRows (map (fun (dS : p → Matrix (Fin ni) (Fin ni) ℝ) r a => dS a r) c.dS))
  let disigma ← binop (· + ·) didev di_dq
  return (c, didev, disigma)

/-- unscented.py:124-143 `transform_diff`. -/
noncomputable def bTransformDiff (ut : UT ni) (d : BUTData (Fin ni) o) (df_dq : (Fin ni → ℝ) → p → o → ℝ)
    (df_di : (Fin ni → ℝ) → Fin ni → o → ℝ) (di_dq : NDArray (p → Fin ni → ℝ)) (dPi_dq : NDArray (p → Matrix (Fin ni) (Fin ni) ℝ)) :
    Py (BUTDiff (Fin ni) o p) := do
  let df_di := map df_di d.isigma
  let (c, didev, disigma) ← ut.bSigmaPointsDiff d.S di_dq dPi_dq
  let Dosigma := map df_dq d.isigma
  let Dosigma ← iadd Dosigma (← binop (fun D ds a f => ∑ i, D i f * ds a i) df_di disigma)
  let do_dq : NDArray (p → o → ℝ) ← sumRows ut.nsigma Dosigma fun k v a j => ut.weights k * v a j
  let dodev ← binop (· - ·) Dosigma do_dq
  let dd ← binop Prod.mk dodev d.odev
  let dPo : NDArray (p → Matrix o o ℝ) ← sumRows ut.nsigma dd fun k v l => of fun i j => v.1 l j * v.2 i * ut.weights k
  let dPo ← iadd dPo (map (fun P l => (P l)ᵀ) dPo)
  return ⟨c, didev, disigma, df_di, dodev, do_dq, dPo⟩

/-- unscented.py:172-177 `crosscov_diff`. -/
noncomputable def bCrosscovDiff (ut : UT ni) (d : BUTData (Fin ni) o) (dd : BUTDiff (Fin ni) o p) : Py (NDArray (p → Matrix (Fin ni) o ℝ)) := do
  let P : NDArray (p → Matrix (Fin ni) o ℝ) ← sumRows ut.nsigma (← binop Prod.mk dd.didev d.odev) fun k v a => of fun i j => v.1 a i * v.2 j * ut.weights k
  iadd P (← sumRows ut.nsigma (← binop Prod.mk d.idev dd.dodev) fun k v a => of fun i j => v.1 i * v.2 a j * ut.weights k)

/-- unscented.py:97-107 `sigma_points_diff2` (unscented.py:298-300: `sqrt_diff2` of the Cholesky class; `transform_diff` has been called
before, so this is not the other class). -/
noncomputable def bSigmaPointsDiff2 (ut : UT ni) (S : NDArray (Matrix (Fin ni) (Fin ni) ℝ)) (c : BCholDiff (Fin ni) p)
    (d2i_dq2 : NDArray (p → p → Fin ni → ℝ)) (d2Pi_dq2 : NDArray (p → p → Matrix (Fin ni) (Fin ni) ℝ)) :
    Py (NDArray (p → p → Fin ni → ℝ) × NDArray (p → p → Fin ni → ℝ)) := do
  let d2S ← bCholDiff2 S c (map (fun dP a b => ((ni : ℝ) + ut.kappa) • dP a b) d2Pi_dq2)
  let d2idev ← ut.bSpread d2i_dq2.shape (rollRows (map (fun (dS : p → p → Matrix (Fin ni) (Fin ni) ℝ) r a b => dS a b r) d2S))
  let d2isigma ← binop (· + ·) d2idev d2i_dq2
  return (d2idev, d2isigma)

/-- unscented.py:145-167 `transform_diff2`. -/
noncomputable def bTransformDiff2 (ut : UT ni) (d : BUTData (Fin ni) o) (dd : BUTDiff (Fin ni) o p)
    (d2f_dq2 : (Fin ni → ℝ) → p → p → o → ℝ) (d2f_di2 : (Fin ni → ℝ) → Fin ni → Fin ni → o → ℝ)
    (d2f_di_dq : (Fin ni → ℝ) → p → Fin ni → o → ℝ) (d2i_dq2 : NDArray (p → p → Fin ni → ℝ))
    (d2Pi_dq2 : NDArray (p → p → Matrix (Fin ni) (Fin ni) ℝ)) : Py (BUTDiff2 (Fin ni) o p) := do
  let (d2idev, d2isigma) ← ut.bSigmaPointsDiff2 d.S dd.chol d2i_dq2 d2Pi_dq2
  let D2 : NDArray (p → p → o → ℝ) ← binop (fun D ds b a f => ∑ i, D a i f * ds b i) (map d2f_di_dq d.isigma) dd.disigma
  let D2 ← iadd D2 (map (fun D a b => D b a) D2)
  let D2 ← iadd D2 (map d2f_dq2 d.isigma)
  let Ddi ← binop Prod.mk (map d2f_di2 d.isigma) dd.disigma
  let D2 ← iadd D2 (← binop (fun D ds b a f => ∑ i, ∑ j, D.1 i j f * D.2 a i * ds b j) Ddi dd.disigma)
  let D2 ← iadd D2 (← binop (fun D ds b a f => ∑ i, D i f * ds b a i) dd.df_di d2isigma)
  let d2o : NDArray (p → p → o → ℝ) ← sumRows ut.nsigma D2 fun k v a b j => ut.weights k * v a b j
  let d2odev ← binop (· - ·) D2 d2o
  let d2Po : NDArray (p → p → Matrix o o ℝ) ← sumRows ut.nsigma (← binop Prod.mk d2odev d.odev)
    fun k v a b => of fun i j => v.1 a b i * v.2 j * ut.weights k
  let d2Po ← iadd d2Po (← sumRows ut.nsigma (← binop Prod.mk dd.dodev dd.dodev)
    fun k v a b => of fun i j => v.1 b i * v.2 a j * ut.weights k)
  let d2Po ← iadd d2Po (map (fun P a b => (P a b)ᵀ) d2Po)
  return ⟨d2idev, d2odev, d2o, d2Po⟩

/-- unscented.py:179-187 `crosscov_diff2`. -/
noncomputable def bCrosscovDiff2 (ut : UT ni) (d : BUTData (Fin ni) o) (dd : BUTDiff (Fin ni) o p) (d2 : BUTDiff2 (Fin ni) o p) :
    Py (NDArray (p → p → Matrix (Fin ni) o ℝ)) := do
  let P : NDArray (p → p → Matrix (Fin ni) o ℝ) ← sumRows ut.nsigma (← binop Prod.mk dd.didev dd.dodev)
    fun k v a b => of fun i j => v.1 b i * v.2 a j * ut.weights k
  let P ← iadd P (map (fun P a b => P b a) P)
  let P ← iadd P (← sumRows ut.nsigma (← binop Prod.mk d2.d2idev d.odev) fun k v a b => of fun i j => v.1 a b i * v.2 j * ut.weights k)
  iadd P (← sumRows ut.nsigma (← binop Prod.mk d.idev d2.d2odev) fun k v a b => of fun i j => v.1 i * v.2 a b j * ut.weights k)

end UT

/-- What `correction_diff` saves. -/
structure BUCorrDiff (nx : Nat) (a p : Type) where
  de_dq : NDArray (p → a → ℝ)
  dK_dq : NDArray (p → Matrix (Fin nx) a ℝ)
  dPy_dq : NDArray (p → Matrix a a ℝ)
  dPyI_dq : NDArray (p → Matrix a a ℝ)
  dPxh_dq : NDArray (p → Matrix (Fin nx) a ℝ)
  ut : BUTDiff (Fin nx) a p

/-- What `correction_diff2` saves. -/
structure BUCorrDiff2 (a p : Type) where
  d2e_dq2 : NDArray (p → p → a → ℝ)
  d2Py_dq2 : NDArray (p → p → Matrix a a ℝ)
  d2PyI_dq2 : NDArray (p → p → Matrix a a ℝ)

/-- What `correct` and the methods after it save. -/
structure BUCorr (nx : Nat) (p a : Type) [LinearOrder a] where
  e : NDArray (a → ℝ)
  Pxh : NDArray (Matrix (Fin nx) a ℝ)
  Py : NDArray (Matrix a a ℝ)
  PyI : NDArray (Matrix a a ℝ)
  K : NDArray (Matrix (Fin nx) a ℝ)
  PyC : NDArray (Matrix a a ℝ)
  ut : BUTData (Fin nx) a
  diff : Option (BUCorrDiff nx a p) := none
  diff2 : Option (BUCorrDiff2 a p) := none
  PyCD : Option (NDArray (a → ℝ)) := none
  chol : Option (BCholDiff a p) := none

/-- What `prediction_diff` saves: the data of the transform, `dQ_dx` and `prev_dx_dq`. -/
structure BUPredDiff (nx : Nat) (p : Type) where
  ut : BUTDiff (Fin nx) (Fin nx) p
  dQ_dx : NDArray (Fin nx → Matrix (Fin nx) (Fin nx) ℝ)
  dx_dq : NDArray (p → Fin nx → ℝ)

/-- What `predict` and the methods after it save. -/
structure BUPred (nx : Nat) (p : Type) where
  prev_x : NDArray (Fin nx → ℝ)
  ut : BUTData (Fin nx) (Fin nx)
  diff : Option (BUPredDiff nx p) := none

/-- The last call of `correct`: what later methods read. -/
inductive BULast (nx : Nat) (p o : Type) [LinearOrder o] where
  | never
  | masked
  | data (y : MaskedRow o) (d : BUCorr nx p y.Active)

/-- base.py:46-64: the attributes of the derivatives. -/
structure BDerivs (nx : Nat) (p : Type) where
  dL_dq : NDArray (p → ℝ)
  d2L_dq2 : NDArray (p → p → ℝ)
  dx_dq : NDArray (p → Fin nx → ℝ)
  dPx_dq : NDArray (p → Matrix (Fin nx) (Fin nx) ℝ)
  d2x_dq2 : NDArray (p → p → Fin nx → ℝ)
  d2Px_dq2 : NDArray (p → p → Matrix (Fin nx) (Fin nx) ℝ)

/-- base.py:46-75: what they are if neither the options nor the model have them. -/
noncomputable def BDerivs.zero (nx : Nat) (p : Type) (base : List Nat) : BDerivs nx p :=
  ⟨NDArray.zeros base, NDArray.zeros base, NDArray.zeros base, NDArray.zeros base, NDArray.zeros base, NDArray.zeros base⟩

/-- An unscented Kalman filter of a stack. -/
structure BUKF (nx : Nat) (o p : Type) [LinearOrder o] where
  x : NDArray (Fin nx → ℝ)
  Px : NDArray (Matrix (Fin nx) (Fin nx) ℝ)
  k : ℤ
  L : NDArray ℝ
  d : BDerivs nx p := BDerivs.zero nx p x.shape
  pred : Option (BUPred nx p) := none
  last : BULast nx p o := .never

namespace BUKF
variable {nx : Nat} {o p : Type} [Fintype o] [LinearOrder o]

omit [Fintype o] in
/-- unscented.py:328-341 `predict`. -/
noncomputable def predict (put : UT nx) (model : KModel nx o p) (s : BUKF nx o p) : Py (BMoments nx × BUKF nx o p) := do
  let d ← put.bTransform s.x s.Px (model.f s.k)
  let Q := map (model.Q s.k) s.x
  let Px ← binop (· + ·) d.Po Q
  let s := { s with pred := some ⟨s.x, d, none⟩, k := s.k + 1, x := d.mean, Px := Px }
  return ((s.x, s.Px), s)

/-- unscented.py:407-450 `correct`. -/
noncomputable def correct (cut : UT nx) (model : KModel nx o p) (y : MaskedRow o) (s : BUKF nx o p) : Py (BMoments nx × BUKF nx o p) :=
  if ∀ j, y.mask j = true then .ok ((s.x, s.Px), { s with last := .masked }) else do
  let R : NDArray (Matrix y.Active y.Active ℝ) := one (of fun i j => model.R i.1 j.1)
  let d ← cut.bTransform s.x s.Px fun x (j : y.Active) => model.h s.k x j.1
  let Pxh ← cut.bCrosscov d
  let Py ← binop (· + ·) d.Po R
  let PyC ← mapM cholU Py
  let PyCI ← mapM npInv PyC
  let PyI : NDArray (Matrix y.Active y.Active ℝ) ← binop (fun A B => of fun i j => ∑ k, A i k * B j k) PyCI PyCI
  let e ← binop (· - ·) (one fun j : y.Active => y.data j.1) d.mean
  let K : NDArray (Matrix (Fin nx) y.Active ℝ) ← binop (fun C I => of fun i j => ∑ k, C i k * I k j) Pxh PyI
  let Ke : NDArray (Fin nx → ℝ) ← binop (fun K e => fun i => ∑ j, K i j * e j) K e
  let x_corr ← binop (· + ·) s.x Ke
  let KK ← binop Prod.mk K K
  let KKP : NDArray (Matrix (Fin nx) (Fin nx) ℝ) ← binop (fun KK P => of fun i j => ∑ k, ∑ l, KK.1 i k * KK.2 j l * P k l) KK Py
  let Px_corr ← binop (· - ·) s.Px KKP
  return ((x_corr, Px_corr), { s with x := x_corr, Px := Px_corr, last := .data y ⟨e, Pxh, Py, PyI, K, PyC, d, none, none, none, none⟩ })

/-- unscented.py:541-548 `update_likelihood`. -/
noncomputable def updateLikelihood (s : BUKF nx o p) : Py (BUKF nx o p) := match s.last with
  | .never => .error .attributeError
  | .masked => .ok s
  | .data y d => do
    let PyCD := map (fun C k => C k k) d.PyC
    let eI ← binop Prod.mk d.e d.PyI
    let q ← binop (fun eI e => 0.5 * ∑ i, ∑ j, eI.1 i * eI.2 i j * e j) eI d.e
    let L ← binop (· - ·) s.L q
    let L ← binop (· - ·) L (map (fun D => ∑ k, Real.log (D k)) PyCD)
    return { s with L := L, last := .data y { d with PyCD := some PyCD } }

omit [Fintype o] in
/-- unscented.py:389-390 `prediction_crosscov`: before a prediction, the transform has no deviations. -/
noncomputable def predictionCrosscov (put : UT nx) (s : BUKF nx o p) : Py (NDArray (Matrix (Fin nx) (Fin nx) ℝ)) := match s.pred with
  | none => .error .attributeError
  | some d => put.bCrosscov d.ut

/-- unscented.py:597-598 `DTFilter`. -/
noncomputable def cls (put cut : UT nx) (model : KModel nx o p) : BFilterClass nx (MaskedRow o) (BUKF nx o p) where
  x := BUKF.x
  Px := BUKF.Px
  L := BUKF.L
  correct := correct cut model
  predict := predict put model
  predictionCrosscov := predictionCrosscov put
  updateLikelihood := updateLikelihood

end BUKF
end Ceacoest
