import Verif.Model.KalmanBatch

/-!
# `ceacoest/kalman`: derivatives in unscented filters of a stack of states

As in `Model.KalmanBatch`; an array of derivatives is a stack whose entries are indexed by the parameters first.  `a += v` and `a -= v` work
in place: they raise ValueError if the result has not the shape of `a` (`iadd`, `isub`).
-/

namespace Ceacoest
open Matrix Stack

/-! ### base.py:145-176 -/

/-- The methods of a filter class with derivatives. -/
structure BDFilterClass (nx : Nat) (Y p σ : Type) extends BFilterClass nx Y σ where
  dL_dq : σ → NDArray (p → ℝ)
  d2L_dq2 : σ → NDArray (p → p → ℝ)
  correctionDiff : σ → Py σ
  correctionDiff2 : σ → Py σ
  likelihoodDiff : σ → Py σ
  likelihoodDiff2 : σ → Py σ
  predictionDiff : σ → Py σ
  predictionDiff2 : σ → Py σ

namespace BDFilterClass
variable {nx : Nat} {Y p σ : Type} (F : BDFilterClass nx Y p σ)

/-- base.py:149-156. -/
def gradientStep (y : List Y) (s : σ) (k : Nat) : Py σ := do
  let (_, s) ← F.correct (← FilterClass.row y k) s
  let s ← F.correctionDiff s
  let s ← F.updateLikelihood s
  let s ← F.likelihoodDiff s
  if k < y.length - 1 then do
    let (_, s) ← F.predict s
    F.predictionDiff s
  else return s

/-- base.py:145-158 `pem_gradient`. -/
def pemGradient (y : List Y) (s : σ) : Py (NDArray (p → ℝ) × σ) := do
  let s ← (List.range y.length).foldlM (F.gradientStep y) s
  return (F.dL_dq s, s)

/-- base.py:164-174. -/
def hessianStep (y : List Y) (s : σ) (k : Nat) : Py σ := do
  let (_, s) ← F.correct (← FilterClass.row y k) s
  let s ← F.correctionDiff s
  let s ← F.correctionDiff2 s
  let s ← F.updateLikelihood s
  let s ← F.likelihoodDiff s
  let s ← F.likelihoodDiff2 s
  if k < y.length - 1 then do
    let (_, s) ← F.predict s
    let s ← F.predictionDiff s
    F.predictionDiff2 s
  else return s

/-- base.py:160-176 `pem_hessian`. -/
def pemHessian (y : List Y) (s : σ) : Py (NDArray (p → p → ℝ) × σ) := do
  let s ← (List.range y.length).foldlM (F.hessianStep y) s
  return (F.d2L_dq2 s, s)

end BDFilterClass

/-! ### unscented.py:343-594 -/

namespace BUKF
variable {nx : Nat} {o p : Type}

section Active
variable {a : Type} [Fintype a] [LinearOrder a]

/-- unscented.py:462-473, on the active outputs: what is saved. -/
noncomputable def coreDiff (cut : UT nx) (d : BUCorr nx p a) (dh_dq : (Fin nx → ℝ) → p → a → ℝ) (dh_dx : (Fin nx → ℝ) → Fin nx → a → ℝ)
    (dR_dq : p → Matrix a a ℝ) (dx_dq : NDArray (p → Fin nx → ℝ)) (dPx_dq : NDArray (p → Matrix (Fin nx) (Fin nx) ℝ)) :
    Py (BUCorrDiff nx a p) := do
  let dd ← cut.bTransformDiff d.ut dh_dq dh_dx dx_dq dPx_dq
  let dPxh_dq ← cut.bCrosscovDiff d.ut dd
  let de_dq : NDArray (p → a → ℝ) := map (- ·) dd.do_dq
  let dPy_dq : NDArray (p → Matrix a a ℝ) ← binop (· + ·) dd.dPo_dq (one dR_dq)
  let IdP ← binop Prod.mk d.PyI dPy_dq
  let dPyI_dq : NDArray (p → Matrix a a ℝ) ← binop (fun A B a => of fun i l => -∑ j, ∑ k, A.1 i j * A.2 a j k * B k l) IdP d.PyI
  let dK_dq : NDArray (p → Matrix (Fin nx) a ℝ) ← binop (fun C D a => of fun i j => ∑ k, C i k * D a k j) d.Pxh dPyI_dq
  let dK_dq ← iadd dK_dq (← binop (fun C D a => of fun i j => ∑ k, C a i k * D k j) dPxh_dq d.PyI)
  return ⟨de_dq, dK_dq, dPy_dq, dPyI_dq, dPxh_dq, dd⟩

/-- unscented.py:482-486: the new `dx_dq` and `dPx_dq`. -/
noncomputable def corrDiff (d : BUCorr nx p a) (c : BUCorrDiff nx a p) (dx_dq : NDArray (p → Fin nx → ℝ))
    (dPx_dq : NDArray (p → Matrix (Fin nx) (Fin nx) ℝ)) : Py (NDArray (p → Fin nx → ℝ) × NDArray (p → Matrix (Fin nx) (Fin nx) ℝ)) := do
  let dx_dq ← iadd dx_dq (← binop (fun D e a i => ∑ j, D a i j * e j) c.dK_dq d.e)
  let dx_dq ← iadd dx_dq (← binop (fun K e a i => ∑ j, K i j * e a j) d.K c.de_dq)
  let KK ← binop Prod.mk d.K d.K
  let dPx_dq ← isub dPx_dq (← binop (fun K P a => of fun i j => ∑ k, ∑ l, K.1 i k * K.2 j l * P a l k) KK c.dPy_dq)
  let dKK ← binop Prod.mk c.dK_dq d.K
  let X : NDArray (p → Matrix (Fin nx) (Fin nx) ℝ) ← binop (fun K P a => of fun i j => ∑ k, ∑ l, K.1 a i k * K.2 j l * P l k) dKK d.Py
  let dPx_dq ← isub dPx_dq (← binop (· + ·) X (map (fun X a => (X a)ᵀ) X))
  return (dx_dq, dPx_dq)

/-- unscented.py:507-522, on the active outputs: what is saved, and `d2K_dq2`. -/
noncomputable def coreDiff2 (cut : UT nx) (d : BUCorr nx p a) (c : BUCorrDiff nx a p)
    (d2h_dq2 : (Fin nx → ℝ) → p → p → a → ℝ) (d2h_dx2 : (Fin nx → ℝ) → Fin nx → Fin nx → a → ℝ)
    (d2h_dx_dq : (Fin nx → ℝ) → p → Fin nx → a → ℝ) (d2R_dq2 : p → p → Matrix a a ℝ)
    (d2x_dq2 : NDArray (p → p → Fin nx → ℝ)) (d2Px_dq2 : NDArray (p → p → Matrix (Fin nx) (Fin nx) ℝ)) :
    Py (BUCorrDiff2 a p × NDArray (p → p → Matrix (Fin nx) a ℝ)) := do
  let d2 ← cut.bTransformDiff2 d.ut c.ut d2h_dq2 d2h_dx2 d2h_dx_dq d2x_dq2 d2Px_dq2
  let d2Pxh_dq2 ← cut.bCrosscovDiff2 d.ut c.ut d2
  let d2e_dq2 : NDArray (p → p → a → ℝ) := map (- ·) d2.d2o_dq2
  let d2Py_dq2 : NDArray (p → p → Matrix a a ℝ) ← binop (· + ·) d2.d2Po_dq2 (one d2R_dq2)
  let t ← binop Prod.mk c.dPyI_dq c.dPy_dq
  let d2PyI : NDArray (p → p → Matrix a a ℝ) ← binop (fun A B a b => of fun i l => -∑ j, ∑ k, A.1 a i j * A.2 b j k * B k l) t d.PyI
  let t ← binop Prod.mk d.PyI d2Py_dq2
  let d2PyI ← isub d2PyI (← binop (fun A B a b => of fun i l => ∑ j, ∑ k, A.1 i j * A.2 a b j k * B k l) t d.PyI)
  let t ← binop Prod.mk d.PyI c.dPy_dq
  let d2PyI ← isub d2PyI (← binop (fun A B a b => of fun i l => ∑ j, ∑ k, A.1 i j * A.2 b j k * B a k l) t c.dPyI_dq)
  let d2K : NDArray (p → p → Matrix (Fin nx) a ℝ) ← binop (fun C D a b => of fun i j => ∑ k, C a i k * D b k j) c.dPxh_dq c.dPyI_dq
  let d2K ← iadd d2K (← binop (fun C D a b => of fun i j => ∑ k, C i k * D a b k j) d.Pxh d2PyI)
  let d2K ← iadd d2K (← binop (fun C D a b => of fun i j => ∑ k, C a b i k * D k j) d2Pxh_dq2 d.PyI)
  let d2K ← iadd d2K (← binop (fun C D a b => of fun i j => ∑ k, C b i k * D a k j) c.dPxh_dq c.dPyI_dq)
  return (⟨d2e_dq2, d2Py_dq2, d2PyI⟩, d2K)

/-- unscented.py:524-536: the new `d2x_dq2` and `d2Px_dq2`. -/
noncomputable def corrDiff2 (d : BUCorr nx p a) (c : BUCorrDiff nx a p) (c2 : BUCorrDiff2 a p) (d2K : NDArray (p → p → Matrix (Fin nx) a ℝ))
    (d2x : NDArray (p → p → Fin nx → ℝ)) (d2P : NDArray (p → p → Matrix (Fin nx) (Fin nx) ℝ)) :
    Py (NDArray (p → p → Fin nx → ℝ) × NDArray (p → p → Matrix (Fin nx) (Fin nx) ℝ)) := do
  let d2x ← iadd d2x (← binop (fun D e a b i => ∑ j, D a b i j * e j) d2K d.e)
  let d2x ← iadd d2x (← binop (fun D e a b i => ∑ j, D b i j * e a j) c.dK_dq c.de_dq)
  let d2x ← iadd d2x (← binop (fun D e a b i => ∑ j, D a i j * e b j) c.dK_dq c.de_dq)
  let d2x ← iadd d2x (← binop (fun D e a b i => ∑ j, D i j * e a b j) d.K c2.d2e_dq2)
  let d2P ← isub d2P (← binop (fun K P a b => of fun i j => ∑ k, ∑ l, K.1 a b i k * K.2 j l * P l k) (← binop Prod.mk d2K d.K) d.Py)
  let d2P ← isub d2P (← binop (fun K P a b => of fun i j => ∑ k, ∑ l, K.1 b i k * K.2 a j l * P l k) (← binop Prod.mk c.dK_dq c.dK_dq) d.Py)
  let d2P ← isub d2P (← binop (fun K P a b => of fun i j => ∑ k, ∑ l, K.1 a i k * K.2 b j l * P l k) (← binop Prod.mk c.dK_dq c.dK_dq) d.Py)
  let X : NDArray (p → p → Matrix (Fin nx) (Fin nx) ℝ) ←
    binop (fun K P a b => of fun i j => ∑ k, ∑ l, K.1 b i k * K.2 j l * P a l k) (← binop Prod.mk c.dK_dq d.K) c.dPy_dq
  let X ← iadd X (map (fun X a b => (X a b)ᵀ) X)
  let X ← iadd X (map (fun X a b => X b a) X)
  let d2P ← isub d2P X
  let d2P ← isub d2P (← binop (fun K P a b => of fun i j => ∑ k, ∑ l, K.1 i k * K.2 a b j l * P l k) (← binop Prod.mk d.K d2K) d.Py)
  let d2P ← isub d2P (← binop (fun K P a b => of fun i j => ∑ k, ∑ l, K.1 i k * K.2 j l * P a b l k) (← binop Prod.mk d.K d.K) c2.d2Py_dq2)
  return (d2x, d2P)

/-- unscented.py:562-566, on the active outputs: the new `dL_dq`, and what the Cholesky object saves. -/
noncomputable def likDiff (d : BUCorr nx p a) (c : BUCorrDiff nx a p) (PyCD : NDArray (a → ℝ)) (dL : NDArray (p → ℝ)) :
    Py (BCholDiff a p × NDArray (p → ℝ)) := do
  let ch ← bCholDiff d.PyC c.dPy_dq
  let dPyCD_dq : NDArray (p → a → ℝ) := map (fun dS a k => dS a k k) ch.dS
  let dL ← isub dL (← binop (fun D C a => ∑ k, D a k / C k) dPyCD_dq PyCD)
  let dL ← isub dL (← binop (fun E e a => ∑ i, ∑ j, E.1 a i * E.2 i j * e j) (← binop Prod.mk c.de_dq d.PyI) d.e)
  let dL ← isub dL (← binop (fun E e a => 0.5 * ∑ i, ∑ j, E.1 i * E.2 a i j * e j) (← binop Prod.mk d.e c.dPyI_dq) d.e)
  return (ch, dL)

/-- unscented.py:584-594, on the active outputs. -/
noncomputable def likDiff2 (d : BUCorr nx p a) (c : BUCorrDiff nx a p) (c2 : BUCorrDiff2 a p) (PyCD : NDArray (a → ℝ)) (ch : BCholDiff a p)
    (d2L : NDArray (p → p → ℝ)) : Py (NDArray (p → p → ℝ)) := do
  let d2PyC ← bCholDiff2 d.PyC ch c2.d2Py_dq2
  let d2PyCD : NDArray (p → p → a → ℝ) := map (fun dS a b k => dS a b k k) d2PyC
  let d2L ← isub d2L (← binop (fun D C a b => ∑ k, D a b k / C k) d2PyCD PyCD)
  let dPyCD_dq : NDArray (p → a → ℝ) := map (fun dS a k => dS a k k) ch.dS
  let D : NDArray (p → a → ℝ) ← binop (fun D C a k => D a k / C k ^ 2) dPyCD_dq PyCD
  let d2L ← iadd d2L (← binop (fun D E a b => ∑ k, D a k * E b k) dPyCD_dq D)
  let d2L ← isub d2L (← binop (fun E e a b => ∑ i, ∑ j, E.1 a i * E.2 i j * e b j) (← binop Prod.mk c.de_dq d.PyI) c.de_dq)
  let d2L ← isub d2L (← binop (fun E e a b => ∑ i, ∑ j, E.1 a b i * E.2 i j * e j) (← binop Prod.mk c2.d2e_dq2 d.PyI) d.e)
  let d2L ← isub d2L (← binop (fun E e a b => 0.5 * ∑ i, ∑ j, E.1 i * E.2 a b i j * e j) (← binop Prod.mk d.e c2.d2PyI_dq2) d.e)
  let X : NDArray (p → p → ℝ) ← binop (fun E e a b => ∑ i, ∑ j, E.1 a i * E.2 b i j * e j) (← binop Prod.mk c.de_dq c.dPyI_dq) d.e
  let d2L ← isub d2L X
  isub d2L (map (fun X a b => X b a) X)

end Active

variable [Fintype o] [LinearOrder o]

/-- unscented.py:452-486 `correction_diff`. -/
noncomputable def correctionDiff (cut : UT nx) (model : KModel nx o p) (s : BUKF nx o p) : Py (BUKF nx o p) := match s.last with
  | .never => .error .attributeError
  | .masked => .ok s
  | .data y d => do
    let c ← coreDiff cut d (fun x a j => model.dh_dq s.k x a j.1) (fun x i j => model.dh_dx s.k x i j.1)
      (fun a => of fun i j => model.dR_dq a i.1 j.1) s.d.dx_dq s.d.dPx_dq
    let (dx_dq, dPx_dq) ← corrDiff d c s.d.dx_dq s.d.dPx_dq
    return { s with d := { s.d with dx_dq := dx_dq, dPx_dq := dPx_dq }, last := .data y { d with diff := some c } }

/-- unscented.py:488-539 `correction_diff2`. -/
noncomputable def correctionDiff2 (cut : UT nx) (model : KModel nx o p) (s : BUKF nx o p) : Py (BUKF nx o p) := match s.last with
  | .never => .error .attributeError
  | .masked => .ok s
  | .data y d => match d.diff with
    | none => .error .attributeError
    | some c => do
      let (c2, d2K) ← coreDiff2 cut d c (fun x a b j => model.d2h_dq2 s.k x a b j.1) (fun x i l j => model.d2h_dx2 s.k x i l j.1)
        (fun x a i j => model.d2h_dx_dq s.k x a i j.1) (fun a b => of fun i j => model.d2R_dq2 a b i.1 j.1) s.d.d2x_dq2 s.d.d2Px_dq2
      let (d2x, d2P) ← corrDiff2 d c c2 d2K s.d.d2x_dq2 s.d.d2Px_dq2
      return { s with d := { s.d with d2x_dq2 := d2x, d2Px_dq2 := d2P }, last := .data y { d with diff2 := some c2 } }

/-- unscented.py:550-566 `likelihood_diff`. -/
noncomputable def likelihoodDiff (s : BUKF nx o p) : Py (BUKF nx o p) := match s.last with
  | .never => .error .attributeError
  | .masked => .ok s
  | .data y d => match d.diff, d.PyCD with
    | some c, some PyCD => do
      let (ch, dL) ← likDiff d c PyCD s.d.dL_dq
      return { s with d := { s.d with dL_dq := dL }, last := .data y { d with chol := some ch } }
    | _, _ => .error .attributeError

/-- unscented.py:568-594 `likelihood_diff2`. -/
noncomputable def likelihoodDiff2 (s : BUKF nx o p) : Py (BUKF nx o p) := match s.last with
  | .never => .error .attributeError
  | .masked => .ok s
  | .data _ d => match d.diff, d.diff2, d.PyCD, d.chol with
    | some c, some c2, some PyCD, some ch => do
      let d2L ← likDiff2 d c c2 PyCD ch s.d.d2L_dq2
      return { s with d := { s.d with d2L_dq2 := d2L } }
    | _, _, _, _ => .error .attributeError

omit [Fintype o] in
/-- unscented.py:343-362 `prediction_diff`. -/
noncomputable def predictionDiff (put : UT nx) (model : KModel nx o p) (s : BUKF nx o p) : Py (BUKF nx o p) := match s.pred with
  | none => .error .attributeError
  | some pr => do
    let k := s.k - 1
    let dd ← put.bTransformDiff pr.ut (model.df_dq k) (model.df_dx k) s.d.dx_dq s.d.dPx_dq
    let dQ_dq := map (model.dQ_dq k) pr.prev_x
    let dQ_dx := map (model.dQ_dx k) pr.prev_x
    let DQ_Dq : NDArray (p → Matrix (Fin nx) (Fin nx) ℝ) ←
      binop (· + ·) dQ_dq (← binop (fun dx D a => of fun k l => ∑ j, dx a j * D j k l) s.d.dx_dq dQ_dx)
    let dPx_dq ← binop (· + ·) dd.dPo_dq DQ_Dq
    return { s with pred := some { pr with diff := some ⟨dd, dQ_dx, s.d.dx_dq⟩ }, d := { s.d with dx_dq := dd.do_dq, dPx_dq := dPx_dq } }

/-- unscented.py:379-385: `D2Q_Dq2`. -/
noncomputable def noiseDiff2 (prev_x : NDArray (Fin nx → ℝ)) (dx_dq : NDArray (p → Fin nx → ℝ))
    (dQ_dx : NDArray (Fin nx → Matrix (Fin nx) (Fin nx) ℝ)) (d2x_dq2 : NDArray (p → p → Fin nx → ℝ))
    (d2Q_dx_dq : (Fin nx → ℝ) → p → Fin nx → Matrix (Fin nx) (Fin nx) ℝ) (d2Q_dq2 : (Fin nx → ℝ) → p → p → Matrix (Fin nx) (Fin nx) ℝ)
    (d2Q_dx2 : (Fin nx → ℝ) → Fin nx → Fin nx → Matrix (Fin nx) (Fin nx) ℝ) : Py (NDArray (p → p → Matrix (Fin nx) (Fin nx) ℝ)) := do
  let D2Q : NDArray (p → p → Matrix (Fin nx) (Fin nx) ℝ) ←
    binop (fun dx D a b => of fun k l => ∑ i, dx b i * D a i k l) dx_dq (map d2Q_dx_dq prev_x)
  let D2Q ← iadd D2Q (map (fun D a b => D b a) D2Q)
  let D2Q ← iadd D2Q (map d2Q_dq2 prev_x)
  let D2Q ← iadd D2Q (← binop (fun d2x D a b => of fun k l => ∑ i, d2x a b i * D i k l) d2x_dq2 dQ_dx)
  iadd D2Q (← binop (fun A dx a b => of fun m l => ∑ i, ∑ j, A.1 b i * A.2 j i m l * dx a j)
    (← binop Prod.mk dx_dq (map d2Q_dx2 prev_x)) dx_dq)

omit [Fintype o] in
/-- unscented.py:364-387 `prediction_diff2`. -/
noncomputable def predictionDiff2 (put : UT nx) (model : KModel nx o p) (s : BUKF nx o p) : Py (BUKF nx o p) := match s.pred with
  | none => .error .attributeError
  | some pr => match pr.diff with
    | none => .error .attributeError
    | some c => do
      let k := s.k - 1
      let d2 ← put.bTransformDiff2 pr.ut c.ut (model.d2f_dq2 k) (model.d2f_dx2 k) (model.d2f_dx_dq k) s.d.d2x_dq2 s.d.d2Px_dq2
      let D2Q ← noiseDiff2 pr.prev_x c.dx_dq c.dQ_dx s.d.d2x_dq2 (model.d2Q_dx_dq k) (model.d2Q_dq2 k) (model.d2Q_dx2 k)
      let d2P ← binop (· + ·) d2.d2Po_dq2 D2Q
      return { s with d := { s.d with d2x_dq2 := d2.d2o_dq2, d2Px_dq2 := d2P } }

/-- unscented.py:597-598 `DTFilter`. -/
noncomputable def dcls (put cut : UT nx) (model : KModel nx o p) : BDFilterClass nx (MaskedRow o) p (BUKF nx o p) where
  toBFilterClass := cls put cut model
  dL_dq s := s.d.dL_dq
  d2L_dq2 s := s.d.d2L_dq2
  correctionDiff := correctionDiff cut model
  correctionDiff2 := correctionDiff2 cut model
  likelihoodDiff := likelihoodDiff
  likelihoodDiff2 := likelihoodDiff2
  predictionDiff := predictionDiff put model
  predictionDiff2 := predictionDiff2 put model

end BUKF
end Ceacoest
