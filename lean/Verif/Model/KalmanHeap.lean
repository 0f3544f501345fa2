import Verif.Model.Kalman

/-!
# The arrays of derivatives of unscented filters in memory: `ceacoest/kalman/base.py`, lines 48-74, 145-176, `ceacoest/kalman/unscented.py`, lines 343-594

`Model/Kalman.lean` has the derivative attributes as values.  In Python they are arrays, some methods change them in place, and the constructor
keeps the arrays of its options (base.py:48, `options.get('dL_dq', …)`; base.py:68, `np.asarray(options[key])`, which does not copy an array), so
that filters may share them.  Here the attributes are references to arrays in memory; what a method computes is taken from `Model/Kalman.lean`.

Simplifications: the option `dL_dq`, which also becomes `d2L_dq2` (base.py:51, C49), is taken as absent or of one parameter axis, so that arrays of different
attributes are never the same; arrays are not views of each other; they hold floating point numbers (an in-place update of an array of integers raises
TypeError).  The in-place updates of a method follow everything in it that may raise, so that an exception leaves the memory as it was.
-/

namespace Ceacoest.KHeap
open Matrix

/-- The derivative attributes, base.py:48-63. -/
inductive DAttr where
  | dL | d2L | dx | dPx | d2x | d2Px
  deriving DecidableEq

/-- The values of an array of each kind. -/
def DAttr.T (nx : Nat) (p : Type) : DAttr → Type
  | .dL => p → ℝ
  | .d2L => p → p → ℝ
  | .dx => p → Fin nx → ℝ
  | .dPx => p → Matrix (Fin nx) (Fin nx) ℝ
  | .d2x => p → p → Fin nx → ℝ
  | .d2Px => p → p → Matrix (Fin nx) (Fin nx) ℝ

/-- One value for each derivative attribute. -/
abbrev Derivs (nx : Nat) (p : Type) := (a : DAttr) → a.T nx p

variable {ι : Type} [DecidableEq ι] {nx ns ns' : Nat} {o p : Type} [LinearOrder o]

/-- The derivatives of a filter. -/
def derivs (s : UKF nx ns ns' o p) : Derivs nx p
  | .dL => s.dL_dq
  | .d2L => s.d2L_dq2
  | .dx => s.dx_dq
  | .dPx => s.dPx_dq
  | .d2x => s.d2x_dq2
  | .d2Px => s.d2Px_dq2

/-- The filter with other derivatives. -/
def withDerivs (s : UKF nx ns ns' o p) (D : Derivs nx p) : UKF nx ns ns' o p :=
  { s with dL_dq := D .dL, d2L_dq2 := D .d2L, dx_dq := D .dx, dPx_dq := D .dPx, d2x_dq2 := D .d2x, d2Px_dq2 := D .d2Px }

/-- Arrays of one kind: those numbered below `next` exist. -/
structure Store (α : Type) where
  data : Nat → α
  next : Nat

/-- The memory. -/
abbrev Mem (nx : Nat) (p : Type) := (a : DAttr) → Store (a.T nx p)

/-- A filter object: attributes that are not changed in place (the derivatives in `rest` are never read), and the arrays that hold its derivatives. -/
structure Obj (nx ns ns' : Nat) (o p : Type) [LinearOrder o] where
  rest : UKF nx ns ns' o p
  ref : DAttr → Nat

/-- The filter with the derivatives that its arrays hold. -/
def load (m : Mem nx p) (f : Obj nx ns ns' o p) : UKF nx ns ns' o p := withDerivs f.rest fun a => (m a).data (f.ref a)

/-- What a method does to an attribute. -/
inductive Effect where
  | untouched
  /-- `self.a += …` -/
  | inPlace
  /-- `self.a = …`, a new array -/
  | rebind

/-- The methods that the loops of base.py:145-176 call. -/
inductive Call (o : Type) where
  | correct (y : MaskedRow o)
  | correctionDiff
  | correctionDiff2
  | updateLikelihood
  | likelihoodDiff
  | likelihoodDiff2
  | predict
  | predictionDiff
  | predictionDiff2

/-- unscented.py:482-486, 524-536, 564-566, 586-594: in place; 360-362, 386-387: new arrays. -/
def Call.effect : Call o → DAttr → Effect
  | .correctionDiff, .dx => .inPlace
  | .correctionDiff, .dPx => .inPlace
  | .correctionDiff2, .d2x => .inPlace
  | .correctionDiff2, .d2Px => .inPlace
  | .likelihoodDiff, .dL => .inPlace
  | .likelihoodDiff2, .d2L => .inPlace
  | .predictionDiff, .dx => .rebind
  | .predictionDiff, .dPx => .rebind
  | .predictionDiff2, .d2x => .rebind
  | .predictionDiff2, .d2Px => .rebind
  | _, _ => .untouched

variable [Fintype o]

/-- What a method makes of a filter, as values. -/
noncomputable def Call.run (put cut : UT nx) (model : KModel nx o p) : Call o → UKF nx cut.nsigma put.nsigma o p → Py (UKF nx cut.nsigma put.nsigma o p)
  | .correct y, s => do return (← UKF.correct cut model y s).2
  | .correctionDiff, s => UKF.correctionDiff cut model s
  | .correctionDiff2, s => UKF.correctionDiff2 cut model s
  | .updateLikelihood, s => UKF.updateLikelihood s
  | .likelihoodDiff, s => UKF.likelihoodDiff s
  | .likelihoodDiff2, s => UKF.likelihoodDiff2 s
  | .predict, s => do return (← UKF.predict put model s).2
  | .predictionDiff, s => UKF.predictionDiff put model s
  | .predictionDiff2, s => UKF.predictionDiff2 put model s

/-- `self.a[...] = v` in the array `r`, or a new array with `v`, or nothing. -/
def Store.apply {α : Type} (st : Store α) (r : Nat) (v : α) : Effect → Store α × Nat
  | .untouched => (st, r)
  | .inPlace => (⟨Function.update st.data r v, st.next⟩, r)
  | .rebind => (⟨Function.update st.data st.next v, st.next + 1⟩, st.next)

/-- A method call on a filter in memory. -/
noncomputable def call (put cut : UT nx) (model : KModel nx o p) (c : Call o) (m : Mem nx p) (f : Obj nx cut.nsigma put.nsigma o p) :
    Py (Mem nx p × Obj nx cut.nsigma put.nsigma o p) := do
  let s ← c.run put cut model (load m f)
  return (fun a => ((m a).apply (f.ref a) (derivs s a) (c.effect a)).1, ⟨s, fun a => ((m a).apply (f.ref a) (derivs s a) (c.effect a)).2⟩)

/-- The memory and the filters. -/
structure World (ι : Type) (nx ns ns' : Nat) (o p : Type) [LinearOrder o] where
  mem : Mem nx p
  obj : ι → Obj nx ns ns' o p

/-- The filter number `i`, as values. -/
def World.filter (w : World ι nx ns ns' o p) (i : ι) : UKF nx ns ns' o p := load w.mem (w.obj i)

/-- A method of the filter number `e.1` is called. -/
noncomputable def World.step (put cut : UT nx) (model : KModel nx o p) (w : World ι nx cut.nsigma put.nsigma o p) (e : ι × Call o) :
    Py (World ι nx cut.nsigma put.nsigma o p) := do
  let (m, f) ← call put cut model e.2 w.mem (w.obj e.1)
  return ⟨m, Function.update w.obj e.1 f⟩

/-- A sequence of method calls. -/
noncomputable def World.run (put cut : UT nx) (model : KModel nx o p) (w : World ι nx cut.nsigma put.nsigma o p) (es : List (ι × Call o)) :
    Py (World ι nx cut.nsigma put.nsigma o p) := es.foldlM (World.step put cut model) w

/-- The calls of `pem_gradient` for one measurement and those after it, base.py:149-156. -/
def gradientCalls : List (MaskedRow o) → List (Call o)
  | [] => []
  | [y] => [.correct y, .correctionDiff, .updateLikelihood, .likelihoodDiff]
  | y :: ys => [.correct y, .correctionDiff, .updateLikelihood, .likelihoodDiff, .predict, .predictionDiff] ++ gradientCalls ys

/-- The calls of `pem_hessian`, base.py:164-174. -/
def hessianCalls : List (MaskedRow o) → List (Call o)
  | [] => []
  | [y] => [.correct y, .correctionDiff, .correctionDiff2, .updateLikelihood, .likelihoodDiff, .likelihoodDiff2]
  | y :: ys => [.correct y, .correctionDiff, .correctionDiff2, .updateLikelihood, .likelihoodDiff, .likelihoodDiff2, .predict, .predictionDiff,
      .predictionDiff2] ++ hessianCalls ys

/-- The calls on the filter number `i`. -/
def onFilter (i : ι) (cs : List (Call o)) : List (ι × Call o) := cs.map fun c => (i, c)

/-- base.py:145-158 `pem_gradient`: the array that it returns is the attribute itself. -/
noncomputable def World.pemGradient (put cut : UT nx) (model : KModel nx o p) (i : ι) (y : List (MaskedRow o)) (w : World ι nx cut.nsigma put.nsigma o p) :
    Py (Nat × World ι nx cut.nsigma put.nsigma o p) := do
  let w ← w.run put cut model (onFilter i (gradientCalls y))
  return ((w.obj i).ref .dL, w)

/-- base.py:160-176 `pem_hessian`. -/
noncomputable def World.pemHessian (put cut : UT nx) (model : KModel nx o p) (i : ι) (y : List (MaskedRow o)) (w : World ι nx cut.nsigma put.nsigma o p) :
    Py (Nat × World ι nx cut.nsigma put.nsigma o p) := do
  let w ← w.run put cut model (onFilter i (hessianCalls y))
  return ((w.obj i).ref .d2L, w)

end Ceacoest.KHeap
