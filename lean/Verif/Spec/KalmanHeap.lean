import Verif.Model.KalmanHeap

/-! # What filters in memory should compute: what they compute as values -/

namespace Ceacoest.KHeap

variable {ι : Type} {nx : Nat} {o p : Type} [LinearOrder o] {put cut : UT nx}

/-- Every filter's arrays exist. -/
def Valid (w : World ι nx cut.nsigma put.nsigma o p) : Prop := ∀ i a, (w.obj i).ref a < (w.mem a).next

/-- The filters `i` and `j` have no array in common. -/
def Apart (w : World ι nx cut.nsigma put.nsigma o p) (i j : ι) : Prop := ∀ a, (w.obj i).ref a ≠ (w.obj j).ref a

/-- The calls on the filter `i`, in a sequence of calls. -/
def callsOf [DecidableEq ι] (i : ι) (es : List (ι × Call o)) : List (Call o) := es.filterMap fun e => if e.1 = i then some e.2 else none

variable [Fintype o]

/-- The calls in order, as values. -/
noncomputable def runs (put cut : UT nx) (model : KModel nx o p) (cs : List (Call o)) (s : UKF nx cut.nsigma put.nsigma o p) :
    Py (UKF nx cut.nsigma put.nsigma o p) := cs.foldlM (fun s c => c.run put cut model s) s

/-- The claim in full: a gradient does not depend on gradients that were computed with other filters before it. -/
def Independent : Prop := ∀ (ι : Type) [DecidableEq ι] (nx : Nat) (o p : Type) [LinearOrder o] [Fintype o] (put cut : UT nx) (model : KModel nx o p) (i j : ι)
  (y : List (MaskedRow o)) (w w₁ w₂ : World ι nx cut.nsigma put.nsigma o p) (r₁ r₂ : Nat), i ≠ j → Valid w →
    w.pemGradient put cut model i y = .ok (r₁, w₁) → w₁.pemGradient put cut model j y = .ok (r₂, w₂) →
      ∃ s, (UKF.cls put cut model).pemGradient y (w.filter j) = .ok ((w₂.mem .dL).data r₂, s)

end Ceacoest.KHeap
