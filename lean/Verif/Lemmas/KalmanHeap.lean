import Verif.Spec.KalmanHeap
import Verif.Lemmas.KalmanLoops

/-! # Lemmas on filters in memory -/

namespace Ceacoest.KHeap
open Matrix

variable {ι : Type} [DecidableEq ι] {nx : Nat} {o p : Type} [LinearOrder o] [Fintype o] {put cut : UT nx} {model : KModel nx o p}

theorem derivs_load {ns ns' : Nat} (m : Mem nx p) (f : Obj nx ns ns' o p) (a : DAttr) : derivs (load m f) a = (m a).data (f.ref a) := by
  cases a <;> rfl

theorem load_eq {ns ns' : Nat} {m : Mem nx p} {f : Obj nx ns ns' o p} {v1 : p → ℝ} {v2 : p → p → ℝ} {v3 : p → Fin nx → ℝ} {v4 : p → Matrix (Fin nx) (Fin nx) ℝ}
    {v5 : p → p → Fin nx → ℝ} {v6 : p → p → Matrix (Fin nx) (Fin nx) ℝ} (h1 : (m .dL).data (f.ref .dL) = v1) (h2 : (m .d2L).data (f.ref .d2L) = v2)
    (h3 : (m .dx).data (f.ref .dx) = v3) (h4 : (m .dPx).data (f.ref .dPx) = v4) (h5 : (m .d2x).data (f.ref .d2x) = v5) (h6 : (m .d2Px).data (f.ref .d2Px) = v6) :
    load m f = { f.rest with dL_dq := v1, d2L_dq2 := v2, dx_dq := v3, dPx_dq := v4, d2x_dq2 := v5, d2Px_dq2 := v6 } := by
  subst h1 h2 h3 h4 h5 h6
  rfl

/-- A method changes only the attributes that `effect` says. -/
theorem untouched {c : Call o} {s s' : UKF nx cut.nsigma put.nsigma o p} (h : c.run put cut model s = .ok s') {a : DAttr}
    (ha : c.effect a = .untouched) : derivs s' a = derivs s a := by
  cases c with
  | correct y =>
    obtain ⟨⟨m, t⟩, h1, h2⟩ := py_bind_eq_ok h
    cases h2
    unfold UKF.correct at h1
    split at h1
    · cases h1; cases a <;> rfl
    · obtain ⟨⟨m', d⟩, -, h2⟩ := py_bind_eq_ok h1
      cases h2
      cases a <;> rfl
  | predict =>
    obtain ⟨⟨m, t⟩, h1, h2⟩ := py_bind_eq_ok h
    cases h2
    obtain ⟨d, -, h2⟩ := py_bind_eq_ok h1
    cases h2
    cases a <;> rfl
  | correctionDiff =>
    have h : UKF.correctionDiff cut model s = .ok s' := h
    unfold UKF.correctionDiff at h
    split at h
    · cases h
    · cases h; rfl
    · obtain ⟨⟨c, dx, dP⟩, -, h2⟩ := py_bind_eq_ok h
      cases h2
      cases a <;> first | rfl | cases ha
  | correctionDiff2 =>
    have h : UKF.correctionDiff2 cut model s = .ok s' := h
    unfold UKF.correctionDiff2 at h
    split at h
    · cases h
    · cases h; rfl
    · split at h
      · cases h
      · cases h
        cases a <;> first | rfl | cases ha
  | updateLikelihood =>
    have h : UKF.updateLikelihood s = .ok s' := h
    unfold UKF.updateLikelihood at h
    split at h
    · cases h
    · cases h; rfl
    · cases h
      cases a <;> rfl
  | likelihoodDiff =>
    have h : UKF.likelihoodDiff s = .ok s' := h
    unfold UKF.likelihoodDiff at h
    split at h
    · cases h
    · cases h; rfl
    · split at h
      · obtain ⟨ch, -, h2⟩ := py_bind_eq_ok h
        cases h2
        cases a <;> first | rfl | cases ha
      · cases h
  | likelihoodDiff2 =>
    have h : UKF.likelihoodDiff2 s = .ok s' := h
    unfold UKF.likelihoodDiff2 at h
    split at h
    · cases h
    · cases h; rfl
    · split at h
      · cases h
        cases a <;> first | rfl | cases ha
      · cases h
  | predictionDiff =>
    have h : UKF.predictionDiff put model s = .ok s' := h
    unfold UKF.predictionDiff at h
    split at h
    · cases h
    · obtain ⟨dd, -, h2⟩ := py_bind_eq_ok h
      cases h2
      cases a <;> first | rfl | cases ha
  | predictionDiff2 =>
    have h : UKF.predictionDiff2 put model s = .ok s' := h
    unfold UKF.predictionDiff2 at h
    split at h
    · cases h
    · split at h
      · cases h
      · cases h
        cases a <;> first | rfl | cases ha

variable {w w' : World ι nx cut.nsigma put.nsigma o p}

/-- What a call does, part by part. -/
theorem step_ok {i : ι} {c : Call o} : w.step put cut model (i, c) = .ok w' ↔ ∃ s, c.run put cut model (w.filter i) = .ok s ∧
    w' = ⟨fun a => ((w.mem a).apply ((w.obj i).ref a) (derivs s a) (c.effect a)).1,
      Function.update w.obj i ⟨s, fun a => ((w.mem a).apply ((w.obj i).ref a) (derivs s a) (c.effect a)).2⟩⟩ := by
  unfold World.step call
  dsimp only
  change (Except.bind (Except.bind (c.run put cut model (w.filter i)) _) _) = _ ↔ _
  cases h : c.run put cut model (w.filter i) with
  | error e =>
    constructor
    · intro h; cases h
    · rintro ⟨s, h, -⟩; cases h
  | ok s =>
    constructor
    · intro h
      cases h
      exact ⟨s, rfl, rfl⟩
    · rintro ⟨s', h, rfl⟩
      cases h
      rfl

theorem step_mem {i : ι} {c : Call o} (h : w.step put cut model (i, c) = .ok w') (a : DAttr) :
    (w.mem a).next ≤ (w'.mem a).next ∧ ∀ r < (w.mem a).next, r ≠ (w.obj i).ref a → (w'.mem a).data r = (w.mem a).data r := by
  obtain ⟨s, -, rfl⟩ := step_ok.1 h
  dsimp only
  cases c.effect a with
  | untouched => exact ⟨le_refl _, fun _ _ _ => rfl⟩
  | inPlace => exact ⟨le_refl _, fun r _ hr => Function.update_of_ne hr _ _⟩
  | rebind => exact ⟨Nat.le_succ _, fun r hr _ => Function.update_of_ne hr.ne _ _⟩

theorem step_self {i : ι} {c : Call o} (h : w.step put cut model (i, c) = .ok w') : c.run put cut model (w.filter i) = .ok (w'.filter i) := by
  obtain ⟨s, hs, rfl⟩ := step_ok.1 h
  rw [hs]
  congr 1
  have hd : ∀ a, (((w.mem a).apply ((w.obj i).ref a) (derivs s a) (c.effect a)).1.data
      ((w.mem a).apply ((w.obj i).ref a) (derivs s a) (c.effect a)).2) = derivs s a := by
    intro a
    cases ha : c.effect a with
    | untouched =>
      rw [untouched hs ha]
      exact (derivs_load _ _ a).symm
    | inPlace => exact Function.update_self _ _ _
    | rebind => exact Function.update_self _ _ _
  unfold World.filter load
  simp only [Function.update_self]
  rw [funext hd]
  rfl

theorem step_obj {i j : ι} {c : Call o} (h : w.step put cut model (i, c) = .ok w') (hj : j ≠ i) : w'.obj j = w.obj j := by
  obtain ⟨s, -, rfl⟩ := step_ok.1 h
  exact Function.update_of_ne hj _ _

/-- The array of an attribute after a call. -/
theorem step_ref {i : ι} {c : Call o} (h : w.step put cut model (i, c) = .ok w') (a : DAttr) :
    ((w'.obj i).ref a = (w.obj i).ref a ∧ c.effect a ≠ .rebind) ∨ ((w'.obj i).ref a = (w.mem a).next ∧ c.effect a = .rebind ∧ (w'.mem a).next = (w.mem a).next + 1) := by
  obtain ⟨s, -, rfl⟩ := step_ok.1 h
  simp only [Function.update_self]
  cases c.effect a with
  | untouched => exact Or.inl ⟨rfl, fun h => by cases h⟩
  | inPlace => exact Or.inl ⟨rfl, fun h => by cases h⟩
  | rebind => exact Or.inr ⟨rfl, rfl, rfl⟩

theorem step_valid {e : ι × Call o} (h : w.step put cut model e = .ok w') (hv : Valid w) : Valid w' := by
  intro j a
  obtain ⟨i, c⟩ := e
  have hn := (step_mem h a).1
  by_cases hj : j = i
  · subst hj
    rcases step_ref h a with ⟨h1, -⟩ | ⟨h1, -, h2⟩
    · rw [h1]
      exact (hv j a).trans_le hn
    · omega
  · rw [step_obj h hj]
    exact (hv j a).trans_le hn

theorem step_apart {e : ι × Call o} (h : w.step put cut model e = .ok w') (hv : Valid w) {i j : ι} (hij : Apart w i j) : Apart w' i j := by
  intro a
  obtain ⟨k, c⟩ := e
  have hne : i ≠ j := fun h => hij a (by rw [h])
  by_cases hi : i = k
  · subst hi
    rw [step_obj h hne.symm]
    rcases step_ref h a with ⟨h1, -⟩ | ⟨h1, -, h2⟩
    · rw [h1]; exact hij a
    · rw [h1]; exact (hv j a).ne'
  · rw [step_obj h hi]
    by_cases hj : j = k
    · subst hj
      rcases step_ref h a with ⟨h1, -⟩ | ⟨h1, -, h2⟩
      · rw [h1]; exact hij a
      · rw [h1]; exact (hv i a).ne
    · rw [step_obj h hj]; exact hij a

theorem step_other {i j : ι} {c : Call o} (h : w.step put cut model (j, c) = .ok w') (hv : Valid w) (hij : Apart w i j) : w'.filter i = w.filter i := by
  by_cases hi : i = j
  · exact absurd rfl (hi ▸ hij DAttr.dL)
  · unfold World.filter load
    rw [step_obj h hi]
    congr 1
    funext a
    exact (step_mem h a).2 _ (hv i a) (hij a)

theorem runs_cons {c : Call o} {cs : List (Call o)} {s : UKF nx cut.nsigma put.nsigma o p} :
    runs put cut model (c :: cs) s = (c.run put cut model s).bind (runs put cut model cs) := rfl

theorem runs_append {cs ds : List (Call o)} {s : UKF nx cut.nsigma put.nsigma o p} :
    runs put cut model (cs ++ ds) s = (runs put cut model cs s).bind (runs put cut model ds) := List.foldlM_append ..

theorem run_cons {e : ι × Call o} {es : List (ι × Call o)} : w.run put cut model (e :: es) = (w.step put cut model e).bind fun w => w.run put cut model es := rfl

theorem run_append {es fs : List (ι × Call o)} : w.run put cut model (es ++ fs) = (w.run put cut model es).bind fun w => w.run put cut model fs :=
  List.foldlM_append ..

theorem run_cons_ok {e : ι × Call o} {es : List (ι × Call o)} (h : w.run put cut model (e :: es) = .ok w') :
    ∃ w₁, w.step put cut model e = .ok w₁ ∧ w₁.run put cut model es = .ok w' := by
  rw [run_cons] at h
  exact py_bind_eq_ok h

theorem run_append_ok {es fs : List (ι × Call o)} (h : w.run put cut model (es ++ fs) = .ok w') :
    ∃ w₁, w.run put cut model es = .ok w₁ ∧ w₁.run put cut model fs = .ok w' := by
  rw [run_append] at h
  exact py_bind_eq_ok h

theorem run_valid {es : List (ι × Call o)} (h : w.run put cut model es = .ok w') (hv : Valid w) : Valid w' := by
  induction es generalizing w with
  | nil => cases h; exact hv
  | cons e es ih =>
    obtain ⟨w₁, h1, h2⟩ := run_cons_ok h
    exact ih h2 (step_valid h1 hv)

theorem run_apart {es : List (ι × Call o)} (h : w.run put cut model es = .ok w') (hv : Valid w) {i j : ι} (hij : Apart w i j) : Apart w' i j := by
  induction es generalizing w with
  | nil => cases h; exact hij
  | cons e es ih =>
    obtain ⟨w₁, h1, h2⟩ := run_cons_ok h
    exact ih h2 (step_valid h1 hv) (step_apart h1 hv hij)

/-- Calls on one filter only: no array of another filter needs to be apart. -/
theorem run_alone {i : ι} {cs : List (Call o)} (h : w.run put cut model (onFilter i cs) = .ok w') :
    runs put cut model cs (w.filter i) = .ok (w'.filter i) ∧ ∀ j, j ≠ i → w'.obj j = w.obj j := by
  induction cs generalizing w with
  | nil => cases h; exact ⟨rfl, fun _ _ => rfl⟩
  | cons c cs ih =>
    obtain ⟨w₁, h1, h2⟩ := run_cons_ok h
    obtain ⟨h3, h4⟩ := ih h2
    refine ⟨?_, fun j hj => (h4 j hj).trans (step_obj h1 hj)⟩
    rw [runs_cons, step_self h1]
    exact h3

/-- If the values can be computed, so can the calls. -/
theorem run_alone_of {i : ι} {cs : List (Call o)} {s : UKF nx cut.nsigma put.nsigma o p} (h : runs put cut model cs (w.filter i) = .ok s) :
    ∃ w', w.run put cut model (onFilter i cs) = .ok w' := by
  induction cs generalizing w with
  | nil => exact ⟨w, rfl⟩
  | cons c cs ih =>
    rw [runs_cons] at h
    obtain ⟨s₁, h1, h2⟩ := py_bind_eq_ok h
    have hs := step_ok.2 ⟨s₁, h1, rfl⟩
    have h3 := step_self hs
    rw [h1] at h3
    rw [Except.ok.inj h3] at h2
    obtain ⟨w', hw⟩ := ih h2
    exact ⟨w', by
      change w.run put cut model ((i, c) :: onFilter i cs) = _
      rw [run_cons, hs]
      exact hw⟩

/-- Arrays that the filter does not hold keep their values. -/
theorem run_frame {i : ι} {cs : List (Call o)} (h : w.run put cut model (onFilter i cs) = .ok w') (a : DAttr) :
    (w.mem a).next ≤ (w'.mem a).next ∧ ((w'.obj i).ref a = (w.obj i).ref a ∨ (w.mem a).next ≤ (w'.obj i).ref a) ∧
      ∀ r < (w.mem a).next, r ≠ (w.obj i).ref a → (w'.mem a).data r = (w.mem a).data r := by
  induction cs generalizing w with
  | nil => cases h; exact ⟨le_refl _, Or.inl rfl, fun _ _ _ => rfl⟩
  | cons c cs ih =>
    obtain ⟨w₁, h1, h2⟩ := run_cons_ok h
    obtain ⟨i1, i2, i3⟩ := ih h2
    obtain ⟨s1, s2⟩ := step_mem h1 a
    refine ⟨s1.trans i1, ?_, fun r hr hne => ?_⟩
    · rcases step_ref h1 a with ⟨e1, -⟩ | ⟨e1, -, -⟩
      · rw [e1] at i2
        exact i2.imp id s1.trans
      · right
        rcases i2 with e | e
        · rw [e, e1]
        · exact s1.trans e
    · rw [i3 r (hr.trans_le s1) ?_, s2 r hr hne]
      rcases step_ref h1 a with ⟨e1, -⟩ | ⟨e1, -, -⟩
      · rwa [e1]
      · rw [e1]; exact hr.ne

/-- Calls that do not change an attribute leave its array. -/
theorem run_keep {i : ι} {cs : List (Call o)} (h : w.run put cut model (onFilter i cs) = .ok w') {a : DAttr} (hc : ∀ c ∈ cs, c.effect a ≠ .rebind) :
    (w'.obj i).ref a = (w.obj i).ref a := by
  induction cs generalizing w with
  | nil => cases h; rfl
  | cons c cs ih =>
    obtain ⟨w₁, h1, h2⟩ := run_cons_ok h
    rw [ih h2 fun d hd => hc d (List.mem_cons_of_mem _ hd)]
    rcases step_ref h1 a with ⟨e1, -⟩ | ⟨-, e1, -⟩
    · exact e1
    · exact absurd e1 (hc c List.mem_cons_self)

/-- Calls that end with a new array for an attribute. -/
theorem run_fresh {i : ι} {c : Call o} (h : w.step put cut model (i, c) = .ok w') {a : DAttr} (ha : c.effect a = .rebind) :
    (w'.obj i).ref a = (w.mem a).next := by
  rcases step_ref h a with ⟨-, e1⟩ | ⟨e1, -, -⟩
  · exact absurd ha e1
  · exact e1

theorem data_ref {ns ns' : Nat} (w : World ι nx ns ns' o p) (i : ι) (a : DAttr) : (w.mem a).data ((w.obj i).ref a) = derivs (w.filter i) a :=
  (derivs_load _ _ a).symm

theorem callsOf_self (i : ι) (c : Call o) (es : List (ι × Call o)) : callsOf i ((i, c) :: es) = c :: callsOf i es := by
  simp [callsOf]

theorem callsOf_ne {i j : ι} (h : j ≠ i) (c : Call o) (es : List (ι × Call o)) : callsOf i ((j, c) :: es) = callsOf i es := by
  simp [callsOf, h]

theorem row_mid {Y : Type} (pre : List Y) (y : Y) (ys : List Y) : FilterClass.row (pre ++ y :: ys) pre.length = .ok y := by
  unfold FilterClass.row
  simp

theorem gradient_step (pre ys : List (MaskedRow o)) (y : MaskedRow o) (s : UKF nx cut.nsigma put.nsigma o p) :
    (UKF.cls put cut model).gradientStep (pre ++ y :: ys) s pre.length = match ys with
      | [] => runs put cut model ([.correct y, .correctionDiff, .updateLikelihood, .likelihoodDiff]) s
      | _ :: _ => runs put cut model ([.correct y, .correctionDiff, .updateLikelihood, .likelihoodDiff, .predict, .predictionDiff]) s := by
  unfold FilterClass.gradientStep
  rw [row_mid]
  cases ys with
  | nil =>
    have h : ¬pre.length < (pre ++ [y]).length - 1 := by simp
    simp only [py_bind_ok, if_neg h, runs, List.foldlM_cons, List.foldlM_nil, Call.run, bind_assoc, pure_bind, bind_pure, UKF.cls]
  | cons y' ys =>
    have h : pre.length < (pre ++ y :: y' :: ys).length - 1 := by simp
    simp only [py_bind_ok, if_pos h, runs, List.foldlM_cons, List.foldlM_nil, Call.run, bind_assoc, pure_bind, bind_pure, UKF.cls]

theorem gradient_fold (ys pre : List (MaskedRow o)) (s : UKF nx cut.nsigma put.nsigma o p) :
    (List.range' pre.length ys.length).foldlM ((UKF.cls put cut model).gradientStep (pre ++ ys)) s = runs put cut model (gradientCalls ys) s := by
  induction ys generalizing pre s with
  | nil => rfl
  | cons y ys ih =>
    rw [List.length_cons, List.range'_succ, List.foldlM_cons, gradient_step]
    have ih' := fun s => ih (pre ++ [y]) s
    simp only [List.append_assoc, List.singleton_append, List.length_append, List.length_singleton] at ih'
    cases ys with
    | nil => exact bind_pure _
    | cons y' ys =>
      simp only [ih']
      exact runs_append.symm

theorem hessian_step (pre ys : List (MaskedRow o)) (y : MaskedRow o) (s : UKF nx cut.nsigma put.nsigma o p) :
    (UKF.cls put cut model).hessianStep (pre ++ y :: ys) s pre.length = match ys with
      | [] => runs put cut model ([.correct y, .correctionDiff, .correctionDiff2, .updateLikelihood, .likelihoodDiff, .likelihoodDiff2]) s
      | _ :: _ => runs put cut model ([.correct y, .correctionDiff, .correctionDiff2, .updateLikelihood, .likelihoodDiff, .likelihoodDiff2, .predict, .predictionDiff,
        .predictionDiff2]) s := by
  unfold FilterClass.hessianStep
  rw [row_mid]
  cases ys with
  | nil =>
    have h : ¬pre.length < (pre ++ [y]).length - 1 := by simp
    simp only [py_bind_ok, if_neg h, runs, List.foldlM_cons, List.foldlM_nil, Call.run, bind_assoc, pure_bind, bind_pure, UKF.cls]
  | cons y' ys =>
    have h : pre.length < (pre ++ y :: y' :: ys).length - 1 := by simp
    simp only [py_bind_ok, if_pos h, runs, List.foldlM_cons, List.foldlM_nil, Call.run, bind_assoc, pure_bind, bind_pure, UKF.cls]

theorem hessian_fold (ys pre : List (MaskedRow o)) (s : UKF nx cut.nsigma put.nsigma o p) :
    (List.range' pre.length ys.length).foldlM ((UKF.cls put cut model).hessianStep (pre ++ ys)) s = runs put cut model (hessianCalls ys) s := by
  induction ys generalizing pre s with
  | nil => rfl
  | cons y ys ih =>
    rw [List.length_cons, List.range'_succ, List.foldlM_cons, hessian_step]
    have ih' := fun s => ih (pre ++ [y]) s
    simp only [List.append_assoc, List.singleton_append, List.length_append, List.length_singleton] at ih'
    cases ys with
    | nil => exact bind_pure _
    | cons y' ys =>
      simp only [ih']
      exact runs_append.symm

/-- The loops of `pem_gradient` and `pem_hessian` make these calls. -/
theorem gradient_runs (y : List (MaskedRow o)) (s : UKF nx cut.nsigma put.nsigma o p) :
    (UKF.cls put cut model).pemGradient y s = (do let s ← runs put cut model (gradientCalls y) s; return (s.dL_dq, s)) := by
  unfold FilterClass.pemGradient
  rw [List.range_eq_range', ← gradient_fold y [] s]
  rfl

theorem hessian_runs (y : List (MaskedRow o)) (s : UKF nx cut.nsigma put.nsigma o p) :
    (UKF.cls put cut model).pemHessian y s = (do let s ← runs put cut model (hessianCalls y) s; return (s.d2L_dq2, s)) := by
  unfold FilterClass.pemHessian
  rw [List.range_eq_range', ← hessian_fold y [] s]
  rfl

/-- The array that held an attribute at first, after calls `A` that keep it and calls `B` that do not change it any more. -/
theorem run_cell {i : ι} {A B : List (Call o)} {a : DAttr} (hv : Valid w) (h : w.run put cut model (onFilter i (A ++ B)) = .ok w')
    (hA : ∀ c ∈ A, c.effect a ≠ .rebind)
    (hB : (∀ c ∈ B, c.effect a = .untouched) ∨ ∃ C c D, B = C ++ c :: D ∧ (∀ c ∈ C, c.effect a = .untouched) ∧ c.effect a = .rebind) :
    ∃ s, runs put cut model A (w.filter i) = .ok s ∧ (w'.mem a).data ((w.obj i).ref a) = derivs s a := by
  unfold onFilter at h
  rw [List.map_append] at h
  obtain ⟨w₁, h1, h2⟩ := run_append_ok h
  have hv₁ := run_valid h1 hv
  have e1 := run_alone h1
  refine ⟨_, e1.1, ?_⟩
  rw [← data_ref w₁ i a, run_keep h1 hA]
  have same : ∀ {C : List (Call o)} {v v' : World ι nx cut.nsigma put.nsigma o p}, v.run put cut model (onFilter i C) = .ok v' → (∀ c ∈ C, c.effect a = .untouched) →
      v'.mem a = v.mem a ∧ (v'.obj i).ref a = (v.obj i).ref a := by
    intro C
    induction C with
    | nil => intro v v' h _; cases h; exact ⟨rfl, rfl⟩
    | cons c C ih =>
      intro v v' h hC
      obtain ⟨v₁, h1, h2⟩ := run_cons_ok h
      obtain ⟨i1, i2⟩ := ih h2 fun d hd => hC d (List.mem_cons_of_mem _ hd)
      obtain ⟨s, -, rfl⟩ := step_ok.1 h1
      dsimp only at i1 i2
      rw [i1, i2, Function.update_self]
      dsimp only
      rw [hC c List.mem_cons_self]
      exact ⟨rfl, rfl⟩
  rcases hB with hB | ⟨C, c, D, rfl, hC, hc⟩
  · rw [(same h2 hB).1]
  · rw [List.map_append] at h2
    obtain ⟨w₂, h3, h4⟩ := run_append_ok h2
    obtain ⟨w₃, h5, h6⟩ := run_cons_ok h4
    obtain ⟨m1, m2⟩ := same h3 hC
    have lt : (w.obj i).ref a < (w₂.mem a).next := by
      rw [m1, ← run_keep h1 hA]
      exact hv₁ i a
    have new := run_fresh h5 hc
    have s1 := (step_mem h5 a).1
    rw [(run_frame h6 a).2.2 _ (lt.trans_le s1) (by rw [new]; exact lt.ne)]
    obtain ⟨s, -, rfl⟩ := step_ok.1 h5
    dsimp only
    rw [hc]
    refine (Function.update_of_ne lt.ne _ _).trans ?_
    rw [m1]

end Ceacoest.KHeap
