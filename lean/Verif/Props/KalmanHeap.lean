import Verif.Lemmas.KalmanHeapDemo

/-! # C85: derivatives in arrays that are changed in place -/

namespace Ceacoest.KHeap
open Matrix

variable {ι : Type} [DecidableEq ι] {nx : Nat} {o p : Type} [LinearOrder o] [Fintype o] {put cut : UT nx} {model : KModel nx o p} {w w' : World ι nx cut.nsigma put.nsigma o p}

/-- What filters compute without arrays in common: whatever calls on other filters come between, the calls on the filter `i` compute what they do as
values.  Missing for the claim in full: filters with arrays in common (`C85_shared`, `C85_not`). -/
theorem C85_apart_partial {i : ι} {es : List (ι × Call o)} (hv : Valid w) (ha : ∀ j, j ≠ i → Apart w i j) (h : w.run put cut model es = .ok w') :
    runs put cut model (callsOf i es) (w.filter i) = .ok (w'.filter i) := by
  induction es generalizing w with
  | nil => cases h; rfl
  | cons e es ih =>
    obtain ⟨w₁, h1, h2⟩ := run_cons_ok h
    have hv₁ := step_valid h1 hv
    have ih' := ih hv₁ (fun j hj => step_apart h1 hv (ha j hj)) h2
    obtain ⟨j, c⟩ := e
    by_cases hj : j = i
    · subst hj
      rw [callsOf_self, runs_cons, step_self h1]
      exact ih'
    · rw [callsOf_ne hj, ← step_other h1 hv (ha j hj)]
      exact ih'

/-- And if these can be computed for each filter, so can all the calls in their order. -/
theorem C85_apart_returns {es : List (ι × Call o)} (hv : Valid w) (ha : ∀ i j, i ≠ j → Apart w i j)
    (h : ∀ i, ∃ s, runs put cut model (callsOf i es) (w.filter i) = .ok s) : ∃ w', w.run put cut model es = .ok w' := by
  induction es generalizing w with
  | nil => exact ⟨w, rfl⟩
  | cons e es ih =>
    obtain ⟨i, c⟩ := e
    obtain ⟨s, hs⟩ := h i
    rw [callsOf_self, runs_cons] at hs
    obtain ⟨s₁, h1, h2⟩ := py_bind_eq_ok hs
    have st := step_ok.2 ⟨s₁, h1, rfl⟩
    have hs₁ := step_self st
    rw [h1] at hs₁
    rw [Except.ok.inj hs₁] at h2
    obtain ⟨w', hw⟩ := ih (step_valid st hv) (fun i j hij => step_apart st hv (ha i j hij)) fun j => by
      by_cases hj : i = j
      · subst hj
        exact ⟨s, h2⟩
      · rw [step_other st hv (ha j i (Ne.symm hj))]
        obtain ⟨t, ht⟩ := h j
        rw [callsOf_ne hj] at ht
        exact ⟨t, ht⟩
    refine ⟨w', ?_⟩
    rw [run_cons, st]
    exact hw

/-- A filter alone: `pem_gradient` returns the array that was `dL_dq` before, which now holds the gradient. -/
theorem C85_gradient {i : ι} {r : Nat} {y : List (MaskedRow o)} (h : w.pemGradient put cut model i y = .ok (r, w')) :
    (UKF.cls put cut model).pemGradient y (w.filter i) = .ok ((w'.mem .dL).data r, w'.filter i) ∧ r = (w.obj i).ref .dL ∧ r = (w'.obj i).ref .dL := by
  obtain ⟨w₁, h1, h2⟩ := py_bind_eq_ok h
  cases h2
  refine ⟨?_, run_keep h1 fun c _ => ?_, rfl⟩
  · rw [gradient_runs, (run_alone h1).1]
    simp only [py_bind_ok, py_pure]
    rw [data_ref]
    rfl
  · cases c <;> intro h <;> cases h

/-- Likewise `pem_hessian`. -/
theorem C85_hessian {i : ι} {r : Nat} {y : List (MaskedRow o)} (h : w.pemHessian put cut model i y = .ok (r, w')) :
    (UKF.cls put cut model).pemHessian y (w.filter i) = .ok ((w'.mem .d2L).data r, w'.filter i) ∧ r = (w.obj i).ref .d2L ∧ r = (w'.obj i).ref .d2L := by
  obtain ⟨w₁, h1, h2⟩ := py_bind_eq_ok h
  cases h2
  refine ⟨?_, run_keep h1 fun c _ => ?_, rfl⟩
  · rw [hessian_runs, (run_alone h1).1]
    simp only [py_bind_ok, py_pure]
    rw [data_ref]
    rfl
  · cases c <;> intro h <;> cases h

/-- They return if the calculation with values does. -/
theorem C85_returns (i : ι) (y : List (MaskedRow o)) :
    (∀ g s, (UKF.cls put cut model).pemGradient y (w.filter i) = .ok (g, s) → ∃ r w', w.pemGradient put cut model i y = .ok (r, w')) ∧
      ∀ g s, (UKF.cls put cut model).pemHessian y (w.filter i) = .ok (g, s) → ∃ r w', w.pemHessian put cut model i y = .ok (r, w') := by
  refine ⟨fun g s h => ?_, fun g s h => ?_⟩
  · rw [gradient_runs] at h
    obtain ⟨s', h1, -⟩ := py_bind_eq_ok h
    obtain ⟨w', hw⟩ := run_alone_of h1
    refine ⟨(w'.obj i).ref .dL, w', ?_⟩
    unfold World.pemGradient
    rw [hw]
    rfl
  · rw [hessian_runs] at h
    obtain ⟨s', h1, -⟩ := py_bind_eq_ok h
    obtain ⟨w', hw⟩ := run_alone_of h1
    refine ⟨(w'.obj i).ref .d2L, w', ?_⟩
    unfold World.pemHessian
    rw [hw]
    rfl

theorem runs_first {y : MaskedRow o} {s s' : UKF nx cut.nsigma put.nsigma o p} (h : runs put cut model [.correct y, .correctionDiff] s = .ok s') :
    ∃ m s₀, UKF.correct cut model y s = .ok (m, s₀) ∧ UKF.correctionDiff cut model s₀ = .ok s' := by
  rw [runs_cons] at h
  obtain ⟨t, h1, h2⟩ := py_bind_eq_ok h
  obtain ⟨⟨m, s₀⟩, h3, h4⟩ := py_bind_eq_ok h1
  cases h4
  rw [runs_cons] at h2
  obtain ⟨t, h5, h6⟩ := py_bind_eq_ok h2
  cases h6
  exact ⟨m, s₀, h3, h5⟩

theorem runs_first2 {y : MaskedRow o} {s s' : UKF nx cut.nsigma put.nsigma o p} (h : runs put cut model [.correct y, .correctionDiff, .correctionDiff2] s = .ok s') :
    ∃ m s₀ s₁, UKF.correct cut model y s = .ok (m, s₀) ∧ UKF.correctionDiff cut model s₀ = .ok s₁ ∧ UKF.correctionDiff2 cut model s₁ = .ok s' := by
  have h' := (runs_append (put := put) (cut := cut) (model := model) (cs := [.correct y, .correctionDiff]) (ds := [.correctionDiff2]) (s := s)).symm.trans h
  obtain ⟨t, h1, h2⟩ := py_bind_eq_ok h'
  obtain ⟨m, s₀, h3, h4⟩ := runs_first h1
  rw [runs_cons] at h2
  obtain ⟨u, h5, h6⟩ := py_bind_eq_ok h2
  cases h6
  exact ⟨m, s₀, t, h3, h4, h5⟩

/-- The arrays that the filter held before `pem_gradient`: those of `dx_dq` and `dPx_dq` hold the derivatives after the first correction, all others
but `dL_dq` keep their values. -/
theorem C85_overwritten {i : ι} {r : Nat} {y : MaskedRow o} {ys : List (MaskedRow o)} (hv : Valid w) (h : w.pemGradient put cut model i (y :: ys) = .ok (r, w')) :
    ∃ m s₀ s₁, UKF.correct cut model y (w.filter i) = .ok (m, s₀) ∧ UKF.correctionDiff cut model s₀ = .ok s₁ ∧
      (w'.mem .dx).data ((w.obj i).ref .dx) = s₁.dx_dq ∧ (w'.mem .dPx).data ((w.obj i).ref .dPx) = s₁.dPx_dq ∧
      (∀ a, a = .d2L ∨ a = .d2x ∨ a = .d2Px → (w'.mem a).data ((w.obj i).ref a) = (w.mem a).data ((w.obj i).ref a)) ∧
      ∀ a k, k < (w.mem a).next → k ≠ (w.obj i).ref a → (w'.mem a).data k = (w.mem a).data k := by
  obtain ⟨w₁, h1, h2⟩ := py_bind_eq_ok h
  cases h2
  have shape : ∀ a : DAttr, a = .dx ∨ a = .dPx → ∃ s, runs put cut model [.correct y, .correctionDiff] (w.filter i) = .ok s ∧
      (w'.mem a).data ((w.obj i).ref a) = derivs s a := by
    intro a ha
    have hA : ∀ c ∈ [Call.correct y, .correctionDiff], c.effect a ≠ .rebind := by
      intro c hc
      simp only [List.mem_cons, List.not_mem_nil, or_false] at hc
      rcases hc with rfl | rfl <;> rcases ha with rfl | rfl <;> intro h <;> cases h
    cases ys with
    | nil =>
      refine run_cell (B := [.updateLikelihood, .likelihoodDiff]) hv h1 hA (Or.inl ?_)
      intro c hc
      simp only [List.mem_cons, List.not_mem_nil, or_false] at hc
      rcases hc with rfl | rfl <;> rcases ha with rfl | rfl <;> rfl
    | cons y' ys =>
      refine run_cell (B := [.updateLikelihood, .likelihoodDiff, .predict] ++ .predictionDiff :: gradientCalls (y' :: ys)) hv h1 hA
        (Or.inr ⟨_, _, _, rfl, ?_, ?_⟩)
      · intro c hc
        simp only [List.mem_cons, List.not_mem_nil, or_false] at hc
        rcases hc with rfl | rfl | rfl <;> rcases ha with rfl | rfl <;> rfl
      · rcases ha with rfl | rfl <;> rfl
  obtain ⟨s, hs, e1⟩ := shape .dx (Or.inl rfl)
  obtain ⟨s', hs', e2⟩ := shape .dPx (Or.inr rfl)
  cases hs.symm.trans hs'
  obtain ⟨m, s₀, c1, c2⟩ := runs_first hs
  refine ⟨m, s₀, s, c1, c2, e1, e2, fun a ha => ?_, fun a k hk hne => (run_frame h1 a).2.2 k hk hne⟩
  have hB : ∀ c ∈ gradientCalls (y :: ys), c.effect a = .untouched := by
    have key : ∀ zs : List (MaskedRow o), ∀ c ∈ gradientCalls zs, c.effect a = .untouched := by
      intro zs
      induction zs with
      | nil => intro c hc; cases hc
      | cons z zs ih =>
        intro c hc
        cases zs with
        | nil =>
          simp only [gradientCalls, List.mem_cons, List.not_mem_nil, or_false] at hc
          rcases hc with rfl | rfl | rfl | rfl <;> rcases ha with rfl | rfl | rfl <;> rfl
        | cons z' zs =>
          simp only [gradientCalls, List.cons_append, List.nil_append, List.mem_cons] at hc
          rcases hc with rfl | rfl | rfl | rfl | rfl | rfl | hc
          iterate 6 (rcases ha with rfl | rfl | rfl <;> rfl)
          exact ih c hc
    exact key _
  obtain ⟨t, ht, e⟩ := run_cell (A := []) (B := gradientCalls (y :: ys)) hv h1 (fun c hc => by cases hc) (Or.inl hB)
  cases ht
  rw [e, ← data_ref]

/-- Likewise `pem_hessian`. -/
theorem C85_overwritten_hessian {i : ι} {r : Nat} {y : MaskedRow o} {ys : List (MaskedRow o)} (hv : Valid w) (h : w.pemHessian put cut model i (y :: ys) = .ok (r, w')) :
    ∃ m s₀ s₁ s₂, UKF.correct cut model y (w.filter i) = .ok (m, s₀) ∧ UKF.correctionDiff cut model s₀ = .ok s₁ ∧ UKF.correctionDiff2 cut model s₁ = .ok s₂ ∧
      (w'.mem .dx).data ((w.obj i).ref .dx) = s₂.dx_dq ∧ (w'.mem .dPx).data ((w.obj i).ref .dPx) = s₂.dPx_dq ∧
      (w'.mem .d2x).data ((w.obj i).ref .d2x) = s₂.d2x_dq2 ∧ (w'.mem .d2Px).data ((w.obj i).ref .d2Px) = s₂.d2Px_dq2 ∧
      ∀ a k, k < (w.mem a).next → k ≠ (w.obj i).ref a → (w'.mem a).data k = (w.mem a).data k := by
  obtain ⟨w₁, h1, h2⟩ := py_bind_eq_ok h
  cases h2
  have shape : ∀ a : DAttr, a = .dx ∨ a = .dPx ∨ a = .d2x ∨ a = .d2Px → ∃ s, runs put cut model [.correct y, .correctionDiff, .correctionDiff2] (w.filter i) = .ok s ∧
      (w'.mem a).data ((w.obj i).ref a) = derivs s a := by
    intro a ha
    have hA : ∀ c ∈ [Call.correct y, .correctionDiff, .correctionDiff2], c.effect a ≠ .rebind := by
      intro c hc
      simp only [List.mem_cons, List.not_mem_nil, or_false] at hc
      rcases hc with rfl | rfl | rfl <;> rcases ha with rfl | rfl | rfl | rfl <;> intro h <;> cases h
    cases ys with
    | nil =>
      refine run_cell (B := [.updateLikelihood, .likelihoodDiff, .likelihoodDiff2]) hv h1 hA (Or.inl ?_)
      intro c hc
      simp only [List.mem_cons, List.not_mem_nil, or_false] at hc
      rcases hc with rfl | rfl | rfl <;> rcases ha with rfl | rfl | rfl | rfl <;> rfl
    | cons y' ys =>
      by_cases h12 : a = .dx ∨ a = .dPx
      · refine run_cell (B := [.updateLikelihood, .likelihoodDiff, .likelihoodDiff2, .predict] ++ .predictionDiff :: (.predictionDiff2 :: hessianCalls (y' :: ys)))
          hv h1 hA (Or.inr ⟨_, _, _, rfl, ?_, ?_⟩)
        · intro c hc
          simp only [List.mem_cons, List.not_mem_nil, or_false] at hc
          rcases hc with rfl | rfl | rfl | rfl <;> rcases h12 with rfl | rfl <;> rfl
        · rcases h12 with rfl | rfl <;> rfl
      · have h34 : a = .d2x ∨ a = .d2Px := by
          rcases ha with h | h | h | h
          · exact absurd (Or.inl h) h12
          · exact absurd (Or.inr h) h12
          · exact Or.inl h
          · exact Or.inr h
        refine run_cell (B := [.updateLikelihood, .likelihoodDiff, .likelihoodDiff2, .predict, .predictionDiff] ++ .predictionDiff2 :: hessianCalls (y' :: ys))
          hv h1 hA (Or.inr ⟨_, _, _, rfl, ?_, ?_⟩)
        · intro c hc
          simp only [List.mem_cons, List.not_mem_nil, or_false] at hc
          rcases hc with rfl | rfl | rfl | rfl | rfl <;> rcases h34 with rfl | rfl <;> rfl
        · rcases h34 with rfl | rfl <;> rfl
  obtain ⟨s, hs, e1⟩ := shape .dx (Or.inl rfl)
  obtain ⟨s', hs', e2⟩ := shape .dPx (Or.inr (Or.inl rfl))
  cases hs.symm.trans hs'
  obtain ⟨s', hs', e3⟩ := shape .d2x (Or.inr (Or.inr (Or.inl rfl)))
  cases hs.symm.trans hs'
  obtain ⟨s', hs', e4⟩ := shape .d2Px (Or.inr (Or.inr (Or.inr rfl)))
  cases hs.symm.trans hs'
  obtain ⟨m, s₀, s₁, c1, c2, c3⟩ := runs_first2 hs
  exact ⟨m, s₀, s₁, s, c1, c2, c3, e1, e2, e3, e4, fun a k hk hne => (run_frame h1 a).2.2 k hk hne⟩

/-- If every output of the first sample is masked, the arrays keep their values. -/
theorem C85_first_masked {i : ι} {r : Nat} {y : MaskedRow o} {ys : List (MaskedRow o)} (hv : Valid w) (hy : ∀ j, y.mask j = true)
    (h : w.pemGradient put cut model i (y :: ys) = .ok (r, w')) (a : DAttr) (ha : a ≠ .dL) :
    (w'.mem a).data ((w.obj i).ref a) = (w.mem a).data ((w.obj i).ref a) := by
  obtain ⟨m, s₀, s₁, c1, c2, e1, e2, e3, -⟩ := C85_overwritten hv h
  rw [ukf_correct_masked model hy] at c1
  cases c1
  cases c2
  cases a with
  | dL => exact absurd rfl ha
  | dx => exact e1
  | dPx => exact e2
  | d2L => exact e3 _ (Or.inl rfl)
  | d2x => exact e3 _ (Or.inr (Or.inl rfl))
  | d2Px => exact e3 _ (Or.inr (Or.inr rfl))

/-- A second filter that was given the same arrays `dx_dq` and `dPx_dq`: its gradient starts from the derivatives after the first filter's first
correction. -/
theorem C85_shared {i j : ι} {r₁ r₂ : Nat} {y : MaskedRow o} {ys zs : List (MaskedRow o)} {w₁ w₂ : World ι nx cut.nsigma put.nsigma o p} (hij : i ≠ j) (hv : Valid w)
    (hx : (w.obj j).ref .dx = (w.obj i).ref .dx) (hP : (w.obj j).ref .dPx = (w.obj i).ref .dPx) (hL : (w.obj j).ref .dL ≠ (w.obj i).ref .dL)
    (h1 : w.pemGradient put cut model i (y :: ys) = .ok (r₁, w₁)) (h2 : w₁.pemGradient put cut model j zs = .ok (r₂, w₂)) :
    ∃ m s₀ s₁ s, UKF.correct cut model y (w.filter i) = .ok (m, s₀) ∧ UKF.correctionDiff cut model s₀ = .ok s₁ ∧
      (UKF.cls put cut model).pemGradient zs { w.filter j with dx_dq := s₁.dx_dq, dPx_dq := s₁.dPx_dq } = .ok ((w₂.mem .dL).data r₂, s) := by
  obtain ⟨m, s₀, s₁, c1, c2, e1, e2, e3, e4⟩ := C85_overwritten hv h1
  refine ⟨m, s₀, s₁, w₂.filter j, c1, c2, ?_⟩
  rw [← (C85_gradient h2).1]
  congr 1
  obtain ⟨v, h3, h4⟩ := py_bind_eq_ok h1
  cases h4
  have hobj := (run_alone h3).2 j hij.symm
  have key : ∀ a, (w₁.mem a).data ((w₁.obj j).ref a) = (w.mem a).data ((w.obj j).ref a) ∨ a = .dx ∨ a = .dPx := by
    intro a
    rw [hobj]
    by_cases hr : (w.obj j).ref a = (w.obj i).ref a
    · cases a with
      | dL => exact absurd hr hL
      | dx => exact Or.inr (Or.inl rfl)
      | dPx => exact Or.inr (Or.inr rfl)
      | d2L => left; rw [hr]; exact e3 _ (Or.inl rfl)
      | d2x => left; rw [hr]; exact e3 _ (Or.inr (Or.inl rfl))
      | d2Px => left; rw [hr]; exact e3 _ (Or.inr (Or.inr rfl))
    · exact Or.inl (e4 a _ (hv j a) hr)
  have k1 := (key .dL).resolve_right (by rintro (h | h) <;> cases h)
  have k2 := (key .d2L).resolve_right (by rintro (h | h) <;> cases h)
  have k3 := (key .d2x).resolve_right (by rintro (h | h) <;> cases h)
  have k4 := (key .d2Px).resolve_right (by rintro (h | h) <;> cases h)
  rw [← hx] at e1
  rw [← hP] at e2
  rw [hobj] at k1 k2 k3 k4
  refine Eq.symm ?_
  unfold World.filter
  rw [hobj]
  exact load_eq k1 k2 e1 e2 k3 k4

/-- The array that `pem_gradient` returned is the one that later calls of the same filter change: a result that was kept holds the later one. -/
theorem C85_returned {i : ι} {r₁ r₂ : Nat} {y z : List (MaskedRow o)} {w₁ w₂ : World ι nx cut.nsigma put.nsigma o p}
    (h1 : w.pemGradient put cut model i y = .ok (r₁, w₁)) (h2 : w₁.pemGradient put cut model i z = .ok (r₂, w₂)) :
    r₁ = r₂ ∧ ∃ s, (UKF.cls put cut model).pemGradient z (w₁.filter i) = .ok ((w₂.mem .dL).data r₁, s) := by
  obtain ⟨-, -, e1⟩ := C85_gradient h1
  obtain ⟨e2, e3, -⟩ := C85_gradient h2
  have : r₁ = r₂ := e1.trans e3.symm
  exact ⟨this, _, this ▸ e2⟩

/-- Two filters, with mean 0 and variance 1, that share the array of `dx_dq`, which holds 1, and have arrays of their own for the rest. -/
noncomputable def twins : World (Fin 2) 1 ut2.nsigma ut2.nsigma (Fin 1) (Fin 1) where
  mem a := ⟨fun _ => derivs (start 1 0) a, 2⟩
  obj i := ⟨start 0 0, fun a => if a = .dx then 0 else if i = 0 then 0 else 1⟩

theorem twins_valid : Valid (put := ut2) (cut := ut2) twins := by
  intro i a
  cases a <;> simp only [twins] <;> split_ifs <;> omega

theorem twins_filter (i : Fin 2) : twins.filter i = start 1 0 := rfl

theorem gradient_one (v c g : ℝ) : ∃ s, (UKF.cls ut2 ut2 walk).pemGradient [one v] (start c g) = .ok ((fun _ => g + c * v / 4), s) := by
  obtain ⟨s₁, s, h1, h2, -, -, h3⟩ := gradient_scalar v c g
  refine ⟨s, ?_⟩
  rw [gradient_runs]
  have e : runs ut2 ut2 walk (gradientCalls [one v]) (start c g) = .ok s :=
    ((runs_append (cs := [.correct (one v), .correctionDiff]) (ds := [.updateLikelihood, .likelihoodDiff])).trans (by rw [h1]; rfl)).trans h2
  rw [e, ← h3]
  rfl

/-- The claim in full fails: both filters start alike, the measurement is 4; the first gradient is 1, the second 3/4. -/
theorem C85_not : ¬Independent := by
  intro H
  obtain ⟨s, hs⟩ := gradient_one 4 1 0
  obtain ⟨r₁, w₁, h1⟩ := (C85_returns (w := twins) (put := ut2) (cut := ut2) (model := walk) 0 [one 4]).1 _ _ hs
  obtain ⟨m, s₀, s₁, c1, c2, e1, e2, e3, e4⟩ := C85_overwritten twins_valid h1
  obtain ⟨t₁, t, g1, -, g2, g3, -⟩ := gradient_scalar 4 1 0
  obtain ⟨m', s₀', c3, c4⟩ := runs_first g1
  cases c1.symm.trans c3
  cases c2.symm.trans c4
  have hobj : w₁.obj 1 = twins.obj 1 := by
    obtain ⟨v, h3, h4⟩ := py_bind_eq_ok h1
    cases h4
    exact (run_alone h3).2 1 (by decide)
  have hf : w₁.filter 1 = start (3 / 4) 0 := by
    unfold World.filter
    rw [hobj]
    have kdx : (w₁.mem .dx).data ((twins.obj 1).ref .dx) = fun _ _ => 3 / 4 := by
      refine e1.trans (g2.trans ?_)
      funext a b
      norm_num
    have k1 := e4 .dL 1 (by decide) (by decide)
    have k2 := e4 .d2L 1 (by decide) (by decide)
    have k3 := e4 .dPx 1 (by decide) (by decide)
    have k4 := e4 .d2x 1 (by decide) (by decide)
    have k5 := e4 .d2Px 1 (by decide) (by decide)
    exact load_eq k1 k2 kdx k3 k4 k5
  obtain ⟨s', hs'⟩ := gradient_one 4 (3 / 4) 0
  rw [← hf] at hs'
  obtain ⟨r₂, w₂, h2⟩ := (C85_returns (w := w₁) (put := ut2) (cut := ut2) (model := walk) 1 [one 4]).1 _ _ hs'
  have hr := (C85_gradient h2).1
  rw [hs'] at hr
  obtain ⟨s'', hs''⟩ := H (Fin 2) 1 (Fin 1) (Fin 1) ut2 ut2 walk 0 1 [one 4] twins w₁ w₂ r₁ r₂ (by decide) twins_valid h1 h2
  rw [twins_filter, hs] at hs''
  have e5 := congrArg Prod.fst (Except.ok.inj hs'')
  have e6 := congrArg Prod.fst (Except.ok.inj hr)
  have e7 := congrFun (e5.trans e6.symm) 0
  norm_num at e7

/-- Two filters with the same values and no array in common. -/
noncomputable def strangers : World (Fin 2) 1 ut2.nsigma ut2.nsigma (Fin 1) (Fin 1) where
  mem a := ⟨fun _ => derivs (start 1 0) a, 2⟩
  obj i := ⟨start 0 0, fun _ => i⟩

/-- Their calls of one sample each, one call of each in turn: both compute the gradient 1. -/
example : ∃ w', strangers.run ut2 ut2 walk [(0, .correct (one 4)), (1, .correct (one 4)), (1, .correctionDiff), (0, .correctionDiff), (0, .updateLikelihood),
    (1, .updateLikelihood), (1, .likelihoodDiff), (0, .likelihoodDiff)] = .ok w' ∧ (w'.filter 0).dL_dq 0 = 1 ∧ (w'.filter 1).dL_dq 0 = 1 := by
  have hv : Valid (put := ut2) (cut := ut2) strangers := fun i a => i.2
  have ha : ∀ i j, i ≠ j → Apart (put := ut2) (cut := ut2) strangers i j := fun i j hij a h => hij (Fin.ext h)
  obtain ⟨s₁, s, h1, h2, -, -, h3⟩ := gradient_scalar 4 1 0
  have e : runs ut2 ut2 walk [.correct (one 4), .correctionDiff, .updateLikelihood, .likelihoodDiff] (start 1 0) = .ok s :=
    ((runs_append (cs := [.correct (one 4), .correctionDiff]) (ds := [.updateLikelihood, .likelihoodDiff])).trans (by rw [h1]; rfl)).trans h2
  obtain ⟨w', hw⟩ := C85_apart_returns (model := walk) (es := [(0, .correct (one 4)), (1, .correct (one 4)), (1, .correctionDiff), (0, .correctionDiff),
    (0, .updateLikelihood), (1, .updateLikelihood), (1, .likelihoodDiff), (0, .likelihoodDiff)]) hv ha fun i => ⟨s, by fin_cases i <;> exact e⟩
  have k0 := C85_apart_partial hv (fun j hj => ha 0 j hj.symm) hw
  have k1 := C85_apart_partial hv (fun j hj => ha 1 j hj.symm) hw
  refine ⟨w', hw, ?_, ?_⟩
  · rw [← Except.ok.inj (Eq.trans e.symm k0), h3]
    norm_num
  · rw [← Except.ok.inj (Eq.trans e.symm k1), h3]
    norm_num

end Ceacoest.KHeap
