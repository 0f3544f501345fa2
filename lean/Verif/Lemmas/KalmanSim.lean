import Verif.Lemmas.KalmanMerit

/-! # The passes of the unscented filter, as functions of the attributes -/

namespace Ceacoest
open Matrix FilterClass
variable {nx : Nat} {o p : Type} [Fintype o] [LinearOrder o]

section
variable {Y σ τ : Type}

/-- One machine computes the image of the other. -/
theorem walk_map {g : Y → σ → Py σ} {h : σ → Py σ} {g' : Y → τ → Py τ} {h' : τ → Py τ} (π : σ → τ)
    (hg : ∀ y s, g' y (π s) = g y s >>= fun s => .ok (π s)) (hh : ∀ s, h' (π s) = h s >>= fun s => .ok (π s)) (y : List Y) (s : σ) :
    walk g' h' y (π s) = walk g h y s >>= fun s => .ok (π s) := by
  induction y generalizing s with
  | nil => rfl
  | cons a y ih =>
    cases y with
    | nil => exact hg a s
    | cons b y =>
      simp only [walk]
      rw [hg, py_bind_assoc, py_bind_assoc]
      refine py_bind_congr fun s' _ => ?_
      rw [py_bind_ok, hh, py_bind_assoc, py_bind_assoc]
      refine py_bind_congr fun s' _ => ?_
      exact ih s'

/-- One machine follows the other. -/
theorem walk_sim {g : Y → σ → Py σ} {h : σ → Py σ} {g' : Y → τ → Py τ} {h' : τ → Py τ} (R : σ → τ → Prop)
    (hg : ∀ y s s' t, R s t → g y s = .ok s' → ∃ t', g' y t = .ok t' ∧ R s' t')
    (hh : ∀ s s' t, R s t → h s = .ok s' → ∃ t', h' t = .ok t' ∧ R s' t') (y : List Y) (s s' : σ) (t : τ) (hst : R s t)
    (hw : walk g h y s = .ok s') : ∃ t', walk g' h' y t = .ok t' ∧ R s' t' := by
  induction y generalizing s t with
  | nil =>
    cases hw
    exact ⟨t, rfl, hst⟩
  | cons a y ih =>
    cases y with
    | nil => exact hg a s s' t hst hw
    | cons b y =>
      obtain ⟨s1, h1, hw⟩ := py_bind_eq_ok hw
      obtain ⟨s2, h2, hw⟩ := py_bind_eq_ok hw
      obtain ⟨t1, g1, e1⟩ := hg a s s1 t hst h1
      obtain ⟨t2, g2, e2⟩ := hh s1 s2 t1 e1 h2
      obtain ⟨t3, g3, e3⟩ := ih s2 t2 e2 hw
      exact ⟨t3, by simp only [walk, g1, py_bind_ok, g2, g3], e3⟩
end

variable (put cut : UT nx) (M : KModel nx o p)

/-- The correction, on the active outputs. -/
noncomputable def coreY (y : MaskedRow o) (A : FilterAttrs nx p) : Py (Moments nx × UCorr nx cut.nsigma p y.Active) :=
  UKF.core cut A.x A.Px (fun j : y.Active => y.data j.1) (fun x j => M.h A.k x j.1) (activeR y M.R)

noncomputable def coreDiffY (y : MaskedRow o) (A : FilterAttrs nx p) (d : UCorr nx cut.nsigma p y.Active) :=
  UKF.coreDiff cut d (fun x a j => M.dh_dq A.k x a j.1) (fun x i j => M.dh_dx A.k x i j.1)
    (fun a => activeR y (M.dR_dq a)) A.dx_dq A.dPx_dq

noncomputable def coreDiff2Y (y : MaskedRow o) (A : FilterAttrs nx p) (d : UCorr nx cut.nsigma p y.Active)
    (c : UCorrDiff nx cut.nsigma y.Active p) :=
  UKF.coreDiff2 cut d c (fun x a b j => M.d2h_dq2 A.k x a b j.1) (fun x i l j => M.d2h_dx2 A.k x i l j.1)
    (fun x a i j => M.d2h_dx_dq A.k x a i j.1) (fun a b => activeR y (M.d2R_dq2 a b)) A.d2x_dq2 A.d2Px_dq2

section
variable {a : Type} [Fintype a] [LinearOrder a] {ns : Nat}

/-- What `likelihood_diff` subtracts. -/
noncomputable def dlike (d : UCorr nx ns p a) (c : UCorrDiff nx ns a p) (ch : CholDiff a p) (L : p → ℝ) : p → ℝ := fun b =>
  L b - (∑ k, ch.dS b k k / d.PyC k k) - (∑ i, ∑ j, c.de_dq b i * d.PyI i j * d.e j) - 0.5 * ∑ i, ∑ j, d.e i * c.dPyI_dq b i j * d.e j

/-- What `likelihood_diff2` does. -/
noncomputable def d2like (d : UCorr nx ns p a) (c : UCorrDiff nx ns a p) (c2 : UCorrDiff2 a p) (ch : CholDiff a p) (L : p → p → ℝ) :
    p → p → ℝ := fun b b' =>
  L b b' - (∑ k, cholDiff2 ch c2.d2Py_dq2 b b' k k / d.PyC k k) + (∑ k, ch.dS b k k * (ch.dS b' k k / d.PyC k k ^ 2)) -
    (∑ i, ∑ j, c.de_dq b i * d.PyI i j * c.de_dq b' j) - (∑ i, ∑ j, c2.d2e_dq2 b b' i * d.PyI i j * d.e j) -
    0.5 * (∑ i, ∑ j, d.e i * c2.d2PyI_dq2 b b' i j * d.e j) - (∑ i, ∑ j, c.de_dq b i * c.dPyI_dq b' i j * d.e j) -
    ∑ i, ∑ j, c.de_dq b' i * c.dPyI_dq b i j * d.e j
end

/-- The pass of `pem_merit` on a sample. -/
noncomputable def meritA (y : MaskedRow o) (A : FilterAttrs nx p) : Py (FilterAttrs nx p) :=
  if ∀ j, y.mask j = true then .ok A else
  coreY cut M y A >>= fun r =>
  .ok { A with x := r.1.1, Px := r.1.2, L := A.L - 0.5 * (∑ i, ∑ j, r.2.e i * r.2.PyI i j * r.2.e j) - ∑ k, Real.log (r.2.PyC k k) }

/-- The pass of `pem_gradient` on a sample. -/
noncomputable def gradA (y : MaskedRow o) (A : FilterAttrs nx p) : Py (FilterAttrs nx p) :=
  if ∀ j, y.mask j = true then .ok A else
  coreY cut M y A >>= fun r => coreDiffY cut M y A r.2 >>= fun c => cholDiff r.2.PyC c.1.dPy_dq >>= fun ch =>
  .ok { A with
    x := r.1.1, Px := r.1.2, L := A.L - 0.5 * (∑ i, ∑ j, r.2.e i * r.2.PyI i j * r.2.e j) - ∑ k, Real.log (r.2.PyC k k),
    dx_dq := c.2.1, dPx_dq := c.2.2, dL_dq := dlike r.2 c.1 ch A.dL_dq }

/-- The pass of `pem_hessian` on a sample. -/
noncomputable def hessA (y : MaskedRow o) (A : FilterAttrs nx p) : Py (FilterAttrs nx p) :=
  if ∀ j, y.mask j = true then .ok A else
  coreY cut M y A >>= fun r => coreDiffY cut M y A r.2 >>= fun c => cholDiff r.2.PyC c.1.dPy_dq >>= fun ch =>
  .ok ⟨r.1.1, r.1.2, A.k, A.L - 0.5 * (∑ i, ∑ j, r.2.e i * r.2.PyI i j * r.2.e j) - ∑ k, Real.log (r.2.PyC k k),
    dlike r.2 c.1 ch A.dL_dq, d2like r.2 c.1 (coreDiff2Y cut M y A r.2 c.1).1 ch A.d2L_dq2, c.2.1, c.2.2,
    (coreDiff2Y cut M y A r.2 c.1).2.1, (coreDiff2Y cut M y A r.2 c.1).2.2⟩

/-- `DQ_Dq` in `prediction_diff`. -/
noncomputable def totalQ (A : FilterAttrs nx p) (b : p) : Matrix (Fin nx) (Fin nx) ℝ :=
  M.dQ_dq A.k A.x b + of fun k l => ∑ j, A.dx_dq b j * M.dQ_dx A.k A.x j k l

/-- `D2Q_Dq2` in `prediction_diff2`, with the derivatives of the predicted state. -/
noncomputable def totalQ2 (A : FilterAttrs nx p) (b b' : p) : Matrix (Fin nx) (Fin nx) ℝ :=
  (((((of fun k l => ∑ i, A.dx_dq b' i * M.d2Q_dx_dq A.k A.x b i k l) + of fun k l => ∑ i, A.dx_dq b i * M.d2Q_dx_dq A.k A.x b' i k l) +
    M.d2Q_dq2 A.k A.x b b') + of fun k l => ∑ i, A.d2x_dq2 b b' i * M.dQ_dx A.k A.x i k l) +
    of fun m l => ∑ i, ∑ j, A.dx_dq b' i * M.d2Q_dx2 A.k A.x j i m l * A.dx_dq b j)

noncomputable def meritP (A : FilterAttrs nx p) : Py (FilterAttrs nx p) :=
  put.transform A.x A.Px (M.f A.k) >>= fun d => .ok { A with k := A.k + 1, x := d.mean, Px := d.Po + M.Q A.k A.x }

noncomputable def gradP (A : FilterAttrs nx p) : Py (FilterAttrs nx p) :=
  put.transform A.x A.Px (M.f A.k) >>= fun d => put.transformDiff d (M.df_dq A.k) (M.df_dx A.k) A.dx_dq A.dPx_dq >>= fun dd =>
  .ok { A with
    k := A.k + 1, x := d.mean, Px := d.Po + M.Q A.k A.x, dx_dq := dd.do_dq, dPx_dq := fun b => dd.dPo_dq b + totalQ M A b }

noncomputable def hessP (A : FilterAttrs nx p) : Py (FilterAttrs nx p) :=
  put.transform A.x A.Px (M.f A.k) >>= fun d => put.transformDiff d (M.df_dq A.k) (M.df_dx A.k) A.dx_dq A.dPx_dq >>= fun dd =>
  let d2 := put.transformDiff2 d dd (M.d2f_dq2 A.k) (M.d2f_dx2 A.k) (M.d2f_dx_dq A.k) A.d2x_dq2 A.d2Px_dq2
  .ok { A with
    k := A.k + 1, x := d.mean, Px := d.Po + M.Q A.k A.x, dx_dq := dd.do_dq, dPx_dq := fun b => dd.dPo_dq b + totalQ M A b,
    d2x_dq2 := d2.d2o_dq2, d2Px_dq2 := fun b b' => d2.d2Po_dq2 b b' + totalQ2 M A b b' }

variable {put cut M}

theorem py_error_bind {α β : Type} (e : PyErr) (f : α → Py β) : ((Except.error e : Py α) >>= f) = .error e := rfl

theorem meritG_map (y : MaskedRow o) (s : UKF nx cut.nsigma put.nsigma o p) :
    meritA cut M y s.toFilterAttrs = meritG (UKF.cls put cut M) y s >>= fun s => .ok s.toFilterAttrs := by
  have e : meritG (UKF.cls put cut M) y s = (UKF.correct cut M y s >>= fun r => UKF.updateLikelihood r.2) := rfl
  rw [e]
  unfold meritA UKF.correct
  split
  · rfl
  · unfold coreY activeR
    dsimp only
    cases UKF.core (p := p) cut s.x s.Px (fun j : y.Active => y.data j.1) (fun x j => M.h s.k x j.1) (of fun i j => M.R i.1 j.1) with
    | error e => rfl
    | ok r => rfl

theorem gradG_map (y : MaskedRow o) (s : UKF nx cut.nsigma put.nsigma o p) :
    gradA cut M y s.toFilterAttrs = gradientG (UKF.cls put cut M) y s >>= fun s => .ok s.toFilterAttrs := by
  have e : gradientG (UKF.cls put cut M) y s = (UKF.correct cut M y s >>= fun r => UKF.correctionDiff cut M r.2 >>= fun s =>
    UKF.updateLikelihood s >>= fun s => UKF.likelihoodDiff s) := rfl
  rw [e]
  unfold gradA UKF.correct
  split
  · rfl
  · unfold coreY activeR
    dsimp only
    cases UKF.core (p := p) cut s.x s.Px (fun j : y.Active => y.data j.1) (fun x j => M.h s.k x j.1) (of fun i j => M.R i.1 j.1) with
    | error e => rfl
    | ok r =>
      simp only [py_bind_ok, py_pure]
      unfold coreDiffY activeR UKF.correctionDiff
      dsimp only
      cases UKF.coreDiff cut r.2 (fun x a (j : y.Active) => M.dh_dq s.k x a j.1) (fun x i j => M.dh_dx s.k x i j.1)
          (fun a => of fun i j => M.dR_dq a i.1 j.1) s.dx_dq s.dPx_dq with
      | error e => rfl
      | ok c =>
        simp only [py_bind_ok, py_pure]
        unfold UKF.updateLikelihood
        simp only [py_bind_ok]
        unfold UKF.likelihoodDiff
        simp only
        cases cholDiff r.2.PyC c.1.dPy_dq with
        | error e => rfl
        | ok ch => rfl

theorem hessG_map (y : MaskedRow o) (s : UKF nx cut.nsigma put.nsigma o p) :
    hessA cut M y s.toFilterAttrs = hessianG (UKF.cls put cut M) y s >>= fun s => .ok s.toFilterAttrs := by
  have e : hessianG (UKF.cls put cut M) y s = (UKF.correct cut M y s >>= fun r => UKF.correctionDiff cut M r.2 >>= fun s =>
    UKF.correctionDiff2 cut M s >>= fun s => UKF.updateLikelihood s >>= fun s => UKF.likelihoodDiff s >>= fun s => UKF.likelihoodDiff2 s) := rfl
  rw [e]
  unfold hessA UKF.correct
  split
  · rfl
  · unfold coreY activeR
    dsimp only
    cases UKF.core (p := p) cut s.x s.Px (fun j : y.Active => y.data j.1) (fun x j => M.h s.k x j.1) (of fun i j => M.R i.1 j.1) with
    | error e => rfl
    | ok r =>
      simp only [py_bind_ok, py_pure]
      unfold coreDiffY activeR UKF.correctionDiff
      dsimp only
      cases UKF.coreDiff cut r.2 (fun x a (j : y.Active) => M.dh_dq s.k x a j.1) (fun x i j => M.dh_dx s.k x i j.1)
          (fun a => of fun i j => M.dR_dq a i.1 j.1) s.dx_dq s.dPx_dq with
      | error e => rfl
      | ok c =>
        simp only [py_bind_ok, py_pure]
        unfold UKF.correctionDiff2
        simp only [py_bind_ok]
        unfold UKF.updateLikelihood
        simp only [py_bind_ok]
        unfold UKF.likelihoodDiff
        simp only
        cases cholDiff r.2.PyC c.1.dPy_dq with
        | error e => rfl
        | ok ch => rfl

theorem meritP_map (s : UKF nx cut.nsigma put.nsigma o p) :
    meritP put M s.toFilterAttrs = meritH (UKF.cls put cut M) s >>= fun s => .ok s.toFilterAttrs := by
  have e : meritH (UKF.cls put cut M) s = (UKF.predict put M s >>= fun r => .ok r.2) := rfl
  rw [e]
  unfold meritP UKF.predict
  cases put.transform s.x s.Px (M.f s.k) with
  | error e => rfl
  | ok d => rfl

theorem gradP_map (s : UKF nx cut.nsigma put.nsigma o p) :
    gradP put M s.toFilterAttrs = gradientH (UKF.cls put cut M) s >>= fun s => .ok s.toFilterAttrs := by
  have e : gradientH (UKF.cls put cut M) s = (UKF.predict put M s >>= fun r => UKF.predictionDiff put M r.2) := rfl
  rw [e]
  unfold gradP UKF.predict
  cases put.transform s.x s.Px (M.f s.k) with
  | error e => rfl
  | ok d =>
    simp only [py_bind_ok, py_pure]
    unfold UKF.predictionDiff
    simp only [add_sub_cancel_right]
    cases put.transformDiff d (M.df_dq s.k) (M.df_dx s.k) s.dx_dq s.dPx_dq with
    | error e => rfl
    | ok dd => rfl

theorem hessP_map (s : UKF nx cut.nsigma put.nsigma o p) :
    hessP put M s.toFilterAttrs = hessianH (UKF.cls put cut M) s >>= fun s => .ok s.toFilterAttrs := by
  have e : hessianH (UKF.cls put cut M) s = (UKF.predict put M s >>= fun r => UKF.predictionDiff put M r.2 >>= fun s =>
    UKF.predictionDiff2 put M s) := rfl
  rw [e]
  unfold hessP UKF.predict
  cases put.transform s.x s.Px (M.f s.k) with
  | error e => rfl
  | ok d =>
    simp only [py_bind_ok, py_pure]
    unfold UKF.predictionDiff
    simp only [add_sub_cancel_right]
    cases put.transformDiff d (M.df_dq s.k) (M.df_dx s.k) s.dx_dq s.dPx_dq with
    | error e => rfl
    | ok dd =>
      simp only [py_bind_ok, py_pure]
      unfold UKF.predictionDiff2
      simp only [add_sub_cancel_right]
      rfl

/-! ### The passes do the same to what they share -/

/-- Time, moments, likelihood. -/
def FilterAttrs.zeroth (A : FilterAttrs nx p) := (A.k, A.x, A.Px, A.L)

/-- These and the first derivatives. -/
def FilterAttrs.first (A : FilterAttrs nx p) := (A.k, A.x, A.Px, A.L, A.dx_dq, A.dPx_dq, A.dL_dq)

end Ceacoest
