import Verif.Lemmas.KalmanBatchDiff
import Verif.Props.KalmanBatch

/-! # C80: derivatives of the likelihood of a stack of states -/

namespace Ceacoest
open Matrix Spec Stack
variable {nx : Nat} {o p : Type} [Fintype o] [LinearOrder o] {s : List Nat} {kind kind' : SqrtKind (Fin nx)} {kappa kappa' : ℝ} {put cut : UT nx}

/-- The derivatives that the filter starts with are stacks. -/
structure DerivStacks (s : List Nat) (d : BDerivs nx p) (A : Fin s.prod → FilterAttrs nx p) : Prop where
  dL_dq : StackOf s d.dL_dq fun b => (A b).dL_dq
  d2L_dq2 : StackOf s d.d2L_dq2 fun b => (A b).d2L_dq2
  dx_dq : StackOf s d.dx_dq fun b => (A b).dx_dq
  dPx_dq : StackOf s d.dPx_dq fun b => (A b).dPx_dq
  d2x_dq2 : StackOf s d.d2x_dq2 fun b => (A b).d2x_dq2
  d2Px_dq2 : StackOf s d.d2Px_dq2 fun b => (A b).d2Px_dq2

theorem newUKFD {ns ns' : Nat} {x : NDArray (Fin nx → ℝ)} {Px : NDArray (Matrix (Fin nx) (Fin nx) ℝ)} {k : ℤ} {L : ℝ} {d : BDerivs nx p}
    {A : Fin s.prod → FilterAttrs nx p} (hx : StackOf s x fun b => (A b).x) (hP : StackOf s Px fun b => (A b).Px) (hk : ∀ b, (A b).k = k)
    (hL : ∀ b, (A b).L = L) (hd : DerivStacks s d A) :
    RUKF (RD s) { x := x, Px := Px, k := k, L := Stack.one L, d := d } fun b => ({ A b with } : UKF nx ns ns' o p) :=
  ⟨stackOf_iff.1 hx, stackOf_iff.1 hP, hk, .inr ⟨L, rfl, hL⟩,
    ⟨stackOf_iff.1 hd.dL_dq, stackOf_iff.1 hd.d2L_dq2, stackOf_iff.1 hd.dx_dq, stackOf_iff.1 hd.dPx_dq, stackOf_iff.1 hd.d2x_dq2,
      stackOf_iff.1 hd.d2Px_dq2⟩, .inl ⟨rfl, fun _ => rfl⟩, .inl ⟨rfl, fun _ => rfl⟩⟩

/-- `pem_gradient` of a stack returns if and only if that of each of its states does, and returns the stack of the gradients. -/
theorem C80_gradient (hs : 0 < s.prod) (hput : UT.init nx kind kappa = .ok put) (hcut : UT.init nx kind' kappa' = .ok cut)
    (M : KModel nx o p) (x : NDArray (Fin nx → ℝ)) (Px : NDArray (Matrix (Fin nx) (Fin nx) ℝ)) (k : ℤ) (L : ℝ) (d : BDerivs nx p)
    (A : Fin s.prod → FilterAttrs nx p) (hx : StackOf s x fun b => (A b).x) (hP : StackOf s Px fun b => (A b).Px)
    (hk : ∀ b, (A b).k = k) (hL : ∀ b, (A b).L = L) (hd : DerivStacks s d A) (y : List (MaskedRow o)) :
    ((∃ r, (BUKF.dcls put cut M).pemGradient y { x := x, Px := Px, k := k, L := Stack.one L, d := d } = .ok r) ↔
      ∀ b, ∃ r, (UKF.cls put cut M).pemGradient y { A b with } = .ok r) ∧
    ∀ G a', (BUKF.dcls put cut M).pemGradient y { x := x, Px := Px, k := k, L := Stack.one L, d := d } = .ok (G, a') →
      ∃ g : Fin s.prod → p → ℝ, (∀ b, ∃ t', (UKF.cls put cut M).pemGradient y { A b with } = .ok (g b, t')) ∧ StackOf s G g := by
  have : Nonempty (Fin s.prod) := ⟨⟨0, hs⟩⟩
  have h := sim_pemGradient put cut (nsigma_le hput) (nsigma_le hcut) M y (newUKFD hx hP hk hL hd)
  refine ⟨⟨fun ⟨r, hr⟩ => ?_, h.2⟩, fun out a' ha => ?_⟩
  · obtain ⟨w, hw, -⟩ := h.1 r hr
    exact fun b => ⟨w b, hw b⟩
  · obtain ⟨w, hw, hr, -⟩ := h.1 _ ha
    exact ⟨fun b => (w b).1, fun b => ⟨(w b).2, hw b⟩, stackOf_iff.2 hr⟩

/-- The same for `pem_hessian`. -/
theorem C80_hessian (hs : 0 < s.prod) (hput : UT.init nx kind kappa = .ok put) (hcut : UT.init nx kind' kappa' = .ok cut)
    (M : KModel nx o p) (x : NDArray (Fin nx → ℝ)) (Px : NDArray (Matrix (Fin nx) (Fin nx) ℝ)) (k : ℤ) (L : ℝ) (d : BDerivs nx p)
    (A : Fin s.prod → FilterAttrs nx p) (hx : StackOf s x fun b => (A b).x) (hP : StackOf s Px fun b => (A b).Px)
    (hk : ∀ b, (A b).k = k) (hL : ∀ b, (A b).L = L) (hd : DerivStacks s d A) (y : List (MaskedRow o)) :
    ((∃ r, (BUKF.dcls put cut M).pemHessian y { x := x, Px := Px, k := k, L := Stack.one L, d := d } = .ok r) ↔
      ∀ b, ∃ r, (UKF.cls put cut M).pemHessian y { A b with } = .ok r) ∧
    ∀ H a', (BUKF.dcls put cut M).pemHessian y { x := x, Px := Px, k := k, L := Stack.one L, d := d } = .ok (H, a') →
      ∃ g : Fin s.prod → p → p → ℝ, (∀ b, ∃ t', (UKF.cls put cut M).pemHessian y { A b with } = .ok (g b, t')) ∧ StackOf s H g := by
  have : Nonempty (Fin s.prod) := ⟨⟨0, hs⟩⟩
  have h := sim_pemHessian put cut (nsigma_le hput) (nsigma_le hcut) M y (newUKFD hx hP hk hL hd)
  refine ⟨⟨fun ⟨r, hr⟩ => ?_, h.2⟩, fun out a' ha => ?_⟩
  · obtain ⟨w, hw, -⟩ := h.1 r hr
    exact fun b => ⟨w b, hw b⟩
  · obtain ⟨w, hw, hr, -⟩ := h.1 _ ha
    exact ⟨fun b => (w b).1, fun b => ⟨(w b).2, hw b⟩, stackOf_iff.2 hr⟩

/-- The derivatives of a new filter with a stack of states, if neither the options nor the model have others: all of them are zero. -/
theorem C80_default (A : Fin s.prod → FilterAttrs nx p) (h : ∀ b, (A b).dL_dq = 0 ∧ (A b).d2L_dq2 = 0 ∧ (A b).dx_dq = 0 ∧ (A b).dPx_dq = 0 ∧
    (A b).d2x_dq2 = 0 ∧ (A b).d2Px_dq2 = 0) : DerivStacks s (BDerivs.zero nx p s) A := by
  have e : ∀ {α : Type} [Zero α] (g : Fin s.prod → α), (∀ b, g b = 0) → StackOf s (NDArray.zeros s) g := by
    intro α _ g hg
    rw [stackOf_iff, zeros_arr]
    congr 1
    funext b
    rw [hg b]
  exact ⟨e _ fun b => (h b).1, e _ fun b => (h b).2.1, e _ fun b => (h b).2.2.1, e _ fun b => (h b).2.2.2.1, e _ fun b => (h b).2.2.2.2.1,
    e _ fun b => (h b).2.2.2.2.2⟩

/-! ### Derivatives of the initial covariance as a model gives them -/

theorem stripOnes_zero {s : List Nat} (h : stripOnes 0 s = []) : s.prod = 1 := by
  induction s with
  | nil => rfl
  | cons n s ih =>
    by_cases hn : n = 1
    · subst hn
      rw [stripOnes, if_pos (by simp)] at h
      simpa using ih h
    · rw [stripOnes] at h
      · cases h
      · rintro t ⟨⟩; exact hn rfl

theorem assigned_scalar {α : Type} (hs : s.prod ≠ 1) (g : Fin s.prod → α) (r : NDArray α) : assigned (arr s g) [] ≠ .ok r := by
  unfold Stack.assigned broadcastTo
  rw [if_neg]
  · simp
  · intro h
    refine hs (stripOnes_zero ?_)
    simp only [canBroadcast, Bool.and_eq_true, decide_eq_true_eq] at h
    have := h.1
    rw [show (arr s g).shape = s from rfl] at this
    simpa using this

theorem transformDiff_one (ut : UT nx) {a : Type} [Fintype a] (hs : s.prod ≠ 1) {v : BUTData (Fin nx) a} {S : Fin s.prod → Matrix (Fin nx) (Fin nx) ℝ}
    (hS : v.S = arr s S) (df_dq : (Fin nx → ℝ) → p → a → ℝ) (df_di : (Fin nx → ℝ) → Fin nx → a → ℝ) (di : NDArray (p → Fin nx → ℝ))
    (dP : p → Matrix (Fin nx) (Fin nx) ℝ) (r) : ut.bTransformDiff v df_dq df_di di (Stack.one dP) ≠ .ok r := by
  intro h
  unfold UT.bTransformDiff at h
  obtain ⟨c, hc, -⟩ := py_bind_eq_ok h
  unfold UT.bSigmaPointsDiff at hc
  obtain ⟨c, hc, -⟩ := py_bind_eq_ok hc
  unfold UT.bSqrtDiff at hc
  rw [hS] at hc
  cases hk : ut.kind with
  | svd f => rw [hk] at hc; cases hc
  | cholesky =>
    rw [hk] at hc
    dsimp only at hc
    unfold bCholDiff at hc
    rw [map_arr] at hc
    obtain ⟨ALI, hA, hc⟩ := py_bind_eq_ok hc
    obtain ⟨w, -, rfl⟩ := (sim_mapM npInvT _).1 _ hA
    rw [show Stack.map (fun (dP : p → Matrix (Fin nx) (Fin nx) ℝ) a => ((nx : ℝ) + ut.kappa) • dP a) (Stack.one dP) =
      Stack.one fun a => ((nx : ℝ) + ut.kappa) • dP a from rfl] at hc
    rw [show ∀ v : p → Matrix (Fin nx) (Fin nx) ℝ, Stack.map (fun (dQ : p → Matrix (Fin nx) (Fin nx) ℝ) b (r : Tril (Fin nx)) => dQ b r.1.1 r.1.2)
      (Stack.one v) = Stack.one fun b r => v b r.1.1 r.1.2 from fun _ => rfl] at hc
    dsimp only at hc
    rw [binop_arr_one, py_bind_ok] at hc
    obtain ⟨S', h', -⟩ := py_bind_eq_ok hc
    exact assigned_scalar hs _ _ h'

/-- With the derivatives of one initial covariance, as `model.dPx0_dq()` gives them, and two states or more, `correction_diff` after a
measurement, `prediction_diff` after a prediction, and so `pem_gradient` and `pem_hessian` never return. -/
theorem C80_one_derivative_raises (hs : 0 < s.prod) (h1 : s.prod ≠ 1) (hput : UT.init nx kind kappa = .ok put)
    (hcut : UT.init nx kind' kappa' = .ok cut) (M : KModel nx o p) (x : Fin s.prod → Fin nx → ℝ) (Px : Fin s.prod → Matrix (Fin nx) (Fin nx) ℝ)
    (k : ℤ) (L : ℝ) (d : BDerivs nx p) (dP : p → Matrix (Fin nx) (Fin nx) ℝ) (hd : d.dPx_dq = Stack.one dP) :
    (∀ y : MaskedRow o, (∃ j, y.mask j = false) → ∀ m a, BUKF.correct cut M y { x := arr s x, Px := arr s Px, k := k, L := Stack.one L, d := d } =
        .ok (m, a) → ∀ r, BUKF.correctionDiff cut M a ≠ .ok r) ∧
      (∀ m a, BUKF.predict put M ({ x := arr s x, Px := arr s Px, k := k, L := Stack.one L, d := d } : BUKF nx o p) = .ok (m, a) →
        ∀ r, BUKF.predictionDiff put M a ≠ .ok r) ∧
      ∀ (y : MaskedRow o) (ys : List (MaskedRow o)), (∃ j, y.mask j = false) →
        (∀ r, (BUKF.dcls put cut M).pemGradient (y :: ys) { x := arr s x, Px := arr s Px, k := k, L := Stack.one L, d := d } ≠ .ok r) ∧
        ∀ r, (BUKF.dcls put cut M).pemHessian (y :: ys) { x := arr s x, Px := arr s Px, k := k, L := Stack.one L, d := d } ≠ .ok r := by
  have hne : Nonempty (Fin s.prod) := ⟨⟨0, hs⟩⟩
  have ha : RUKF (s := s) (fun d' _ => d'.dPx_dq = Stack.one dP) { x := arr s x, Px := arr s Px, k := k, L := Stack.one L, d := d }
      fun b => ({ x := x b, Px := Px b, k := k, L := L, dL_dq := 0, d2L_dq2 := 0, dx_dq := 0, dPx_dq := 0, d2x_dq2 := 0, d2Px_dq2 := 0 } :
        UKF nx cut.nsigma put.nsigma o p) :=
    ⟨rfl, rfl, fun _ => rfl, .inr ⟨L, rfl, fun _ => rfl⟩, hd, .inl ⟨rfl, fun _ => rfl⟩, .inl ⟨rfl, fun _ => rfl⟩⟩
  have corr : ∀ y : MaskedRow o, (∃ j, y.mask j = false) → ∀ m a,
      BUKF.correct cut M y { x := arr s x, Px := arr s Px, k := k, L := Stack.one L, d := d } = .ok (m, a) →
      ∀ r, BUKF.correctionDiff cut M a ≠ .ok r := by
    rintro y ⟨j, hj⟩ m a h r hr
    obtain ⟨w, hw, -, hR⟩ := (sim_ukf_correct cut (nsigma_le hcut) M y _ _ ha).1 _ h
    have hda : a.d.dPx_dq = Stack.one dP := hR.d
    unfold BUKF.correctionDiff at hr
    rcases hR.last with ⟨e1, -⟩ | ⟨e1, -⟩ | ⟨y', v, w', e1, -, hv⟩
    · rw [e1] at hr; cases hr
    · unfold BUKF.correct at h
      rw [if_neg (fun h => by simp [h j] at hj)] at h
      iterate 13 obtain ⟨_, -, h⟩ := py_bind_eq_ok h
      cases h
      cases e1
    · rw [e1] at hr
      dsimp only at hr
      obtain ⟨c, hc, -⟩ := py_bind_eq_ok hr
      unfold BUKF.coreDiff at hc
      obtain ⟨c, hc, -⟩ := py_bind_eq_ok hc
      rw [hda] at hc
      exact transformDiff_one cut h1 hv.ut.S _ _ _ _ _ hc
  refine ⟨corr, ?_, ?_⟩
  · intro m a h r hr
    obtain ⟨w, hw, -, hR⟩ := (sim_ukf_predict put (nsigma_le hput) M _ _ ha).1 _ h
    have hda : a.d.dPx_dq = Stack.one dP := hR.d
    unfold BUKF.predictionDiff at hr
    rcases hR.pred with ⟨e1, -⟩ | ⟨pr, pw, e1, -, hv⟩
    · rw [e1] at hr; cases hr
    · rw [e1] at hr
      dsimp only at hr
      obtain ⟨c, hc, -⟩ := py_bind_eq_ok hr
      rw [hda] at hc
      exact transformDiff_one put h1 hv.ut.S _ _ _ _ _ hc
  · intro y ys hy
    constructor
    · intro r hr
      unfold BDFilterClass.pemGradient at hr
      obtain ⟨a, h, -⟩ := py_bind_eq_ok hr
      rw [List.length_cons, List.range_succ_eq_map, List.foldlM_cons] at h
      obtain ⟨a, h, -⟩ := py_bind_eq_ok h
      unfold BDFilterClass.gradientStep at h
      obtain ⟨r0, h0, h⟩ := py_bind_eq_ok h
      cases h0
      obtain ⟨⟨m, a⟩, h0, h⟩ := py_bind_eq_ok h
      obtain ⟨a', h2, -⟩ := py_bind_eq_ok h
      exact corr y hy m a h0 a' h2
    · intro r hr
      unfold BDFilterClass.pemHessian at hr
      obtain ⟨a, h, -⟩ := py_bind_eq_ok hr
      rw [List.length_cons, List.range_succ_eq_map, List.foldlM_cons] at h
      obtain ⟨a, h, -⟩ := py_bind_eq_ok h
      unfold BDFilterClass.hessianStep at h
      obtain ⟨r0, h0, h⟩ := py_bind_eq_ok h
      cases h0
      obtain ⟨⟨m, a⟩, h0, h⟩ := py_bind_eq_ok h
      obtain ⟨a', h2, -⟩ := py_bind_eq_ok h
      exact corr y hy m a h0 a' h2

/-! ### Examples -/

/-- Two states of one number each, with zero derivatives, and a parameter in the transition. -/
example : ∃ ut, UT.init 1 .cholesky (1 : ℝ) = .ok ut ∧
    ((∃ r, (BUKF.dcls ut ut (Demo.model fun _ => 2)).pemHessian [Demo.half, Demo.none, Demo.both]
      { x := ⟨[2, 1], [fun _ => 1, fun _ => 5]⟩, Px := ⟨[2, 1], [1, 1]⟩, k := 0, L := Stack.one 0 } = .ok r) ↔
    ∀ b : Fin [2, 1].prod, ∃ r, (UKF.cls ut ut (Demo.model fun _ => 2)).pemHessian [Demo.half, Demo.none, Demo.both]
      { Demo.attrs with x := if b.1 = 0 then fun _ => 1 else fun _ => 5 } = .ok r) := by
  obtain ⟨ut, h⟩ := Demo.exists_ut
  exact ⟨ut, h, (C80_hessian (s := [2, 1]) (by simp) h h _ _ _ _ _ _
    (fun b => { Demo.attrs with x := if b.1 = 0 then fun _ => 1 else fun _ => 5 }) ⟨rfl, rfl⟩ ⟨rfl, rfl⟩ (fun _ => rfl) (fun _ => rfl)
    (C80_default _ fun _ => ⟨rfl, rfl, rfl, rfl, rfl, rfl⟩) _).1⟩

/-- The same two states, with the derivative of one covariance. -/
example : ∃ ut, UT.init 1 .cholesky (1 : ℝ) = .ok ut ∧ ∀ r, (BUKF.dcls ut ut (Demo.model fun _ => 2)).pemGradient [Demo.half]
      { x := ⟨[2], [fun _ => 1, fun _ => 5]⟩, Px := ⟨[2], [1, 1]⟩, k := 0, L := Stack.one 0,
        d := { BDerivs.zero 1 (Fin 1) [2] with dPx_dq := Stack.one 0 } } ≠ .ok r := by
  obtain ⟨ut, h⟩ := Demo.exists_ut
  exact ⟨ut, h, ((C80_one_derivative_raises (s := [2]) (by simp) (by simp) h h _ (fun b => if b.1 = 0 then fun _ => 1 else fun _ => 5) (fun _ => 1)
    0 0 _ 0 rfl).2.2 _ _ ⟨0, rfl⟩).1⟩

end Ceacoest
