import Verif.Lemmas.KalmanBatch
import Verif.Model.KalmanBatchDiff

/-! # The derivatives in an unscented filter of a stack follow those in the filters of its entries -/

namespace Ceacoest
open Stack Matrix
variable {nx : Nat} {o p : Type} {s : List Nat}

/-! ### The Cholesky factors -/

section Cholesky
variable {ι : Type} [Fintype ι] [LinearOrder ι]

theorem assigned_arr {α : Type} (g : Fin s.prod → α) : assigned (arr s g) s = .ok (arr s g) := (Rep.arr g).assigned

theorem sim_cholDiff (S : Fin s.prod → Matrix ι ι ℝ) (dQ : Fin s.prod → p → Matrix ι ι ℝ) :
    Sim (RChol s) (bCholDiff (arr s S) (arr s dQ)) fun b => cholDiff (S b) (dQ b) := by
  unfold bCholDiff cholDiff
  rw [map_arr]
  refine (sim_mapM npInvT _).bind fun v w e => ?_
  subst e
  simp only [map_arr, binop_arr, py_bind_ok]
  rw [show (arr s dQ).shape = s from rfl, assigned_arr, py_bind_ok]
  simp only [map_arr]
  exact Sim.pure ⟨rfl, rfl, rfl⟩

theorem cholDiff2_arr (S : Fin s.prod → Matrix ι ι ℝ) {c : BCholDiff ι p} {w : Fin s.prod → CholDiff ι p} (h : RChol s c w)
    (d2Q : Fin s.prod → p → p → Matrix ι ι ℝ) :
    bCholDiff2 (arr s S) c (arr s d2Q) = .ok (arr s fun b => cholDiff2 (w b) (d2Q b)) := by
  unfold bCholDiff2
  rw [h.dS, h.dQL, h.ALI]
  simp only [map_arr, binop_arr, iadd_arr, py_bind_ok]
  rw [show (arr s S).shape = s from rfl, assigned_arr, py_bind_ok]
  simp only [map_arr]
  rfl

end Cholesky

/-! ### The transform -/

theorem bSpread_arr {β : Type} [Zero β] [Neg β] (ut : UT nx) (hns : 2 * nx ≤ ut.nsigma) (v : Fin nx → Fin s.prod → β) :
    ut.bSpread s (arr2 nx s v) = .ok (arr2 ut.nsigma s fun k b => UT.spread ut.nsigma (fun r => v r b) k) := by
  unfold UT.bSpread
  rw [zeros_arr2]
  dsimp only
  rw [setRows_arr2 (by omega), py_bind_ok, takeRows_arr2 (by omega), map_arr2, setRows_arr2 (by omega)]
  congr 2
  funext k b
  unfold UT.spread
  by_cases h1 : k.1 < nx
  · rw [dif_neg (by omega), dif_pos ⟨by omega, by omega⟩, dif_pos h1]; rfl
  · rw [dif_neg h1]
    by_cases h2 : k.1 < 2 * nx
    · rw [dif_pos ⟨by omega, by omega⟩, dif_pos h2, dif_pos ⟨by dsimp only; omega, by dsimp only; omega⟩]; rfl
    · rw [dif_neg (by omega), dif_neg (by omega), dif_neg h2]

theorem sim_sqrtDiff (ut : UT nx) [Nonempty (Fin s.prod)] (S : Fin s.prod → Matrix (Fin nx) (Fin nx) ℝ)
    (dQ : Fin s.prod → p → Matrix (Fin nx) (Fin nx) ℝ) :
    Sim (RChol s) (ut.bSqrtDiff (arr s S) (arr s dQ)) fun b => ut.sqrtDiff (S b) (dQ b) := by
  unfold UT.bSqrtDiff UT.sqrtDiff
  cases ut.kind with
  | cholesky => exact sim_cholDiff S dQ
  | svd f => exact Sim.error _ _

section Transform
variable {a : Type} [Fintype a] {ut : UT nx}

theorem sim_transformDiff [Nonempty (Fin s.prod)] (hns : 2 * nx ≤ ut.nsigma) {v : BUTData (Fin nx) a} {w : Fin s.prod → UTData ut.nsigma (Fin nx) a}
    (h : RUT s v w) (df_dq : (Fin nx → ℝ) → p → a → ℝ) (df_di : (Fin nx → ℝ) → Fin nx → a → ℝ) (di : Fin s.prod → p → Fin nx → ℝ)
    (dP : Fin s.prod → p → Matrix (Fin nx) (Fin nx) ℝ) :
    Sim (RUTDiff s) (ut.bTransformDiff v df_dq df_di (arr s di) (arr s dP)) fun b => ut.transformDiff (w b) df_dq df_di (di b) (dP b) := by
  unfold UT.bTransformDiff UT.transformDiff UT.bSigmaPointsDiff
  rw [h.isigma, h.S, h.odev, map_arr]
  simp only [py_bind_assoc]
  refine (sim_sqrtDiff ut _ _).bind fun c cw hc => ?_
  rw [hc.dS, map_arr, rollRows_arr, show (arr s di).shape = s from rfl, bSpread_arr ut hns]
  simp only [map_arr2, binop_arr2_arr, binop_arr2, iadd_arr2, py_bind_ok, sumRows_arr2, map_arr, iadd_arr, py_pure]
  refine Sim.pure ⟨hc.dS, hc.dQL, hc.ALI, rfl, rfl, rfl, ?_, ?_, ?_⟩
  · dsimp only
    congr 1
    funext k b
    congr 1
    funext a f
    simp [Finset.sum_apply]
  · dsimp only
    congr 1
    funext b a f
    simp [Finset.sum_apply]
  · dsimp only
    congr 1
    funext b a
    ext i j
    simp [Finset.sum_apply, Matrix.sum_apply]

theorem RUTDiff.crosscov {v : BUTData (Fin nx) a} {w : Fin s.prod → UTData ut.nsigma (Fin nx) a} (h : RUT s v w)
    {dv : BUTDiff (Fin nx) a p} {dw : Fin s.prod → UTDiff ut.nsigma (Fin nx) a p} (hd : RUTDiff s dv dw) :
    ut.bCrosscovDiff v dv = .ok (arr s fun b => ut.crosscovDiff (w b) (dw b)) := by
  unfold UT.bCrosscovDiff UT.crosscovDiff
  rw [h.idev, h.odev, hd.didev, hd.dodev]
  simp only [binop_arr2, py_bind_ok, sumRows_arr2, iadd_arr]
  congr 2
  funext b l
  ext i j
  simp [Finset.sum_apply, Matrix.sum_apply]

/-- What `transform_diff2` of a stack saves and what those of its entries save. -/
structure RUTDiff2 {n a : Type} {ns : Nat} (s : List Nat) (v : BUTDiff2 n a p) (w : Fin s.prod → UTDiff2 ns n a p) : Prop where
  d2idev : v.d2idev = arr2 ns s fun k b => (w b).d2idev k
  d2odev : v.d2odev = arr2 ns s fun k b => (w b).d2odev k
  d2o_dq2 : v.d2o_dq2 = arr s fun b => (w b).d2o_dq2
  d2Po_dq2 : v.d2Po_dq2 = arr s fun b => (w b).d2Po_dq2

theorem transformDiff2_arr (hns : 2 * nx ≤ ut.nsigma) {v : BUTData (Fin nx) a} {w : Fin s.prod → UTData ut.nsigma (Fin nx) a}
    (h : RUT s v w) {dv : BUTDiff (Fin nx) a p} {dw : Fin s.prod → UTDiff ut.nsigma (Fin nx) a p} (hd : RUTDiff s dv dw)
    (d2f_dq2 : (Fin nx → ℝ) → p → p → a → ℝ) (d2f_di2 : (Fin nx → ℝ) → Fin nx → Fin nx → a → ℝ)
    (d2f_di_dq : (Fin nx → ℝ) → p → Fin nx → a → ℝ) (d2i : Fin s.prod → p → p → Fin nx → ℝ)
    (d2P : Fin s.prod → p → p → Matrix (Fin nx) (Fin nx) ℝ) :
    ∃ r, ut.bTransformDiff2 v dv d2f_dq2 d2f_di2 d2f_di_dq (arr s d2i) (arr s d2P) = .ok r ∧
      RUTDiff2 s r fun b => ut.transformDiff2 (w b) (dw b) d2f_dq2 d2f_di2 d2f_di_dq (d2i b) (d2P b) := by
  unfold UT.bTransformDiff2 UT.transformDiff2 UT.bSigmaPointsDiff2
  have hc : RChol s dv.chol fun b => (dw b).chol := ⟨hd.dS, hd.dQL, hd.ALI⟩
  rw [h.isigma, h.S, h.odev, hd.disigma, hd.df_di, hd.dodev, map_arr, cholDiff2_arr _ hc, py_bind_ok, map_arr, rollRows_arr,
    show (arr s d2i).shape = s from rfl, bSpread_arr ut hns]
  simp only [map_arr2, binop_arr2_arr, binop_arr2, iadd_arr2, py_bind_ok, sumRows_arr2, map_arr, iadd_arr, py_pure]
  refine ⟨_, rfl, rfl, ?_, ?_, ?_⟩
  · dsimp only
    congr 1
    funext k b
    congr 1
    funext a b f
    simp [Finset.sum_apply]
  · dsimp only
    congr 1
    funext b a b f
    simp [Finset.sum_apply]
  · dsimp only
    congr 1
    funext b a b
    ext i j
    simp [Finset.sum_apply, Matrix.sum_apply]

theorem RUTDiff2.crosscov {v : BUTData (Fin nx) a} {w : Fin s.prod → UTData ut.nsigma (Fin nx) a} (h : RUT s v w)
    {dv : BUTDiff (Fin nx) a p} {dw : Fin s.prod → UTDiff ut.nsigma (Fin nx) a p} (hd : RUTDiff s dv dw)
    {ev : BUTDiff2 (Fin nx) a p} {ew : Fin s.prod → UTDiff2 ut.nsigma (Fin nx) a p} (he : RUTDiff2 s ev ew) :
    ut.bCrosscovDiff2 v dv ev = .ok (arr s fun b => ut.crosscovDiff2 (w b) (dw b) (ew b)) := by
  unfold UT.bCrosscovDiff2 UT.crosscovDiff2
  rw [h.idev, h.odev, hd.didev, hd.dodev, he.d2idev, he.d2odev]
  simp only [binop_arr2, py_bind_ok, sumRows_arr2, map_arr, iadd_arr]
  congr 2
  funext b l m
  ext i j
  simp [Finset.sum_apply, Matrix.sum_apply]

end Transform

/-! ### The corrector -/

section Core
variable {a : Type} [Fintype a] [LinearOrder a] [Nonempty (Fin s.prod)]

theorem sim_coreDiff (cut : UT nx) (hc : 2 * nx ≤ cut.nsigma) {v : BUCorr nx p a} {w : Fin s.prod → UCorr nx cut.nsigma p a} (h : RUCorr s v w)
    (dh_dq : (Fin nx → ℝ) → p → a → ℝ) (dh_dx : (Fin nx → ℝ) → Fin nx → a → ℝ) (dR_dq : p → Matrix a a ℝ)
    (dx : Fin s.prod → p → Fin nx → ℝ) (dP : Fin s.prod → p → Matrix (Fin nx) (Fin nx) ℝ) :
    Sim (fun v w => RUCorrDiff s v.1 (fun b => (w b).1) ∧ v.2.1 = arr s (fun b => (w b).2.1) ∧ v.2.2 = arr s fun b => (w b).2.2)
      (BUKF.coreDiff cut v dh_dq dh_dx dR_dq (arr s dx) (arr s dP) >>= fun c => BUKF.corrDiff v c (arr s dx) (arr s dP) >>= fun r => .ok (c, r))
      fun b => UKF.coreDiff cut (w b) dh_dq dh_dx dR_dq (dx b) (dP b) := by
  unfold BUKF.coreDiff UKF.coreDiff
  simp only [py_bind_assoc]
  refine (sim_transformDiff hc h.ut dh_dq dh_dx dx dP).bind fun dv dw hd => ?_
  rw [hd.crosscov h.ut, py_bind_ok, hd.do_dq, hd.dPo_dq, h.Pxh, h.PyI]
  simp only [map_arr, binop_arr, binop_arr_one, iadd_arr, py_bind_ok, py_pure]
  unfold BUKF.corrDiff
  rw [h.e, h.K, h.Py]
  simp only [map_arr, binop_arr, iadd_arr, isub_arr, py_bind_ok, py_pure]
  exact Sim.pure ⟨⟨rfl, rfl, rfl, rfl, rfl, hd⟩, rfl, rfl⟩

theorem coreDiff2_arr (cut : UT nx) (hc : 2 * nx ≤ cut.nsigma) {v : BUCorr nx p a} {w : Fin s.prod → UCorr nx cut.nsigma p a} (h : RUCorr s v w)
    {c : BUCorrDiff nx a p} {cw : Fin s.prod → UCorrDiff nx cut.nsigma a p} (hd : RUCorrDiff s c cw)
    (d2h_dq2 : (Fin nx → ℝ) → p → p → a → ℝ) (d2h_dx2 : (Fin nx → ℝ) → Fin nx → Fin nx → a → ℝ)
    (d2h_dx_dq : (Fin nx → ℝ) → p → Fin nx → a → ℝ) (d2R_dq2 : p → p → Matrix a a ℝ)
    (d2x : Fin s.prod → p → p → Fin nx → ℝ) (d2P : Fin s.prod → p → p → Matrix (Fin nx) (Fin nx) ℝ) :
    ∃ c2 d2K, BUKF.coreDiff2 cut v c d2h_dq2 d2h_dx2 d2h_dx_dq d2R_dq2 (arr s d2x) (arr s d2P) = .ok (c2, d2K) ∧
      RUCorrDiff2 s c2 (fun b => (UKF.coreDiff2 cut (w b) (cw b) d2h_dq2 d2h_dx2 d2h_dx_dq d2R_dq2 (d2x b) (d2P b)).1) ∧
      BUKF.corrDiff2 v c c2 d2K (arr s d2x) (arr s d2P) = .ok
        (arr s fun b => (UKF.coreDiff2 cut (w b) (cw b) d2h_dq2 d2h_dx2 d2h_dx_dq d2R_dq2 (d2x b) (d2P b)).2.1,
          arr s fun b => (UKF.coreDiff2 cut (w b) (cw b) d2h_dq2 d2h_dx2 d2h_dx_dq d2R_dq2 (d2x b) (d2P b)).2.2) := by
  obtain ⟨ev, h1, he⟩ := transformDiff2_arr hc h.ut hd.ut d2h_dq2 d2h_dx2 d2h_dx_dq d2x d2P
  unfold BUKF.coreDiff2
  rw [h1, py_bind_ok, he.crosscov h.ut hd.ut, py_bind_ok, he.d2o_dq2, he.d2Po_dq2, hd.dPyI_dq, hd.dPy_dq, hd.dPxh_dq, h.PyI, h.Pxh]
  simp only [map_arr, binop_arr, binop_arr_one, iadd_arr, isub_arr, py_bind_ok, py_pure]
  refine ⟨_, _, rfl, ⟨rfl, rfl, rfl⟩, ?_⟩
  unfold BUKF.corrDiff2
  rw [h.e, h.K, h.Py, hd.dK_dq, hd.de_dq, hd.dPy_dq]
  simp only [map_arr, binop_arr, iadd_arr, isub_arr, py_bind_ok, py_pure]
  rfl

end Core

/-! ### The methods -/

/-- The derivative attributes are stacks. -/
structure RD (s : List Nat) (d : BDerivs nx p) (w : Fin s.prod →
    (p → ℝ) × (p → p → ℝ) × (p → Fin nx → ℝ) × (p → Matrix (Fin nx) (Fin nx) ℝ) × (p → p → Fin nx → ℝ) × (p → p → Matrix (Fin nx) (Fin nx) ℝ)) :
    Prop where
  dL_dq : d.dL_dq = arr s fun b => (w b).1
  d2L_dq2 : d.d2L_dq2 = arr s fun b => (w b).2.1
  dx_dq : d.dx_dq = arr s fun b => (w b).2.2.1
  dPx_dq : d.dPx_dq = arr s fun b => (w b).2.2.2.1
  d2x_dq2 : d.d2x_dq2 = arr s fun b => (w b).2.2.2.2.1
  d2Px_dq2 : d.d2Px_dq2 = arr s fun b => (w b).2.2.2.2.2

section Methods
variable [Fintype o] [LinearOrder o] [Nonempty (Fin s.prod)]

theorem sim_correctionDiff {ns' : Nat} (cut : UT nx) (hc : 2 * nx ≤ cut.nsigma) (M : KModel nx o p) (a : BUKF nx o p)
    (t : Fin s.prod → UKF nx cut.nsigma ns' o p) (h : RUKF (RD s) a t) :
    Sim (RUKF (RD s)) (BUKF.correctionDiff cut M a) fun b => UKF.correctionDiff cut M (t b) := by
  unfold BUKF.correctionDiff UKF.correctionDiff
  rcases h.last with ⟨h1, h2⟩ | ⟨h1, h2⟩ | ⟨y, v, w, h1, h2, hr⟩
  · simp only [h1, h2]; exact Sim.error _ _
  · simp only [h1, h2]; exact Sim.pure h
  · have e1 : a.d.dx_dq = arr s fun b => (t b).dx_dq := h.d.dx_dq
    have e2 : a.d.dPx_dq = arr s fun b => (t b).dPx_dq := h.d.dPx_dq
    simp only [h1, h2, e1, e2, h.k]
    have key := (sim_coreDiff cut hc hr (fun x l (j : y.Active) => M.dh_dq a.k x l j.1) (fun x i j => M.dh_dx a.k x i j.1)
      (fun l => of fun i j => M.dR_dq l i.1 j.1) (fun b => (t b).dx_dq) (fun b => (t b).dPx_dq)).bind
      (R' := RUKF (RD s))
      (g := fun r => .ok { a with d := { a.d with dx_dq := r.2.1, dPx_dq := r.2.2 }, last := .data y { v with diff := some r.1 } })
      (h := fun b r => .ok { t b with k := a.k, dx_dq := r.2.1, dPx_dq := r.2.2, last := .data y { w b with diff := some r.1 } })
      fun r rw hr' => Sim.pure ⟨h.x, h.Px, fun _ => rfl, h.L, ⟨h.d.dL_dq, h.d.d2L_dq2, hr'.2.1, hr'.2.2, h.d.d2x_dq2, h.d.d2Px_dq2⟩, h.pred,
        .inr (.inr ⟨y, _, _, rfl, fun _ => rfl, hr.e, hr.Pxh, hr.Py, hr.PyI, hr.K, hr.PyC, hr.ut, .inr ⟨_, _, rfl, fun _ => rfl, hr'.1⟩, hr.diff2,
          hr.PyCD, hr.chol⟩)⟩
    simp only [py_bind_assoc, py_bind_ok] at key
    exact key

theorem sim_correctionDiff2 {ns' : Nat} (cut : UT nx) (hc : 2 * nx ≤ cut.nsigma) (M : KModel nx o p) (a : BUKF nx o p)
    (t : Fin s.prod → UKF nx cut.nsigma ns' o p) (h : RUKF (RD s) a t) :
    Sim (RUKF (RD s)) (BUKF.correctionDiff2 cut M a) fun b => UKF.correctionDiff2 cut M (t b) := by
  unfold BUKF.correctionDiff2 UKF.correctionDiff2
  rcases h.last with ⟨h1, h2⟩ | ⟨h1, h2⟩ | ⟨y, v, w, h1, h2, hr⟩
  · simp only [h1, h2]; exact Sim.error _ _
  · simp only [h1, h2]; exact Sim.pure h
  · simp only [h1, h2]
    rcases hr.diff with ⟨h3, h4⟩ | ⟨c, cw, h3, h4, hd⟩
    · simp only [h3, h4]; exact Sim.error _ _
    · have e1 : a.d.d2x_dq2 = arr s fun b => (t b).d2x_dq2 := h.d.d2x_dq2
      have e2 : a.d.d2Px_dq2 = arr s fun b => (t b).d2Px_dq2 := h.d.d2Px_dq2
      obtain ⟨c2, d2K, k1, k2, k3⟩ := coreDiff2_arr cut hc hr hd (fun x l m (j : y.Active) => M.d2h_dq2 a.k x l m j.1)
        (fun x i l j => M.d2h_dx2 a.k x i l j.1) (fun x l i j => M.d2h_dx_dq a.k x l i j.1) (fun l m => of fun i j => M.d2R_dq2 l m i.1 j.1)
        (fun b => (t b).d2x_dq2) (fun b => (t b).d2Px_dq2)
      simp only [h3, h4, e1, e2, h.k, k1, py_bind_ok, k3]
      exact Sim.pure ⟨h.x, h.Px, fun _ => rfl, h.L, ⟨h.d.dL_dq, h.d.d2L_dq2, h.d.dx_dq, h.d.dPx_dq, rfl, rfl⟩, h.pred,
        .inr (.inr ⟨y, _, _, rfl, fun _ => rfl, hr.e, hr.Pxh, hr.Py, hr.PyI, hr.K, hr.PyC, hr.ut, .inr ⟨_, _, rfl, fun _ => rfl, hd⟩,
          .inr ⟨_, _, rfl, fun _ => rfl, k2⟩, hr.PyCD, hr.chol⟩)⟩

omit [Nonempty (Fin s.prod)] [Fintype o] [LinearOrder o] in
theorem sim_likDiff {a : Type} [Fintype a] [LinearOrder a] {ns : Nat} {v : BUCorr nx p a} {w : Fin s.prod → UCorr nx ns p a} (h : RUCorr s v w)
    {c : BUCorrDiff nx a p} {cw : Fin s.prod → UCorrDiff nx ns a p} (hd : RUCorrDiff s c cw) (D : Fin s.prod → a → ℝ) (dL : Fin s.prod → p → ℝ) :
    Sim (fun v u => RChol s v.1 u ∧ v.2 = arr s fun b l => dL b l - (∑ k, (u b).dS l k k / D b k) -
        (∑ i, ∑ j, (cw b).de_dq l i * (w b).PyI i j * (w b).e j) - 0.5 * ∑ i, ∑ j, (w b).e i * (cw b).dPyI_dq l i j * (w b).e j)
      (BUKF.likDiff v c (arr s D) (arr s dL)) fun b => cholDiff (w b).PyC (cw b).dPy_dq := by
  unfold BUKF.likDiff
  rw [h.PyC, hd.dPy_dq, hd.de_dq, hd.dPyI_dq, h.PyI, h.e]
  have := (sim_cholDiff (fun b => (w b).PyC) (fun b => (cw b).dPy_dq)).bind
    (R' := fun v u => RChol s v.1 u ∧ v.2 = arr s fun b l => dL b l - (∑ k, (u b).dS l k k / D b k) -
        (∑ i, ∑ j, (cw b).de_dq l i * (w b).PyI i j * (w b).e j) - 0.5 * ∑ i, ∑ j, (w b).e i * (cw b).dPyI_dq l i j * (w b).e j)
    (g := fun ch => do
      let dPyCD_dq : NDArray (p → a → ℝ) := map (fun dS a k => dS a k k) ch.dS
      let dL ← isub (arr s dL) (← binop (fun D C a => ∑ k, D a k / C k) dPyCD_dq (arr s D))
      let dL ← isub dL (← binop (fun E e a => ∑ i, ∑ j, E.1 a i * E.2 i j * e j)
        (← binop Prod.mk (arr s fun b => (cw b).de_dq) (arr s fun b => (w b).PyI)) (arr s fun b => (w b).e))
      let dL ← isub dL (← binop (fun E e a => 0.5 * ∑ i, ∑ j, E.1 i * E.2 a i j * e j)
        (← binop Prod.mk (arr s fun b => (w b).e) (arr s fun b => (cw b).dPyI_dq)) (arr s fun b => (w b).e))
      return (ch, dL))
    (h := fun b u => .ok u) fun ch cu hch => by
      rw [hch.dS]
      simp only [map_arr, binop_arr, isub_arr, py_bind_ok, py_pure]
      exact Sim.pure ⟨hch, rfl⟩
  have e : ∀ b, (cholDiff (w b).PyC (cw b).dPy_dq >>= fun u => .ok u) = cholDiff (w b).PyC (cw b).dPy_dq := fun b => by
    cases cholDiff (w b).PyC (cw b).dPy_dq <;> rfl
  simpa only [e] using this

theorem sim_likelihoodDiff {ns ns' : Nat} (a : BUKF nx o p) (t : Fin s.prod → UKF nx ns ns' o p) (h : RUKF (RD s) a t) :
    Sim (RUKF (RD s)) (BUKF.likelihoodDiff a) fun b => UKF.likelihoodDiff (t b) := by
  unfold BUKF.likelihoodDiff UKF.likelihoodDiff
  rcases h.last with ⟨h1, h2⟩ | ⟨h1, h2⟩ | ⟨y, v, w, h1, h2, hr⟩
  · simp only [h1, h2]; exact Sim.error _ _
  · simp only [h1, h2]; exact Sim.pure h
  · simp only [h1, h2]
    rcases hr.diff with ⟨h3, h4⟩ | ⟨c, cw, h3, h4, hd⟩
    · simp only [h3, h4]; exact Sim.error _ _
    rcases hr.PyCD with ⟨h5, h6⟩ | ⟨D, Dw, h5, h6, hD⟩
    · simp only [h3, h4, h5, h6]; exact Sim.error _ _
    · have e1 : a.d.dL_dq = arr s fun b => (t b).dL_dq := h.d.dL_dq
      simp only [h3, h4, h5, h6, e1, hD]
      refine (sim_likDiff hr hd Dw _).bind fun r u hu => ?_
      exact Sim.pure ⟨h.x, h.Px, h.k, h.L, ⟨hu.2, h.d.d2L_dq2, h.d.dx_dq, h.d.dPx_dq, h.d.d2x_dq2, h.d.d2Px_dq2⟩, h.pred,
        .inr (.inr ⟨y, _, _, rfl, fun _ => rfl, hr.e, hr.Pxh, hr.Py, hr.PyI, hr.K, hr.PyC, hr.ut, .inr ⟨_, _, rfl, fun _ => rfl, hd⟩,
          hr.diff2, .inr ⟨_, _, rfl, fun _ => rfl, rfl⟩, .inr ⟨_, _, rfl, fun _ => rfl, hu.1⟩⟩)⟩

theorem sim_likelihoodDiff2 {ns ns' : Nat} (a : BUKF nx o p) (t : Fin s.prod → UKF nx ns ns' o p) (h : RUKF (RD s) a t) :
    Sim (RUKF (RD s)) (BUKF.likelihoodDiff2 a) fun b => UKF.likelihoodDiff2 (t b) := by
  unfold BUKF.likelihoodDiff2 UKF.likelihoodDiff2
  rcases h.last with ⟨h1, h2⟩ | ⟨h1, h2⟩ | ⟨y, v, w, h1, h2, hr⟩
  · simp only [h1, h2]; exact Sim.error _ _
  · simp only [h1, h2]; exact Sim.pure h
  · simp only [h1, h2]
    rcases hr.diff with ⟨h3, h4⟩ | ⟨c, cw, h3, h4, hd⟩
    · simp only [h3, h4]; exact Sim.error _ _
    rcases hr.diff2 with ⟨h3', h4'⟩ | ⟨c2, cw2, h3', h4', hd2⟩
    · simp only [h3, h4, h3', h4']; exact Sim.error _ _
    rcases hr.PyCD with ⟨h5, h6⟩ | ⟨D, Dw, h5, h6, hD⟩
    · simp only [h3, h4, h3', h4', h5, h6]; exact Sim.error _ _
    rcases hr.chol with ⟨h7, h8⟩ | ⟨ch, chw, h7, h8, hch⟩
    · simp only [h3, h4, h3', h4', h5, h6, h7, h8]; exact Sim.error _ _
    · have e1 : a.d.d2L_dq2 = arr s fun b => (t b).d2L_dq2 := h.d.d2L_dq2
      simp only [h3, h4, h3', h4', h5, h6, h7, h8, e1, hD]
      unfold BUKF.likDiff2
      rw [hr.PyC, hd2.d2Py_dq2, cholDiff2_arr _ hch, py_bind_ok, hch.dS, hd.de_dq, hd.dPyI_dq, hd2.d2e_dq2, hd2.d2PyI_dq2, hr.PyI, hr.e]
      simp only [map_arr, binop_arr, iadd_arr, isub_arr, py_bind_ok, py_pure]
      exact Sim.pure ⟨h.x, h.Px, h.k, h.L, ⟨h.d.dL_dq, rfl, h.d.dx_dq, h.d.dPx_dq, h.d.d2x_dq2, h.d.d2Px_dq2⟩, h.pred,
        .inr (.inr ⟨y, _, _, rfl, fun _ => rfl, hr⟩)⟩

omit [Fintype o] in
theorem sim_predictionDiff {ns : Nat} (put : UT nx) (hp : 2 * nx ≤ put.nsigma) (M : KModel nx o p) (a : BUKF nx o p)
    (t : Fin s.prod → UKF nx ns put.nsigma o p) (h : RUKF (RD s) a t) :
    Sim (RUKF (RD s)) (BUKF.predictionDiff put M a) fun b => UKF.predictionDiff put M (t b) := by
  unfold BUKF.predictionDiff UKF.predictionDiff
  rcases h.pred with ⟨h1, h2⟩ | ⟨pr, pw, h1, h2, hr⟩
  · simp only [h1, h2]; exact Sim.error _ _
  · have e1 : a.d.dx_dq = arr s fun b => (t b).dx_dq := h.d.dx_dq
    have e2 : a.d.dPx_dq = arr s fun b => (t b).dPx_dq := h.d.dPx_dq
    simp only [h1, h2, e1, e2, h.k]
    refine (sim_transformDiff hp hr.ut _ _ _ _).bind fun dv dw hd => ?_
    rw [hr.prev_x, hd.dPo_dq]
    simp only [map_arr, binop_arr, py_bind_ok, py_pure]
    exact Sim.pure ⟨h.x, h.Px, fun _ => rfl, h.L, ⟨h.d.dL_dq, h.d.d2L_dq2, hd.do_dq, rfl, h.d.d2x_dq2, h.d.d2Px_dq2⟩,
      .inr ⟨_, _, rfl, fun _ => rfl, rfl, hr.ut, .inr ⟨_, _, rfl, fun _ => rfl, hd, rfl, rfl⟩⟩, h.last⟩

omit [Fintype o] in
theorem sim_predictionDiff2 {ns : Nat} (put : UT nx) (hp : 2 * nx ≤ put.nsigma) (M : KModel nx o p) (a : BUKF nx o p)
    (t : Fin s.prod → UKF nx ns put.nsigma o p) (h : RUKF (RD s) a t) :
    Sim (RUKF (RD s)) (BUKF.predictionDiff2 put M a) fun b => UKF.predictionDiff2 put M (t b) := by
  unfold BUKF.predictionDiff2 UKF.predictionDiff2
  rcases h.pred with ⟨h1, h2⟩ | ⟨pr, pw, h1, h2, hr⟩
  · simp only [h1, h2]; exact Sim.error _ _
  simp only [h1, h2]
  rcases hr.diff with ⟨h3, h4⟩ | ⟨c, cw, h3, h4, hd⟩
  · simp only [h3, h4]; exact Sim.error _ _
  · have e1 : a.d.d2x_dq2 = arr s fun b => (t b).d2x_dq2 := h.d.d2x_dq2
    have e2 : a.d.d2Px_dq2 = arr s fun b => (t b).d2Px_dq2 := h.d.d2Px_dq2
    obtain ⟨r, k1, k2⟩ := transformDiff2_arr hp hr.ut hd.ut (M.d2f_dq2 (a.k - 1)) (M.d2f_dx2 (a.k - 1)) (M.d2f_dx_dq (a.k - 1))
      (fun b => (t b).d2x_dq2) (fun b => (t b).d2Px_dq2)
    simp only [h3, h4, e1, e2, h.k, k1, py_bind_ok]
    unfold BUKF.noiseDiff2
    rw [hr.prev_x, hd.dQ_dx, hd.dx_dq, k2.d2Po_dq2]
    simp only [map_arr, binop_arr, iadd_arr, py_bind_ok, py_pure]
    exact Sim.pure ⟨h.x, h.Px, fun _ => rfl, h.L, ⟨h.d.dL_dq, h.d.d2L_dq2, h.d.dx_dq, h.d.dPx_dq, k2.d2o_dq2, rfl⟩, .inr ⟨_, _, rfl, fun _ => rfl, hr⟩, h.last⟩

/-! ### base.py -/

variable (put cut : UT nx) (hp : 2 * nx ≤ put.nsigma) (hc : 2 * nx ≤ cut.nsigma) (M : KModel nx o p)
include hp hc

theorem sim_gradientStep (y : List (MaskedRow o)) (k : Nat) (a : BUKF nx o p) (t : Fin s.prod → UKF nx cut.nsigma put.nsigma o p)
    (h : RUKF (RD s) a t) :
    Sim (RUKF (RD s)) ((BUKF.dcls put cut M).gradientStep y a k) fun b => (UKF.cls put cut M).gradientStep y (t b) k := by
  unfold BDFilterClass.gradientStep FilterClass.gradientStep
  refine (sim_row y k).bind fun r r' hr => ?_
  simp only [hr]
  refine (sim_ukf_correct cut hc M r a t h).bind fun v w hv => ?_
  refine (sim_correctionDiff cut hc M _ _ hv.2).bind fun v w hv => ?_
  refine (sim_ukf_likelihood _ _ hv).bind fun v w hv => ?_
  refine (sim_likelihoodDiff _ _ hv).bind fun v w hv => ?_
  split
  · refine (sim_ukf_predict put hp M _ _ hv).bind fun v w hv => ?_
    exact sim_predictionDiff put hp M _ _ hv.2
  · exact Sim.pure hv

theorem sim_hessianStep (y : List (MaskedRow o)) (k : Nat) (a : BUKF nx o p) (t : Fin s.prod → UKF nx cut.nsigma put.nsigma o p)
    (h : RUKF (RD s) a t) :
    Sim (RUKF (RD s)) ((BUKF.dcls put cut M).hessianStep y a k) fun b => (UKF.cls put cut M).hessianStep y (t b) k := by
  unfold BDFilterClass.hessianStep FilterClass.hessianStep
  refine (sim_row y k).bind fun r r' hr => ?_
  simp only [hr]
  refine (sim_ukf_correct cut hc M r a t h).bind fun v w hv => ?_
  refine (sim_correctionDiff cut hc M _ _ hv.2).bind fun v w hv => ?_
  refine (sim_correctionDiff2 cut hc M _ _ hv).bind fun v w hv => ?_
  refine (sim_ukf_likelihood _ _ hv).bind fun v w hv => ?_
  refine (sim_likelihoodDiff _ _ hv).bind fun v w hv => ?_
  refine (sim_likelihoodDiff2 _ _ hv).bind fun v w hv => ?_
  split
  · refine (sim_ukf_predict put hp M _ _ hv).bind fun v w hv => ?_
    refine (sim_predictionDiff put hp M _ _ hv.2).bind fun v w hv => ?_
    exact sim_predictionDiff2 put hp M _ _ hv
  · exact Sim.pure hv

theorem sim_pemGradient (y : List (MaskedRow o)) {a : BUKF nx o p} {t : Fin s.prod → UKF nx cut.nsigma put.nsigma o p} (h : RUKF (RD s) a t) :
    Sim (fun v w => v.1 = arr s (fun b => (w b).1) ∧ RUKF (RD s) v.2 fun b => (w b).2) ((BUKF.dcls put cut M).pemGradient y a)
      fun b => (UKF.cls put cut M).pemGradient y (t b) := by
  unfold BDFilterClass.pemGradient FilterClass.pemGradient
  refine (Sim.foldlM (g := (BUKF.dcls put cut M).gradientStep y) (h := fun _ => (UKF.cls put cut M).gradientStep y) (List.range y.length)
    (fun k _ v w hv => sim_gradientStep put cut hp hc M y k v w hv) h).bind fun v w hv => ?_
  exact Sim.pure ⟨hv.d.dL_dq, hv⟩

theorem sim_pemHessian (y : List (MaskedRow o)) {a : BUKF nx o p} {t : Fin s.prod → UKF nx cut.nsigma put.nsigma o p} (h : RUKF (RD s) a t) :
    Sim (fun v w => v.1 = arr s (fun b => (w b).1) ∧ RUKF (RD s) v.2 fun b => (w b).2) ((BUKF.dcls put cut M).pemHessian y a)
      fun b => (UKF.cls put cut M).pemHessian y (t b) := by
  unfold BDFilterClass.pemHessian FilterClass.pemHessian
  refine (Sim.foldlM (g := (BUKF.dcls put cut M).hessianStep y) (h := fun _ => (UKF.cls put cut M).hessianStep y) (List.range y.length)
    (fun k _ v w hv => sim_hessianStep put cut hp hc M y k v w hv) h).bind fun v w hv => ?_
  exact Sim.pure ⟨hv.d.d2L_dq2, hv⟩

end Methods
end Ceacoest
