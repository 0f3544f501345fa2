import Verif.Lemmas.KalmanRun2
import Verif.Spec.KalmanLocal

/-! # Runs of the unscented filter of a model that is smooth where it is looked at -/

namespace Ceacoest
open Matrix Spec Filter Topology FilterClass
variable {nx : Nat} {o p : Type} [Fintype o] [LinearOrder o] {put cut : UT nx} {D : Set (Fin nx → ℝ)}

open Classical in
/-- A prediction that raises if it would look outside of the set. -/
noncomputable def guarded (put : UT nx) (D : Set (Fin nx → ℝ)) (h : FilterAttrs nx p → Py (FilterAttrs nx p)) (A : FilterAttrs nx p) : Py (FilterAttrs nx p) :=
  if PointsIn put D A.x A.Px then h A else .error .runtimeError

theorem guarded_ok {h : FilterAttrs nx p → Py (FilterAttrs nx p)} {A : FilterAttrs nx p} (hA : PointsIn put D A.x A.Px) : guarded put D h A = h A := if_pos hA

theorem guarded_cases {h : FilterAttrs nx p → Py (FilterAttrs nx p)} {A B : FilterAttrs nx p} (hA : guarded put D h A = .ok B) : PointsIn put D A.x A.Px ∧ h A = .ok B := by
  unfold guarded at hA
  split at hA
  case isTrue h' => exact ⟨h', hA⟩
  case isFalse => cases hA

/-- A run that stays in the set is a run of the guarded prediction. -/
theorem walk_guarded {Y : Type} {g : Y → FilterAttrs nx p → Py (FilterAttrs nx p)} {h : FilterAttrs nx p → Py (FilterAttrs nx p)} (y : List Y) (A B : FilterAttrs nx p)
    (hw : walk g h y A = .ok B) (hs : ∀ n C, n + 1 < y.length → walk g h (y.take (n + 1)) A = .ok C → PointsIn put D C.x C.Px) : walk g (guarded put D h) y A = .ok B := by
  induction y generalizing A with
  | nil => exact hw
  | cons a y ih =>
    cases y with
    | nil => exact hw
    | cons b y =>
      obtain ⟨A1, h1, hw⟩ := py_bind_eq_ok hw
      obtain ⟨A2, h2, hw⟩ := py_bind_eq_ok hw
      have hp := hs 0 A1 (by simp) h1
      have := ih A2 hw fun n C hn hC => hs (n + 1) C (by simpa using hn) (by
        rw [List.take_succ_cons]
        simp only [List.take_succ_cons] at hC ⊢
        simp only [walk, h1, h2, py_bind_ok, hC])
      simp only [walk, h1, py_bind_ok, guarded_ok hp, h2, this]

/-- … and conversely. -/
theorem walk_of_guarded {Y : Type} {g : Y → FilterAttrs nx p → Py (FilterAttrs nx p)} {h : FilterAttrs nx p → Py (FilterAttrs nx p)} (y : List Y) (A B : FilterAttrs nx p)
    (hw : walk g (guarded put D h) y A = .ok B) : walk g h y A = .ok B := by
  induction y generalizing A with
  | nil => exact hw
  | cons a y ih =>
    cases y with
    | nil => exact hw
    | cons b y =>
      obtain ⟨A1, h1, hw⟩ := py_bind_eq_ok hw
      obtain ⟨A2, h2, hw⟩ := py_bind_eq_ok hw
      simp only [walk, h1, py_bind_ok, (guarded_cases h2).2, ih A2 hw]

section
variable {M M' : KModel nx o p}

theorem hessP_agree (hM : AgreeOn D M M') : guarded put D (hessP put M) = guarded put D (hessP put M') := by
  funext A
  by_cases hA : PointsIn put D A.x A.Px
  · rw [guarded_ok hA, guarded_ok hA]
    obtain ⟨hx, hs⟩ := hA
    unfold hessP UT.transform
    cases e : put.sigmaPoints A.x A.Px with
    | error e => rfl
    | ok r =>
      obtain ⟨S, idev, isigma⟩ := r
      have hk := hs S idev isigma e
      have ef : (fun k => M.f A.k (isigma k)) = fun k => M'.f A.k (isigma k) := funext fun k => hM.f _ _ (hk k)
      have e1 : (fun k => M.df_dx A.k (isigma k)) = fun k => M'.df_dx A.k (isigma k) := funext fun k => hM.df_dx _ _ (hk k)
      have eQ := hM.Q A.k A.x hx
      have e2 := fun k => hM.df_dq A.k _ (hk k)
      have e3 := fun k => hM.d2f_dx2 A.k _ (hk k)
      have e4 := fun k => hM.d2f_dx_dq A.k _ (hk k)
      have e5 := fun k => hM.d2f_dq2 A.k _ (hk k)
      have e6 := hM.dQ_dx A.k A.x hx
      have e7 := hM.dQ_dq A.k A.x hx
      have e8 := hM.d2Q_dx2 A.k A.x hx
      have e9 := hM.d2Q_dx_dq A.k A.x hx
      have e10 := hM.d2Q_dq2 A.k A.x hx
      have ef' := fun k => hM.f A.k _ (hk k)
      have e1' := fun k => hM.df_dx A.k _ (hk k)
      have t1 : totalQ M A = totalQ M' A := by
        funext b
        unfold totalQ
        rw [e6, e7]
      have t2 : totalQ2 M A = totalQ2 M' A := by
        funext b b'
        unfold totalQ2
        rw [e6, e8, e9, e10]
      simp only [py_bind_ok, py_pure, UT.transformDiff, UT.transformDiff2, ef', e1', e2, e3, e4, e5, eQ, t1, t2]
  · unfold guarded
    rw [if_neg hA, if_neg hA]

theorem hessA_agree (hM : AgreeOn D M M') : hessA cut M = hessA cut M' := by
  funext y A
  unfold hessA coreY coreDiffY coreDiff2Y
  simp only [hM.h, hM.dh_dx, hM.dh_dq, hM.d2h_dx2, hM.d2h_dx_dq, hM.d2h_dq2, hM.R, hM.dR_dq, hM.d2R_dq2]

end

variable [Fintype p] {M M' : (p → ℝ) → KModel nx o p} {A B : (p → ℝ) → FilterAttrs nx p} {q₀ : p → ℝ}

/-- If the set is open, the points stay in it nearby. -/
theorem pointsIn_eventually (hk : put.kind = .cholesky) (hD : IsOpen D) (hM : SmoothModel M q₀) (hA : SmoothAttrs A q₀) {B₀ : FilterAttrs nx p}
    (h : hessP put (M q₀) (A q₀) = .ok B₀) (hp : PointsIn put D (A q₀).x (A q₀).Px) : ∀ᶠ q in 𝓝 q₀, PointsIn put D (A q).x (A q).Px := by
  have hx : ∀ᶠ q in 𝓝 q₀, (A q).x ∈ D := by
    have hc : ContinuousAt (fun q => (A q).x) q₀ := continuousAt_pi.2 fun i => (hA.x i).continuousAt
    exact hc.eventually (hD.mem_nhds hp.1)
  obtain ⟨d₀, hd₀, -⟩ := py_bind_eq_ok h
  obtain ⟨d, hd⟩ := choose_ok (transform_eventually (i := fun q => (A q).x) (P := fun q => (A q).Px) (f := fun q => (M q).f (A q₀).k) hk hd₀ hA.Px)
  obtain ⟨dd, hdd⟩ := diff_ok hk hd.self_of_nhds ((M q₀).df_dq (A q₀).k) ((M q₀).df_dx (A q₀).k) (A q₀).dx_dq (A q₀).dPx_dq
  have G := transform_grad hd hA.x hA.Px (fun x j => hM.f (A q₀).k x j) hdd
  have hsig : ∀ q, put.transform (A q).x (A q).Px ((M q).f (A q₀).k) = .ok (d q) → ∀ S idev isigma, put.sigmaPoints (A q).x (A q).Px = .ok (S, idev, isigma) → (d q).isigma = isigma := by
    intro q hq S idev isigma hs
    unfold UT.transform at hq
    rw [hs, py_bind_ok] at hq
    exact (congrArg UTData.isigma (Except.ok.inj hq)).symm
  have h0 : ∀ k, (d q₀).isigma k ∈ D := by
    obtain ⟨r, hr, -⟩ := py_bind_eq_ok hd.self_of_nhds
    obtain ⟨S, idev, isigma⟩ := r
    rw [hsig q₀ hd.self_of_nhds _ _ _ hr]
    exact hp.2 _ _ _ hr
  have hs : ∀ᶠ q in 𝓝 q₀, ∀ k, (d q).isigma k ∈ D := by
    rw [eventually_all]
    intro k
    have hc : ContinuousAt (fun q => (d q).isigma k) q₀ := continuousAt_pi.2 fun i => (G.isigma k i).continuousAt
    exact hc.eventually (hD.mem_nhds (h0 k))
  filter_upwards [hx, hs, hd] with q h1 h2 h3
  exact ⟨h1, fun S idev isigma hs => hsig q h3 S idev isigma hs ▸ h2⟩

/-- Second derivatives along a run in an open set, of a model that agrees there with a smooth one. -/
theorem hess_run_local (hp : put.kind = .cholesky) (hc : cut.kind = .cholesky) (hD : IsOpen D) (hM : SmoothModel2 M' q₀) (hag : ∀ᶠ q in 𝓝 q₀, AgreeOn D (M q) (M' q)) (y : List (MaskedRow o))
    (A : (p → ℝ) → FilterAttrs nx p) (hA : SmoothAttrs2 A q₀) {B₀ : FilterAttrs nx p}
    (h : walk (hessA cut (M q₀)) (guarded put D (hessP put (M q₀))) y (A q₀) = .ok B₀) :
    ∃ B, SmoothAttrs2 B q₀ ∧ ∀ᶠ q in 𝓝 q₀, walk (hessA cut (M q)) (hessP put (M q)) y (A q) = .ok (B q) := by
  rw [hessA_agree hag.self_of_nhds, hessP_agree hag.self_of_nhds] at h
  obtain ⟨B, hB, e⟩ := walk_family (g := fun q => hessA cut (M' q)) (h := fun q => guarded put D (hessP put (M' q))) (fun A => SmoothAttrs2 A q₀) (by
      intro y A B₀ hA h
      obtain ⟨C, hC, -⟩ := hess_grad y _ _ (A q₀) rfl h
      have : ∀ᶠ q in 𝓝 q₀, ∃ B, hessA cut (M' q) y (A q) = .ok B := by
        filter_upwards [gradA_eventually hc hM.near.self_of_nhds hA.near.self_of_nhds hC] with q hq
        obtain ⟨D, hD⟩ := hq
        exact (grad_hess y _ _ (A q) rfl hD).imp fun _ h => h.1
      obtain ⟨B, hB⟩ := choose_ok this
      exact ⟨B, hessA_smooth hM hA hB, hB⟩) (by
      intro A B₀ hA h
      obtain ⟨hpt, h⟩ := guarded_cases h
      obtain ⟨C, hC, -⟩ := hess_gradP _ _ (A q₀) rfl h
      have : ∀ᶠ q in 𝓝 q₀, ∃ B, hessP put (M' q) (A q) = .ok B := by
        filter_upwards [gradP_eventually (M := M') hp hA.near.self_of_nhds hC] with q hq
        obtain ⟨D, hD⟩ := hq
        exact (grad_hessP _ _ (A q) rfl hD).imp fun _ h => h.1
      obtain ⟨B, hB⟩ := choose_ok this
      refine ⟨B, hessP_smooth hM hA hB, ?_⟩
      filter_upwards [hB, pointsIn_eventually hp hD hM.near.self_of_nhds hA.near.self_of_nhds h hpt] with q h1 h2
      rw [guarded_ok h2, h1]) y A B₀ hA h
  refine ⟨B, hB, ?_⟩
  filter_upwards [e, hag] with q h1 h2
  rw [← hessA_agree h2, ← hessP_agree h2] at h1
  exact walk_of_guarded y _ _ h1

/-- A run that stays in a set, in terms of the passes. -/
theorem staysIn_walk {M : KModel nx o p} {y : List (MaskedRow o)} {s : UKF nx cut.nsigma put.nsigma o p} (h : StaysIn put cut M D y s) (n : Nat) (C : FilterAttrs nx p)
    (hn : n + 1 < y.length) (hw : walk (meritA cut M) (meritP put M) (y.take (n + 1)) s.toFilterAttrs = .ok C) : PointsIn put D C.x C.Px := by
  rw [walk_map (g := meritG (UKF.cls put cut M)) (h := meritH (UKF.cls put cut M)) UKF.toFilterAttrs meritG_map meritP_map] at hw
  obtain ⟨t, ht, hw⟩ := py_bind_eq_ok hw
  cases hw
  refine h n t.L t hn ?_
  rw [pemMerit_eq, ht]
  rfl

end Ceacoest
