import Verif.Lemmas.KalmanRun

/-! # Second derivatives along a run of the unscented filter -/

namespace Ceacoest
open Matrix Spec Filter Topology FilterClass
variable {nx : Nat} {o p : Type} [Fintype o] [LinearOrder o] {put cut : UT nx}
variable [Fintype p] {M : (p → ℝ) → KModel nx o p} {A B : (p → ℝ) → FilterAttrs nx p} {q₀ : p → ℝ} {y : MaskedRow o}

omit [Fintype o] [LinearOrder o] in
theorem SmoothAttrs2.congr (h : SmoothAttrs2 A q₀) (e : ∀ᶠ q in 𝓝 q₀, B q = A q) : SmoothAttrs2 B q₀ := by
  have e0 := e.self_of_nhds
  refine ⟨?_, fun b i => ?_, fun b i j => ?_, fun b => ?_⟩
  · filter_upwards [h.near, eventually_eventually_nhds.2 e] with q h1 h2
    exact h1.of_first (h2.mono fun q h => by rw [h])
  · rw [e0]
    exact (h.dx b i).congr (e.mono fun q h => by simp only [h])
  · rw [e0]
    exact (h.dPx b i j).congr (e.mono fun q h => by simp only [h])
  · rw [e0]
    exact (h.dL b).congr (e.mono fun q h => by simp only [h])

omit [Fintype o] [LinearOrder o] in
theorem SeededAttrs2.congr (h : SeededAttrs2 A q₀) (e : ∀ᶠ q in 𝓝 q₀, B q = A q) : SeededAttrs2 B q₀ := by
  have e0 := e.self_of_nhds
  refine ⟨h.here.of_first (e.mono fun q h => by rw [h]), fun b i => ?_, fun b i j => ?_, fun b => ?_⟩
  · rw [e0]
    exact (h.dx b i).congr (e.mono fun q h => by simp only [h])
  · rw [e0]
    exact (h.dPx b i j).congr (e.mono fun q h => by simp only [h])
  · rw [e0]
    exact (h.dL b).congr (e.mono fun q h => by simp only [h])

theorem hessA_at (hM : SmoothModel M q₀) (hA : SmoothAttrs A q₀)
    (h : ∀ᶠ q in 𝓝 q₀, hessA cut (M q) y (A q) = .ok (B q)) : SmoothAttrs B q₀ := by
  have hg : ∀ᶠ q in 𝓝 q₀, ∃ C, gradA cut (M q) y (A q) = .ok C :=
    h.mono fun q h => (hess_grad y (A q) (B q) (A q) rfl h).imp fun _ h => h.1
  obtain ⟨C, hC⟩ := choose_ok hg
  have e : ∀ᶠ q in 𝓝 q₀, (C q).first = (B q).first := by
    filter_upwards [h, hC] with q h1 h2
    obtain ⟨C', h3, h4⟩ := hess_grad y (A q) (B q) (A q) rfl h1
    rw [h2] at h3
    rw [Except.ok.inj h3, h4]
  exact (gradA_smooth hM hA hC).of_first e

theorem hessA_near (hM : ∀ᶠ q in 𝓝 q₀, SmoothModel M q) (hA : ∀ᶠ q in 𝓝 q₀, SmoothAttrs A q)
    (h : ∀ᶠ q in 𝓝 q₀, hessA cut (M q) y (A q) = .ok (B q)) : ∀ᶠ q in 𝓝 q₀, SmoothAttrs B q := by
  filter_upwards [hM, hA, eventually_eventually_nhds.2 h] with q h1 h2 h3
  exact hessA_at h1 h2 h3

theorem hessP_at (hM : SmoothModel M q₀) (hA : SmoothAttrs A q₀)
    (h : ∀ᶠ q in 𝓝 q₀, hessP put (M q) (A q) = .ok (B q)) : SmoothAttrs B q₀ := by
  have hg : ∀ᶠ q in 𝓝 q₀, ∃ C, gradP put (M q) (A q) = .ok C :=
    h.mono fun q h => (hess_gradP (A q) (B q) (A q) rfl h).imp fun _ h => h.1
  obtain ⟨C, hC⟩ := choose_ok hg
  have e : ∀ᶠ q in 𝓝 q₀, (C q).first = (B q).first := by
    filter_upwards [h, hC] with q h1 h2
    obtain ⟨C', h3, h4⟩ := hess_gradP (A q) (B q) (A q) rfl h1
    rw [h2] at h3
    rw [Except.ok.inj h3, h4]
  exact (gradP_smooth hM hA hC).of_first e

theorem hessP_near (hM : ∀ᶠ q in 𝓝 q₀, SmoothModel M q) (hA : ∀ᶠ q in 𝓝 q₀, SmoothAttrs A q)
    (h : ∀ᶠ q in 𝓝 q₀, hessP put (M q) (A q) = .ok (B q)) : ∀ᶠ q in 𝓝 q₀, SmoothAttrs B q := by
  filter_upwards [hM, hA, eventually_eventually_nhds.2 h] with q h1 h2 h3
  exact hessP_at h1 h2 h3

theorem hessA_seeded (hM : SmoothModel2 M q₀) (hA : SeededAttrs2 A q₀)
    (h : ∀ᶠ q in 𝓝 q₀, hessA cut (M q) y (A q) = .ok (B q)) : SeededAttrs2 B q₀ := by
  have near := hessA_at hM.near.self_of_nhds hA.here h
  by_cases hy : ∀ j, y.mask j = true
  · refine hA.congr (h.mono fun q h => ?_)
    rw [hessA_masked hy] at h
    exact (Except.ok.inj h).symm
  · have hk := hA.here.k
    have hr : ∀ᶠ q in 𝓝 q₀, ∃ r, coreY cut (M q) y (A q) = .ok r := by
      filter_upwards [h] with q h
      rcases hessA_cases h with ⟨hy', -⟩ | ⟨-, r, c, ch, hr, -⟩
      · exact absurd hy' hy
      · exact ⟨r, hr⟩
    obtain ⟨r, hr⟩ := choose_ok hr
    have hc : ∀ᶠ q in 𝓝 q₀, ∃ c, coreDiffY cut (M q) y (A q) (r q).2 = .ok c := by
      filter_upwards [h, hr] with q h hr
      rcases hessA_cases h with ⟨hy', -⟩ | ⟨-, r', c, ch, hr', hc, -⟩
      · exact absurd hy' hy
      · rw [hr] at hr'
        cases hr'
        exact ⟨c, hc⟩
    obtain ⟨c, hc⟩ := choose_ok hc
    have hch : ∀ᶠ q in 𝓝 q₀, ∃ ch, cholDiff (r q).2.PyC (c q).1.dPy_dq = .ok ch := by
      filter_upwards [h, hr, hc] with q h hr hc
      rcases hessA_cases h with ⟨hy', -⟩ | ⟨-, r', c, ch, hr', hc', hch, -⟩
      · exact absurd hy' hy
      · rw [hr] at hr'
        cases hr'
        rw [hc] at hc'
        cases hc'
        exact ⟨ch, hch⟩
    obtain ⟨ch, hch⟩ := choose_ok hch
    have hB : ∀ᶠ q in 𝓝 q₀, B q = ⟨(r q).1.1, (r q).1.2, (A q).k,
        (A q).L - 0.5 * (∑ i, ∑ j, (r q).2.e i * (r q).2.PyI i j * (r q).2.e j) - ∑ k, Real.log ((r q).2.PyC k k),
        dlike (r q).2 (c q).1 (ch q) (A q).dL_dq, d2like (r q).2 (c q).1 (coreDiff2Y cut (M q) y (A q) (r q).2 (c q).1).1 (ch q) (A q).d2L_dq2,
        (c q).2.1, (c q).2.2,
        (coreDiff2Y cut (M q) y (A q) (r q).2 (c q).1).2.1, (coreDiff2Y cut (M q) y (A q) (r q).2 (c q).1).2.2⟩ := by
      filter_upwards [h, hr, hc, hch] with q h h1 h2 h3
      rw [hessA_of hy h1 h2 h3] at h
      exact (Except.ok.inj h).symm
    have hcore : ∀ᶠ q in 𝓝 q₀, UKF.core cut (A q).x (A q).Px (fun j : y.Active => y.data j.1) (fun x j => (M q).h (A q₀).k x j.1)
        (activeR y (M q).R) = .ok (r q) := by
      filter_upwards [hr, coreY_const (cut := cut) (M := M) (y := y) hk] with q h1 h2
      rw [← h2, h1]
    have hcore' : ∀ᶠ q in 𝓝 q₀, UKF.coreDiff cut (r q).2 (fun x a j => (M q).dh_dq (A q₀).k x a j.1) (fun x i j => (M q).dh_dx (A q₀).k x i j.1)
        (fun a => activeR y ((M q).dR_dq a)) (A q).dx_dq (A q).dPx_dq = .ok (c q) := by
      filter_upwards [hc, hk] with q h1 h2
      unfold coreDiffY at h1
      rw [h2] at h1
      exact h1
    have hC : ∀ᶠ q in 𝓝 q₀, cholU (r q).2.Py = .ok (r q).2.PyC :=
      hcore.mono fun q h => (core_transform (m := (r q).1) (d := (r q).2) h).2.2
    have hM0 := hM.near.self_of_nhds
    have hA0 := hA.here
    have G := core_grad (x := fun q => (A q).x) (P := fun q => (A q).Px) (R := fun q => activeR y (M q).R) hA0.x hA0.Px
      (fun x j => hM0.h (A q₀).k x j.1) (dR := fun a => activeR y ((M q₀).dR_dq a)) (fun i j => hM0.R i.1 j.1) (activeR_symm' hM0.symm) hcore
      (c := (c q₀).1) (dx' := (c q₀).2.1) (dP' := (c q₀).2.2) hcore'.self_of_nhds
    have G2 := core_grad2 (cut := cut) (x := fun q => (A q).x) (P := fun q => (A q).Px) (y := fun j : y.Active => y.data j.1)
      (h := fun q x (j : y.Active) => (M q).h (A q₀).k x j.1) (R := fun q => activeR y (M q).R)
      (dh_dq := fun q x a j => (M q).dh_dq (A q₀).k x a j.1) (dh_dx := fun q x i j => (M q).dh_dx (A q₀).k x i j.1)
      (dR := fun q a => activeR y ((M q).dR_dq a)) (dx := fun q => (A q).dx_dq) (dP := fun q => (A q).dPx_dq)
      (d2h_dq2 := fun x a b j => (M q₀).d2h_dq2 (A q₀).k x a b j.1) (d2h_dx2 := fun x i l j => (M q₀).d2h_dx2 (A q₀).k x i l j.1)
      (d2h_dx_dq := fun x a i j => (M q₀).d2h_dx_dq (A q₀).k x a i j.1) (d2R := fun a b => activeR y ((M q₀).d2R_dq2 a b))
      (d2x := (A q₀).d2x_dq2) (d2P := (A q₀).d2Px_dq2)
      hA.here.x hA.here.Px (hM.near.mono fun q h x j => h.h (A q₀).k x j.1)
      (hM.near.mono fun q h i j => h.R i.1 j.1) (activeR_symm' hM0.symm) hA.dx hA.dPx (fun x b j => hM.dh_dq (A q₀).k x b j.1)
      (fun x i j => hM.dh_dx (A q₀).k x i j.1) (fun b i j => hM.dR_dq b i.1 j.1) hcore hcore'
    have hL := like_grad2 (cut := cut) G G2 hC hch hA.dL
    have hB0 := hB.self_of_nhds
    refine ⟨near, fun b i => ?_, fun b i j => ?_, fun b => ?_⟩
    · rw [hB0]
      exact (G2.mean b i).congr (hB.mono fun q h => by simp only [h])
    · rw [hB0]
      exact (G2.cov b i j).congr (hB.mono fun q h => by simp only [h])
    · rw [hB0]
      exact (hL b).congr (hB.mono fun q h => by simp only [h])

theorem totalQ2_grad (hM : SmoothModel2 M q₀) (hA : SeededAttrs2 A q₀) (b : p) :
    MGrad (fun q => totalQ (M q) (A q) b) (fun a => totalQ2 (M q₀) (A q₀) a b) q₀ := by
  intro i j
  have hA0 := hA.here
  have hsym : ∀ l m, (M q₀).d2Q_dx2 (A q₀).k (A q₀).x l m i j = (M q₀).d2Q_dx2 (A q₀).k (A q₀).x m l i j := by
    have H : HasHess (fun x => (M q₀).Q (A q₀).k x i j) (fun x l => (M q₀).dQ_dx (A q₀).k x l i j)
        (fun m l => (M q₀).d2Q_dx2 (A q₀).k (A q₀).x l m i j) (A q₀).x :=
      ⟨Eventually.of_forall fun x => (hM.near.self_of_nhds.Q (A q₀).k x i j).right, fun l => (hM.dQ_dx (A q₀).k (A q₀).x l i j).right⟩
    exact fun l m => H.symm m l
  have h1 := (hM.dQ_dq (A q₀).k (A q₀).x b i j).comp (X := fun q => (A q).x) hA0.x
  have h2 := hasGrad_sum (Finset.univ : Finset (Fin nx)) fun l _ =>
    (hA.dx b l).mul ((hM.dQ_dx (A q₀).k (A q₀).x l i j).comp (X := fun q => (A q).x) hA0.x)
  refine ((h1.add h2).congr ?_).congr_grad fun a => ?_
  · filter_upwards [hA0.k] with q h
    simp only [totalQ, h, Matrix.add_apply, of_apply]
  · simp only [totalQ2, Matrix.add_apply, of_apply]
    have e1 : ∀ l, ∑ m, (A q₀).dx_dq b l * (M q₀).d2Q_dx2 (A q₀).k (A q₀).x m l i j * (A q₀).dx_dq a m =
        (A q₀).dx_dq b l * ∑ m, (M q₀).d2Q_dx2 (A q₀).k (A q₀).x l m i j * (A q₀).dx_dq a m := by
      intro l
      rw [Finset.mul_sum]
      exact Finset.sum_congr rfl fun m _ => by rw [hsym m l]; ring
    simp only [e1]
    simp only [mul_add, Finset.sum_add_distrib]
    have e2 : ∑ l, (M q₀).d2Q_dx_dq (A q₀).k (A q₀).x b l i j * (A q₀).dx_dq a l = ∑ l, (A q₀).dx_dq a l * (M q₀).d2Q_dx_dq (A q₀).k (A q₀).x b l i j :=
      Finset.sum_congr rfl fun l _ => mul_comm _ _
    rw [e2]
    ring

theorem hessP_seeded (hM : SmoothModel2 M q₀) (hA : SeededAttrs2 A q₀)
    (h : ∀ᶠ q in 𝓝 q₀, hessP put (M q) (A q) = .ok (B q)) : SeededAttrs2 B q₀ := by
  have near := hessP_at hM.near.self_of_nhds hA.here h
  have hk := hA.here.k
  have hd : ∀ᶠ q in 𝓝 q₀, ∃ d, put.transform (A q).x (A q).Px ((M q).f (A q).k) = .ok d := by
    filter_upwards [h] with q h
    obtain ⟨d, hd, -⟩ := py_bind_eq_ok h
    exact ⟨d, hd⟩
  obtain ⟨d, hd⟩ := choose_ok hd
  have hdd : ∀ᶠ q in 𝓝 q₀, ∃ dd, put.transformDiff (d q) ((M q).df_dq (A q).k) ((M q).df_dx (A q).k) (A q).dx_dq (A q).dPx_dq = .ok dd := by
    filter_upwards [h, hd] with q h hd
    obtain ⟨d', hd', h⟩ := py_bind_eq_ok h
    rw [hd] at hd'
    cases hd'
    obtain ⟨dd, hdd, h⟩ := py_bind_eq_ok h
    exact ⟨dd, hdd⟩
  obtain ⟨dd, hdd⟩ := choose_ok hdd
  obtain ⟨d2, hd2⟩ : ∃ d2 : (p → ℝ) → UTDiff2 put.nsigma (Fin nx) (Fin nx) p, ∀ q, put.transformDiff2 (d q) (dd q) ((M q).d2f_dq2 (A q).k)
    ((M q).d2f_dx2 (A q).k) ((M q).d2f_dx_dq (A q).k) (A q).d2x_dq2 (A q).d2Px_dq2 = d2 q := ⟨_, fun _ => rfl⟩
  have hB : ∀ᶠ q in 𝓝 q₀, B q = { A q with
      k := (A q).k + 1, x := (d q).mean, Px := (d q).Po + (M q).Q (A q).k (A q).x, dx_dq := (dd q).do_dq,
      dPx_dq := fun b => (dd q).dPo_dq b + totalQ (M q) (A q) b, d2x_dq2 := (d2 q).d2o_dq2,
      d2Px_dq2 := fun b b' => (d2 q).d2Po_dq2 b b' + totalQ2 (M q) (A q) b b' } := by
    filter_upwards [h, hd, hdd] with q h h1 h2
    rw [hessP_of h1 h2, hd2] at h
    exact (Except.ok.inj h).symm
  have ht : ∀ᶠ q in 𝓝 q₀, put.transform (A q).x (A q).Px ((M q).f (A q₀).k) = .ok (d q) := by
    filter_upwards [hd, hk] with q h1 h2
    rw [← h2, h1]
  have ht' : ∀ᶠ q in 𝓝 q₀, put.transformDiff (d q) ((M q).df_dq (A q₀).k) ((M q).df_dx (A q₀).k) (A q).dx_dq (A q).dPx_dq = .ok (dd q) := by
    filter_upwards [hdd, hk] with q h1 h2
    rw [← h2, h1]
  have hM0 := hM.near.self_of_nhds
  have hA0 := hA.here
  have G2 := transform_grad2 (ut := put) (i := fun q => (A q).x) (P := fun q => (A q).Px) (f := fun q => (M q).f (A q₀).k) (d := d)
    (df_dq := fun q => (M q).df_dq (A q₀).k) (df_di := fun q => (M q).df_dx (A q₀).k) (di := fun q => (A q).dx_dq) (dP := fun q => (A q).dPx_dq)
    (d2f_dq2 := (M q₀).d2f_dq2 (A q₀).k) (d2f_di2 := (M q₀).d2f_dx2 (A q₀).k) (d2f_di_dq := (M q₀).d2f_dx_dq (A q₀).k)
    (d2i := (A q₀).d2x_dq2) (d2P := (A q₀).d2Px_dq2) (dd := dd) ht hA0.x hA0.Px (fun x j => hM0.f (A q₀).k x j) hA.dx hA.dPx (fun x b j => hM.df_dq (A q₀).k x b j)
    (fun x i j => hM.df_dx (A q₀).k x i j) ht'
  rw [hd2] at G2
  have hP := fun b => MGrad.add (G2.dPo b) (totalQ2_grad hM hA b)
  have hB0 := hB.self_of_nhds
  refine ⟨near, fun b i => ?_, fun b i j => ?_, fun b => ?_⟩
  · rw [hB0]
    exact (G2.do_dq b i).congr (hB.mono fun q h => by simp only [h])
  · rw [hB0]
    exact (hP b i j).congr (hB.mono fun q h => by simp only [h])
  · rw [hB0]
    exact (hA.dL b).congr (hB.mono fun q h => by simp only [h])

omit [Fintype o] [LinearOrder o] in
theorem SmoothAttrs2.seeded (h : SmoothAttrs2 A q₀) : SeededAttrs2 A q₀ := ⟨h.near.self_of_nhds, h.dx, h.dPx, h.dL⟩

omit [Fintype o] [LinearOrder o] in
theorem SeededAttrs2.smooth (h : SeededAttrs2 A q₀) (near : ∀ᶠ q in 𝓝 q₀, SmoothAttrs A q) : SmoothAttrs2 A q₀ := ⟨near, h.dx, h.dPx, h.dL⟩

theorem hessA_smooth (hM : SmoothModel2 M q₀) (hA : SmoothAttrs2 A q₀)
    (h : ∀ᶠ q in 𝓝 q₀, hessA cut (M q) y (A q) = .ok (B q)) : SmoothAttrs2 B q₀ :=
  (hessA_seeded hM hA.seeded h).smooth (hessA_near hM.near hA.near h)

theorem hessP_smooth (hM : SmoothModel2 M q₀) (hA : SmoothAttrs2 A q₀)
    (h : ∀ᶠ q in 𝓝 q₀, hessP put (M q) (A q) = .ok (B q)) : SmoothAttrs2 B q₀ :=
  (hessP_seeded hM hA.seeded h).smooth (hessP_near hM.near hA.near h)

/-! ### Runs -/

/-- A run that returns does so nearby, if each step does. -/
theorem walk_family {σ : Type} {g : (p → ℝ) → MaskedRow o → σ → Py σ} {h : (p → ℝ) → σ → Py σ} (I : ((p → ℝ) → σ) → Prop)
    (hg : ∀ y A B₀, I A → g q₀ y (A q₀) = .ok B₀ → ∃ B, I B ∧ ∀ᶠ q in 𝓝 q₀, g q y (A q) = .ok (B q))
    (hh : ∀ A B₀, I A → h q₀ (A q₀) = .ok B₀ → ∃ B, I B ∧ ∀ᶠ q in 𝓝 q₀, h q (A q) = .ok (B q)) (y : List (MaskedRow o)) (A : (p → ℝ) → σ) (B₀ : σ)
    (hA : I A) (hw : walk (g q₀) (h q₀) y (A q₀) = .ok B₀) : ∃ B, I B ∧ ∀ᶠ q in 𝓝 q₀, walk (g q) (h q) y (A q) = .ok (B q) := by
  induction y generalizing A with
  | nil => exact ⟨A, hA, Eventually.of_forall fun q => rfl⟩
  | cons a y ih =>
    cases y with
    | nil => exact hg a A B₀ hA hw
    | cons b y =>
      obtain ⟨A1, h1, hw⟩ := py_bind_eq_ok hw
      obtain ⟨A2, h2, hw⟩ := py_bind_eq_ok hw
      obtain ⟨B1, hB1, e1⟩ := hg a A A1 hA h1
      have : B1 q₀ = A1 := Except.ok.inj (e1.self_of_nhds.symm.trans h1)
      subst this
      obtain ⟨B2, hB2, e2⟩ := hh B1 A2 hB1 h2
      have : B2 q₀ = A2 := Except.ok.inj (e2.self_of_nhds.symm.trans h2)
      subst this
      obtain ⟨B3, hB3, e3⟩ := ih B2 hB2 hw
      refine ⟨B3, hB3, ?_⟩
      filter_upwards [e1, e2, e3] with q h1 h2 h3
      simp only [walk, h1, py_bind_ok, h2, h3]

theorem grad_run (hp : put.kind = .cholesky) (hc : cut.kind = .cholesky) (hM : SmoothModel M q₀) (y : List (MaskedRow o))
    (A : (p → ℝ) → FilterAttrs nx p) (hA : SmoothAttrs A q₀) {B₀ : FilterAttrs nx p}
    (h : walk (gradA cut (M q₀)) (gradP put (M q₀)) y (A q₀) = .ok B₀) :
    ∃ B, SmoothAttrs B q₀ ∧ ∀ᶠ q in 𝓝 q₀, walk (gradA cut (M q)) (gradP put (M q)) y (A q) = .ok (B q) := by
  refine walk_family (g := fun q => gradA cut (M q)) (h := fun q => gradP put (M q)) (fun A => SmoothAttrs A q₀) ?_ ?_ y A B₀ hA h
  · intro y A B₀ hA h
    obtain ⟨B, hB⟩ := choose_ok (gradA_eventually hc hM hA h)
    exact ⟨B, gradA_smooth hM hA hB, hB⟩
  · intro A B₀ hA h
    obtain ⟨B, hB⟩ := choose_ok (gradP_eventually hp hA h)
    exact ⟨B, gradP_smooth hM hA hB, hB⟩

theorem hess_run (hp : put.kind = .cholesky) (hc : cut.kind = .cholesky) (hM : SmoothModel2 M q₀) (y : List (MaskedRow o))
    (A : (p → ℝ) → FilterAttrs nx p) (hA : SmoothAttrs2 A q₀) {B₀ : FilterAttrs nx p}
    (h : walk (hessA cut (M q₀)) (hessP put (M q₀)) y (A q₀) = .ok B₀) :
    ∃ B, SmoothAttrs2 B q₀ ∧ ∀ᶠ q in 𝓝 q₀, walk (hessA cut (M q)) (hessP put (M q)) y (A q) = .ok (B q) := by
  refine walk_family (g := fun q => hessA cut (M q)) (h := fun q => hessP put (M q)) (fun A => SmoothAttrs2 A q₀) ?_ ?_ y A B₀ hA h
  · intro y A B₀ hA h
    obtain ⟨C, hC, -⟩ := hess_grad y _ _ (A q₀) rfl h
    have : ∀ᶠ q in 𝓝 q₀, ∃ B, hessA cut (M q) y (A q) = .ok B := by
      filter_upwards [gradA_eventually hc hM.near.self_of_nhds hA.near.self_of_nhds hC] with q hq
      obtain ⟨D, hD⟩ := hq
      exact (grad_hess y _ _ (A q) rfl hD).imp fun _ h => h.1
    obtain ⟨B, hB⟩ := choose_ok this
    exact ⟨B, hessA_smooth hM hA hB, hB⟩
  · intro A B₀ hA h
    obtain ⟨C, hC, -⟩ := hess_gradP _ _ (A q₀) rfl h
    have : ∀ᶠ q in 𝓝 q₀, ∃ B, hessP put (M q) (A q) = .ok B := by
      filter_upwards [gradP_eventually (M := M) hp hA.near.self_of_nhds hC] with q hq
      obtain ⟨D, hD⟩ := hq
      exact (grad_hessP _ _ (A q) rfl hD).imp fun _ h => h.1
    obtain ⟨B, hB⟩ := choose_ok this
    exact ⟨B, hessP_smooth hM hA hB, hB⟩

theorem hess_run_seeded (hp : put.kind = .cholesky) (hc : cut.kind = .cholesky) (hM : SmoothModel2 M q₀) (y : List (MaskedRow o))
    (A : (p → ℝ) → FilterAttrs nx p) (hA : SeededAttrs2 A q₀) {B₀ : FilterAttrs nx p}
    (h : walk (hessA cut (M q₀)) (hessP put (M q₀)) y (A q₀) = .ok B₀) :
    ∃ B, SeededAttrs2 B q₀ ∧ ∀ᶠ q in 𝓝 q₀, walk (hessA cut (M q)) (hessP put (M q)) y (A q) = .ok (B q) := by
  refine walk_family (g := fun q => hessA cut (M q)) (h := fun q => hessP put (M q)) (fun A => SeededAttrs2 A q₀) ?_ ?_ y A B₀ hA h
  · intro y A B₀ hA h
    obtain ⟨C, hC, -⟩ := hess_grad y _ _ (A q₀) rfl h
    have : ∀ᶠ q in 𝓝 q₀, ∃ B, hessA cut (M q) y (A q) = .ok B := by
      filter_upwards [gradA_eventually hc hM.near.self_of_nhds hA.here hC] with q hq
      obtain ⟨D, hD⟩ := hq
      exact (grad_hess y _ _ (A q) rfl hD).imp fun _ h => h.1
    obtain ⟨B, hB⟩ := choose_ok this
    exact ⟨B, hessA_seeded hM hA hB, hB⟩
  · intro A B₀ hA h
    obtain ⟨C, hC, -⟩ := hess_gradP _ _ (A q₀) rfl h
    have : ∀ᶠ q in 𝓝 q₀, ∃ B, hessP put (M q) (A q) = .ok B := by
      filter_upwards [gradP_eventually (M := M) hp hA.here hC] with q hq
      obtain ⟨D, hD⟩ := hq
      exact (grad_hessP _ _ (A q) rfl hD).imp fun _ h => h.1
    obtain ⟨B, hB⟩ := choose_ok this
    exact ⟨B, hessP_seeded hM hA hB, hB⟩

/-! ### In terms of the methods -/

section
variable {M : KModel nx o p}

theorem pemMerit_iff {y : List (MaskedRow o)} {s : UKF nx cut.nsigma put.nsigma o p} {L : ℝ} :
    (∃ s', (UKF.cls put cut M).pemMerit y s = .ok (L, s')) ↔ ∃ B, walk (meritA cut M) (meritP put M) y s.toFilterAttrs = .ok B ∧ B.L = L := by
  rw [walk_map (g := meritG (UKF.cls put cut M)) (h := meritH (UKF.cls put cut M)) UKF.toFilterAttrs meritG_map meritP_map, pemMerit_eq]
  cases walk (meritG (UKF.cls put cut M)) (meritH (UKF.cls put cut M)) y s with
  | error e => exact ⟨fun ⟨_, h⟩ => (by cases h), fun ⟨_, h, _⟩ => (by cases h)⟩
  | ok t => exact ⟨fun ⟨_, h⟩ => ⟨_, rfl, (by cases h; rfl)⟩, fun ⟨_, h, e⟩ => ⟨t, (by cases h; rw [← e]; rfl)⟩⟩

theorem pemGradient_iff {y : List (MaskedRow o)} {s : UKF nx cut.nsigma put.nsigma o p} {g : p → ℝ} :
    (∃ s', (UKF.cls put cut M).pemGradient y s = .ok (g, s')) ↔ ∃ B, walk (gradA cut M) (gradP put M) y s.toFilterAttrs = .ok B ∧ B.dL_dq = g := by
  rw [walk_map (g := gradientG (UKF.cls put cut M)) (h := gradientH (UKF.cls put cut M)) UKF.toFilterAttrs gradG_map gradP_map, pemGradient_eq]
  cases walk (gradientG (UKF.cls put cut M)) (gradientH (UKF.cls put cut M)) y s with
  | error e => exact ⟨fun ⟨_, h⟩ => (by cases h), fun ⟨_, h, _⟩ => (by cases h)⟩
  | ok t => exact ⟨fun ⟨_, h⟩ => ⟨_, rfl, (by cases h; rfl)⟩, fun ⟨_, h, e⟩ => ⟨t, (by cases h; rw [← e]; rfl)⟩⟩

theorem pemHessian_iff {y : List (MaskedRow o)} {s : UKF nx cut.nsigma put.nsigma o p} {g : p → p → ℝ} :
    (∃ s', (UKF.cls put cut M).pemHessian y s = .ok (g, s')) ↔ ∃ B, walk (hessA cut M) (hessP put M) y s.toFilterAttrs = .ok B ∧ B.d2L_dq2 = g := by
  rw [walk_map (g := hessianG (UKF.cls put cut M)) (h := hessianH (UKF.cls put cut M)) UKF.toFilterAttrs hessG_map hessP_map, pemHessian_eq]
  cases walk (hessianG (UKF.cls put cut M)) (hessianH (UKF.cls put cut M)) y s with
  | error e => exact ⟨fun ⟨_, h⟩ => (by cases h), fun ⟨_, h, _⟩ => (by cases h)⟩
  | ok t => exact ⟨fun ⟨_, h⟩ => ⟨_, rfl, (by cases h; rfl)⟩, fun ⟨_, h, e⟩ => ⟨t, (by cases h; rw [← e]; rfl)⟩⟩

end

end Ceacoest
