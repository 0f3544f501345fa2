import Verif.Lemmas.KalmanMerit
import Verif.Lemmas.KalmanDemo
import Verif.Props.KalmanAffine

/-! # C48: the likelihood -/

namespace Ceacoest
open Matrix Spec
variable {nx : Nat} {o p : Type} [Fintype o] [LinearOrder o]

section
variable {put cut : UT nx} {M : KModel nx o p}

/-- Time index and moments. -/
def UKF.prior {ns ns' : Nat} (s : UKF nx ns ns' o p) : ℤ × Moments nx := (s.k, s.x, s.Px)

theorem prior_correct {ns' : Nat} {y : MaskedRow o} {s t s' : UKF nx cut.nsigma ns' o p} {m : Moments nx} (hst : s.prior = t.prior)
    (h : UKF.correct cut M y s = .ok (m, s')) : ∃ t', UKF.correct cut M y t = .ok (m, t') ∧ s'.prior = t'.prior ∧ t'.L = t.L ∧ t'.last = s'.last := by
  obtain ⟨⟨x, P, k, L, dL, d2L, dx, dP, d2x, d2P⟩, pr, last⟩ := s
  obtain ⟨⟨x', P', k', L', dL', d2L', dx', dP', d2x', d2P'⟩, pr', last'⟩ := t
  cases hst
  rcases ukf_correct_cases h with ⟨hy, rfl, rfl⟩ | ⟨hy, d, hd, rfl⟩
  · exact ⟨_, ukf_correct_masked M hy _, rfl, rfl, rfl⟩
  · refine ⟨⟨⟨m.1, m.2, k, L', dL', d2L', dx', dP', d2x', d2P'⟩, pr', .data y d⟩, (ukf_correct_active M hy _).trans ?_, rfl, rfl, rfl⟩
    dsimp only at hd ⊢
    rw [hd]
    rfl

theorem prior_predict {ns : Nat} {s t s' : UKF nx ns put.nsigma o p} {m : Moments nx} (hst : s.prior = t.prior)
    (h : UKF.predict put M s = .ok (m, s')) : ∃ t', UKF.predict put M t = .ok (m, t') ∧ s'.prior = t'.prior ∧ t'.L = t.L := by
  obtain ⟨⟨x, P, k, L, dL, d2L, dx, dP, d2x, d2P⟩, pr, last⟩ := s
  obtain ⟨⟨x', P', k', L', dL', d2L', dx', dP', d2x', d2P'⟩, pr', last'⟩ := t
  cases hst
  obtain ⟨d, hd, rfl, rfl⟩ := ukf_predict_cases h
  exact ⟨_, ukf_predict_of _ hd, rfl, rfl⟩

/-- `update_likelihood` after a correction. -/
theorem contribution {ns' : Nat} (hR : M.Rᵀ = M.R) {y : MaskedRow o} {s s' : UKF nx cut.nsigma ns' o p} {m : Moments nx}
    (h : UKF.correct cut M y s = .ok (m, s')) :
    ∃ l s'', UKF.updateLikelihood s' = .ok s'' ∧ s''.prior = s'.prior ∧ s''.L = s.L + l ∧ Contribution cut M y s.prior l := by
  rcases ukf_correct_cases h with ⟨hy, rfl, rfl⟩ | ⟨hy, d, hd, rfl⟩
  · exact ⟨0, _, rfl, rfl, (add_zero _).symm, .inl ⟨hy, rfl⟩⟩
  · obtain ⟨ht, hcs, -, hch, -⟩ := ukf_core_ok (activeR_symm y hR) hd
    refine ⟨d.like, _, rfl, rfl, ?_, .inr ⟨hy, d.ut.S, d.ut.idev, d.ut.isigma, ?_⟩⟩
    · unfold UCorr.like
      ring
    · have ts := transform_spec ht
      have e : d.ut.isigma = fun k => d.ut.idev k + s.x := by funext k j; exact ts.isigma k j
      have hm : wmean cut.weights (fun k (j : y.Active) => M.h s.k (d.ut.isigma k) j.1) = d.ut.mean := by
        funext j
        exact (ts.mean j).symm
      have hC : wcov cut.weights (fun k (j : y.Active) => M.h s.k (d.ut.isigma k) j.1) (fun k j => M.h s.k (d.ut.isigma k) j.1) = d.ut.Po := by
        ext i j
        rw [ts.Po]
        simp only [wcov, hm]
        refine Finset.sum_congr rfl fun k _ => ?_
        rw [ts.odev, ts.odev]
        ring
      refine ⟨?_, ?_⟩
      · unfold UT.sigmaPoints
        dsimp only [UKF.prior]
        rw [ts.S, e, ts.idev]
        rfl
      · dsimp only [UKF.prior]
        rw [hC, hm]
        refine ⟨hch.posDef, ?_⟩
        rw [like_eq d hcs.PyI hch, hcs.inn]
        rfl

/-- **C48.** For the unscented filter, whenever `pem_merit` returns, it returns the initial likelihood plus what each sample contributes,
given the moments that the filter has before correcting with that sample. -/
theorem C48_ukf_partial (put cut : UT nx) (M : KModel nx o p) (hR : M.Rᵀ = M.R) (y : List (MaskedRow o)) (s s' : UKF nx cut.nsigma put.nsigma o p)
    (L : ℝ) (h : (UKF.cls put cut M).pemMerit y s = .ok (L, s')) :
    ∃ pr ls, priors (UKF.cls put cut M).correct (UKF.cls put cut M).predict UKF.prior y s = .ok pr ∧ pr.length = y.length ∧
      List.Forall₂ (fun r l => Contribution cut M r.1 r.2 l) (y.zip pr) ls ∧ L = s.L + ls.sum := by
  rw [pemMerit_eq] at h
  obtain ⟨s₁, h0, e⟩ := py_bind_eq_ok h
  cases e
  clear h
  rename' h0 => h
  suffices H : ∀ t : UKF nx cut.nsigma put.nsigma o p, s.prior = t.prior →
      ∃ pr ls, priors (UKF.cls put cut M).correct (UKF.cls put cut M).predict UKF.prior y t = .ok pr ∧ pr.length = y.length ∧
        List.Forall₂ (fun r l => Contribution cut M r.1 r.2 l) (y.zip pr) ls ∧ s'.L = s.L + ls.sum from H s rfl
  induction y generalizing s with
  | nil =>
    cases h
    exact fun t _ => ⟨[], [], rfl, rfl, .nil, by simp⟩
  | cons a y ih =>
    intro t hst
    cases y with
    | nil =>
      obtain ⟨⟨m, s1⟩, h1, h⟩ := py_bind_eq_ok h
      obtain ⟨t1, g1, -⟩ := prior_correct hst h1
      obtain ⟨l, s2, h2, -, h3, hl⟩ := contribution hR h1
      have h : UKF.updateLikelihood s1 = .ok s' := h
      rw [h2] at h
      cases h
      refine ⟨[t.prior], [l], ?_, rfl, .cons (hst ▸ hl) .nil, by simpa using h3⟩
      have g1 : (UKF.cls put cut M).correct a t = _ := g1
      simp only [priors, g1]
      rfl
    | cons b y =>
      obtain ⟨s2, h', h⟩ := py_bind_eq_ok h
      obtain ⟨⟨m, s1⟩, h1, h'⟩ := py_bind_eq_ok h'
      obtain ⟨s3, h'', h⟩ := py_bind_eq_ok h
      obtain ⟨⟨m', s4⟩, h4, h''⟩ := py_bind_eq_ok h''
      cases h''
      obtain ⟨l, s2', h2, hp2, h3, hl⟩ := contribution hR h1
      have h' : UKF.updateLikelihood s1 = .ok s2 := h'
      rw [h2] at h'
      cases h'
      obtain ⟨t1, g1, e1, -⟩ := prior_correct hst h1
      obtain ⟨t2, g2, e2, -⟩ := prior_predict (hp2.trans e1) h4
      have hL : s4.L = s2.L := by
        obtain ⟨d, -, -, rfl⟩ := ukf_predict_cases h4
        rfl
      obtain ⟨pr, ls, g3, hlen, hf, hs⟩ := ih s4 h t2 e2
      refine ⟨t.prior :: pr, l :: ls, ?_, by simp [hlen], .cons (hst ▸ hl) hf, ?_⟩
      · have g1 : (UKF.cls put cut M).correct a t = _ := g1
        have g2 : (UKF.cls put cut M).predict t1 = _ := g2
        simp only [priors, g1, py_bind_ok, g2] at g3 ⊢
        rw [g3]
        rfl
      · rw [hs, hL, h3, List.sum_cons]
        ring

/-- It returns whenever `filter` does, with the same moments in the end. -/
theorem C48_ukf_returns_partial (put cut : UT nx) (M : KModel nx o p) (hR : M.Rᵀ = M.R) (y : List (MaskedRow o))
    (s s' : UKF nx cut.nsigma put.nsigma o p) (ms : List (Moments nx)) (h : (UKF.cls put cut M).filter y s = .ok (ms, s')) :
    ∃ L s'', (UKF.cls put cut M).pemMerit y s = .ok (L, s'') ∧ s''.x = s'.x ∧ s''.Px = s'.Px ∧ s''.k = s'.k := by
  rw [filter_eq] at h
  suffices H : ∀ t : UKF nx cut.nsigma put.nsigma o p, s.prior = t.prior →
      ∃ t', walk (meritG (UKF.cls put cut M)) (meritH (UKF.cls put cut M)) y t = .ok t' ∧ s'.prior = t'.prior by
    obtain ⟨t', h1, h2⟩ := H s rfl
    refine ⟨t'.L, t', ?_, ?_⟩
    · rw [pemMerit_eq, h1]
      rfl
    · have e1 : s'.k = t'.k := congrArg Prod.fst h2
      have e2 : s'.x = t'.x := congrArg (fun z => z.2.1) h2
      have e3 : s'.Px = t'.Px := congrArg (fun z => z.2.2) h2
      exact ⟨e2.symm, e3.symm, e1.symm⟩
  induction y generalizing s ms with
  | nil =>
    cases h
    exact fun t ht => ⟨t, rfl, ht⟩
  | cons a y ih =>
    intro t hst
    cases y with
    | nil =>
      obtain ⟨r, h1, h⟩ := py_bind_eq_ok h
      cases h
      obtain ⟨t1, g1, e1, -⟩ := prior_correct hst h1
      obtain ⟨l, t2, g2, e2, -⟩ := contribution hR g1
      refine ⟨t2, ?_, e1.trans e2.symm⟩
      have g1 : (UKF.cls put cut M).correct a t = _ := g1
      simp only [walk, meritG, g1, py_bind_ok]
      exact g2
    | cons b y =>
      obtain ⟨r, h1, h⟩ := py_bind_eq_ok h
      obtain ⟨r', h2, h⟩ := py_bind_eq_ok h
      obtain ⟨r'', h3, h⟩ := py_bind_eq_ok h
      cases h
      obtain ⟨t1, g1, e1, -⟩ := prior_correct hst h1
      obtain ⟨l, t2, g2, e2, -⟩ := contribution hR g1
      obtain ⟨t3, g3, e3, -⟩ := prior_predict (e1.trans e2.symm) h2
      obtain ⟨t4, g4, e4⟩ := ih r'.2 r''.1 h3 t3 e3
      refine ⟨t4, ?_, e4⟩
      have g1 : (UKF.cls put cut M).correct a t = _ := g1
      have g2 : (UKF.cls put cut M).updateLikelihood t1 = _ := g2
      have g3 : (UKF.cls put cut M).predict t2 = _ := g3
      simp only [walk, meritG, meritH, g1, g2, g3, py_bind_ok]
      exact g4

end

/-- The full claim of C48 also says that `pem_merit` works for the extended filter. -/
def Full_C48 : Prop := ∀ (nx : Nat) (o p : Type) [Fintype o] [LinearOrder o] (M : KModel nx o p) (y : List (MaskedRow o)) (s s' : EKF nx o p)
  (ms : List (Moments nx)), (EKF.cls M).filter y s = .ok (ms, s') → ∃ L s'', (EKF.cls M).pemMerit y s = .ok (L, s'')

/-- It does not: `update_likelihood` reads an attribute that is never set, so that `pem_merit` of the extended filter raises
whenever some sample has an entry that is not masked, … -/
theorem C48_ekf_raises (M : KModel nx o p) (y : List (MaskedRow o)) (hy : ∃ r ∈ y, ∃ j, r.mask j = false) (s : EKF nx o p) :
    ∃ e, (EKF.cls M).pemMerit y s = .error e := by
  rw [pemMerit_eq]
  suffices H : ∃ e, walk (meritG (EKF.cls M)) (meritH (EKF.cls M)) y s = .error e by
    obtain ⟨e, he⟩ := H
    rw [he]
    exact ⟨e, rfl⟩
  have key : ∀ (a : MaskedRow o) (s : EKF nx o p), (∃ j, a.mask j = false) → ∃ e, meritG (EKF.cls M) a s = .error e := by
    rintro a s ⟨j, hj⟩
    have hne : ¬∀ j, a.mask j = true := fun h => by rw [h j] at hj; cases hj
    have e : meritG (EKF.cls M) a s = (EKF.correct M a s >>= fun r => EKF.updateLikelihood r.2) := rfl
    rw [e, ekf_correct_active M hne]
    cases EKF.core s.x s.Px (fun j : a.Active => a.data j.1) (fun j => M.h s.k s.x j.1) (activeH a (M.dh_dx s.k s.x)) (activeR a M.R) with
    | error e => exact ⟨e, rfl⟩
    | ok r => exact ⟨_, rfl⟩
  induction y generalizing s with
  | nil => obtain ⟨r, hr, -⟩ := hy; cases hr
  | cons a y ih =>
    by_cases ha : ∃ j, a.mask j = false
    · obtain ⟨e, he⟩ := key a s ha
      cases y with
      | nil => exact ⟨e, he⟩
      | cons b y => exact ⟨e, by simp only [walk, he]; rfl⟩
    · obtain ⟨r, hr, hj⟩ := hy
      rcases List.mem_cons.1 hr with rfl | hr
      · exact absurd hj ha
      · cases y with
        | nil => cases hr
        | cons b y =>
          simp only [walk]
          cases h1 : meritG (EKF.cls M) a s with
          | error e => exact ⟨e, rfl⟩
          | ok s1 =>
            simp only [py_bind_ok]
            cases h2 : meritH (EKF.cls M) s1 with
            | error e => exact ⟨e, rfl⟩
            | ok s2 => exact ih ⟨r, hr, hj⟩ s2

/-- … although its `filter` returns. -/
theorem C48_ekf_counterexample : (∃ r, (EKF.cls (Demo.model 2)).filter [Demo.half] Demo.ekf = .ok r) ∧
    (EKF.cls (Demo.model 2)).pemMerit [Demo.half] Demo.ekf = .error .attributeError := by
  obtain ⟨s', h, -⟩ := C36_ekf_returns (Demo.model 2) (fun _ _ => PosSemidef.one) PosDef.one [some Demo.half] Demo.ekf PosSemidef.one
  obtain ⟨r, hr, h⟩ := py_bind_eq_ok h
  refine ⟨⟨([r.1], r.2), ?_⟩, ?_⟩
  · rw [filter_eq]
    simp only [schedule, hr]
    rfl
  · rw [pemMerit_eq]
    have hr' : EKF.correct (Demo.model 2) Demo.half Demo.ekf = .ok r := hr
    rcases ekf_correct_cases (m := r.1) (s' := r.2) hr' with ⟨hy, -⟩ | ⟨-, d, -, hs⟩
    · exact absurd hy Demo.half_active
    · simp only [walk, meritG, hr, py_bind_ok]
      rw [hs]
      rfl

theorem C48_negation : ¬Full_C48 := by
  intro h
  obtain ⟨⟨r, hr⟩, he⟩ := C48_ekf_counterexample
  obtain ⟨L, s, h⟩ := h 1 (Fin 2) (Fin 1) (Demo.model 2) [Demo.half] Demo.ekf r.2 r.1 hr
  rw [he] at h
  cases h

/-- Without any unmasked entry it returns the initial value. -/
theorem C48_ekf_masked_partial (M : KModel nx o p) (y : List (MaskedRow o)) (hy : ∀ r ∈ y, ∀ j, r.mask j = true) (s : EKF nx o p) :
    ∃ s', (EKF.cls M).pemMerit y s = .ok (s.L, s') := by
  rw [pemMerit_eq]
  suffices H : ∃ s', walk (meritG (EKF.cls M)) (meritH (EKF.cls M)) y s = .ok s' ∧ s'.L = s.L by
    obtain ⟨s', h1, h2⟩ := H
    rw [h1, ← h2]
    exact ⟨s', rfl⟩
  have key : ∀ (a : MaskedRow o) (s : EKF nx o p), (∀ j, a.mask j = true) → meritG (EKF.cls M) a s = .ok { s with last := .masked } := by
    intro a s ha
    have e : meritG (EKF.cls M) a s = (EKF.correct M a s >>= fun r => EKF.updateLikelihood r.2) := rfl
    rw [e, ekf_correct_masked M ha]
    rfl
  induction y generalizing s with
  | nil => exact ⟨s, rfl, rfl⟩
  | cons a y ih =>
    cases y with
    | nil => exact ⟨_, key a s (hy a (by simp)), rfl⟩
    | cons b y =>
      simp only [walk, key a s (hy a (by simp)), py_bind_ok]
      obtain ⟨s', h1, h2⟩ := ih (fun r hr => hy r (List.mem_cons_of_mem _ hr)) _
      exact ⟨s', h1, h2⟩

/-- The unscented filter of the demonstration model has a likelihood for three samples. -/
example : ∃ put L s', UT.init 1 .cholesky (1 : ℝ) = .ok put ∧
    (UKF.cls put put (Demo.model 2)).pemMerit [Demo.half, Demo.none, Demo.both] (Demo.ukf put.nsigma put.nsigma) = .ok (L, s') := by
  obtain ⟨put, h⟩ := Demo.exists_ut
  have hk : (0 : ℝ) < ((1 : ℕ) : ℝ) + 1 := by norm_num
  obtain ⟨ms, s', h1⟩ := (C43_returns (demo_affine 2) h h hk hk (fun _ _ => ⟨PosDef.one, PosDef.one⟩) PosDef.one
    [Demo.half, Demo.none, Demo.both] (Demo.ukf put.nsigma put.nsigma) ⟨PosDef.one, PosDef.one⟩).1
  obtain ⟨L, s'', h2, -⟩ := C48_ukf_returns_partial put put (Demo.model 2) transpose_one _ _ _ _ h1
  exact ⟨put, L, s'', h, h2⟩

end Ceacoest
