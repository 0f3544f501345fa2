import Verif.Lemmas.Tail
import Verif.Props.KalmanSteps
import Verif.Props.KalmanSmooth
import Verif.Props.KalmanMerit
import Verif.Props.KalmanAffine

/-! # C106: estimates do not depend on later samples, and masked samples at the end add forecasts only -/

namespace Ceacoest
open Matrix Spec FilterClass
variable {nx : Nat} {Y p σ : Type} {o : Type} [Fintype o] [LinearOrder o]

/-- **C106** (causal). The filtered moments of the first samples are those of a filter that has only these. -/
theorem C106_causal (F : FilterClass nx Y p σ) {y z : List Y} {s s' : σ} {ms : List (Moments nx)} (h : F.filter (y ++ z) s = .ok (ms, s')) :
    ∃ s1, F.filter y s = .ok (ms.take y.length, s1) := by
  by_cases hy : y = []
  · subst hy
    exact ⟨s, by rw [filter_eq]; rfl⟩
  by_cases hz : z = []
  · subst hz
    rw [List.append_nil] at h
    refine ⟨s', ?_⟩
    rw [h, List.take_of_length_le]
    rw [filter_eq] at h
    rw [schedule_length h]
  rw [filter_eq, schedule_append _ _ y z hy hz] at h
  obtain ⟨⟨ms1, s1⟩, h1, h⟩ := py_bind_eq_ok h
  obtain ⟨⟨pr, s2⟩, h2, h⟩ := py_bind_eq_ok h
  obtain ⟨⟨ms2, s3⟩, h3, h⟩ := py_bind_eq_ok h
  cases h
  refine ⟨s1, ?_⟩
  rw [filter_eq, h1, ← schedule_length h1, List.take_left']
  rfl

/-- The two recursions agree below a sample at which they do. -/
theorem smooth_agree {ms ms' sm sm' : List (Moments nx)} {prs prs' : List (Moments nx × Matrix (Fin nx) (Fin nx) ℝ)} {n : Nat}
    (h : ∀ k, k < n → ∃ mk pr s1 s0, ms[k]? = some mk ∧ prs[k]? = some pr ∧ sm[k + 1]? = some s1 ∧ sm[k]? = some s0 ∧ SmoothStep mk pr.1 pr.2 s1 s0)
    (h' : ∀ k, k < n → ∃ mk pr s1 s0, ms'[k]? = some mk ∧ prs'[k]? = some pr ∧ sm'[k + 1]? = some s1 ∧ sm'[k]? = some s0 ∧ SmoothStep mk pr.1 pr.2 s1 s0)
    (hm : ∀ k, k < n → ms[k]? = ms'[k]?) (hp : ∀ k, k < n → prs[k]? = prs'[k]?) (hn : sm[n]? = sm'[n]?) : ∀ k, k ≤ n → sm[k]? = sm'[k]? := by
  have key : ∀ d k, k + d = n → sm[k]? = sm'[k]? := by
    intro d
    induction d with
    | zero =>
      rintro k rfl
      exact hn
    | succ d ih =>
      intro k hk
      obtain ⟨mk, pr, s1, s0, a1, a2, a3, a4, -, a5⟩ := h k (by omega)
      obtain ⟨mk', pr', s1', s0', b1, b2, b3, b4, -, b5⟩ := h' k (by omega)
      have e := ih (k + 1) (by omega)
      rw [hm k (by omega), b1] at a1
      rw [hp k (by omega), b2] at a2
      rw [e, b3] at a3
      cases a1
      cases a2
      cases a3
      rw [a4, b4, a5, b5]
  exact fun k hk => key (n - k) k (by omega)

/-- **C106** (any filter). If corrections with the rows at the end return the moments that were predicted, the smoothed moments of the samples
before are what they are without them, and those of the rows at the end are the filtered ones. -/
theorem smooth_quiet (F : FilterClass nx Y p σ) {y z : List Y} (hy : y ≠ [])
    (hq : QuietRows F.correct F.predict (fun s => ((F.attrs s).x, (F.attrs s).Px)) z) {s s' : σ} {sm : List (Moments nx)}
    (h : F.smooth (y ++ z) s = .ok (sm, s')) : ∃ s1 ms, F.smooth y s = .ok (sm.take y.length, s1) ∧ F.filter (y ++ z) s = .ok (ms, s') ∧
      ∀ k, y.length ≤ k + 1 → sm[k]? = ms[k]? := by
  by_cases hz : z = []
  · subst hz
    rw [List.append_nil] at h ⊢
    obtain ⟨ms, prs, h1, -, hl, hlast, -⟩ := smooth_ok F h
    obtain ⟨h2, hl2, -⟩ := scheduleWith_schedule h1
    refine ⟨s', ms, by rw [h, List.take_of_length_le (by omega)], by rw [filter_eq]; exact h2, fun k hk => ?_⟩
    rcases Nat.lt_or_ge k y.length with hk' | hk'
    · obtain rfl : k = y.length - 1 := by omega
      exact hlast
    · rw [List.getElem?_eq_none (by omega), List.getElem?_eq_none (by omega)]
  obtain ⟨ms, prs, h1, -, hl, hlast, hstep⟩ := smooth_ok F h
  obtain ⟨h2, hl2, hl3⟩ := scheduleWith_schedule h1
  obtain ⟨ms1, prs1, s1, pr, s2, c, ms2, prs2, g1, g2, g3, g4, rfl, rfl⟩ := scheduleWith_append hy hz h1
  obtain ⟨-, k1, k2⟩ := scheduleWith_schedule g1
  obtain ⟨-, k3, k4⟩ := scheduleWith_schedule g4
  have hq' := scheduleWith_quiet hq hz g4
  rw [hq.predict _ _ _ g2] at hq'
  have hlen : (y ++ z).length = y.length + z.length := List.length_append
  have hpy := List.length_pos_iff.2 hy
  have hpz := List.length_pos_iff.2 hz
  -- the corrected moments of the rows at the end are predicted
  have htail : ∀ k, y.length ≤ k + 1 → k + 1 < (y ++ z).length → (ms1 ++ ms2)[k + 1]? = ((prs1 ++ (pr, c) :: prs2)[k]?).map Prod.fst := by
    intro k hk hk'
    rw [List.getElem?_append_right (by omega), List.getElem?_append_right (by omega), k1, k2, hq', ← List.map_cons (f := Prod.fst) (a := (pr, c)), List.getElem?_map]
    congr 2
    omega
  have hsm : ∀ d k, y.length ≤ k + 1 → k + 1 + d = (y ++ z).length → sm[k]? = (ms1 ++ ms2)[k]? := by
    intro d
    induction d with
    | zero =>
      intro k hk hd
      obtain rfl : k = (y ++ z).length - 1 := by omega
      exact hlast
    | succ d ih =>
      intro k hk hd
      obtain ⟨mk, pr', sm', smk, a1, a2, a3, a4, a5⟩ := hstep k (by omega)
      have e := ih (k + 1) (by omega) (by omega)
      rw [a3, htail k hk (by omega), a2, Option.map_some, Option.some_inj] at e
      subst e
      rw [a4, a1, smoothStep_self a5]
  have hdet : ∀ q ∈ prs1, q.1.2.det ≠ 0 := by
    intro q hq
    obtain ⟨k, hk, rfl⟩ := List.getElem_of_mem hq
    obtain ⟨mk, pr', sm', smk, a1, a2, a3, a4, a5, -⟩ := hstep k (by omega)
    rw [List.getElem?_append_left hk, List.getElem?_eq_getElem hk, Option.some_inj] at a2
    rw [a2]
    exact isUnit_iff_ne_zero.1 a5
  obtain ⟨sm1, f1⟩ := smooth_of F hy g1 hdet
  obtain ⟨ms1', prs1', f2, -, l1, last1, step1⟩ := smooth_ok F f1
  rw [g1] at f2
  cases f2
  have hk : ∀ k, k ≤ y.length - 1 → sm[k]? = sm1[k]? := by
    refine smooth_agree (ms := ms1 ++ ms2) (prs := prs1 ++ (pr, c) :: prs2) (ms' := ms1) (prs' := prs1) (n := y.length - 1) ?_ ?_ ?_ ?_ ?_
    · exact fun k hk => hstep k (by omega)
    · exact fun k hk => step1 k (by omega)
    · exact fun k hk => List.getElem?_append_left (by omega)
    · exact fun k hk => List.getElem?_append_left (by omega)
    · rw [last1, hsm z.length (y.length - 1) (by omega) (by omega), List.getElem?_append_left (by omega)]
  refine ⟨s1, ms1 ++ ms2, ?_, by rw [filter_eq]; exact h2, fun k hk' => ?_⟩
  · rw [f1]
    congr 2
    refine List.ext_getElem? fun k => ?_
    rw [List.getElem?_take]
    split
    · exact (hk k (by omega)).symm
    · exact List.getElem?_eq_none (by omega)
  · rcases Nat.lt_or_ge k (y ++ z).length with h' | h'
    · exact hsm ((y ++ z).length - (k + 1)) k hk' (by omega)
    · rw [List.getElem?_eq_none (by omega), List.getElem?_eq_none (by rw [hl2]; exact h')]

theorem ekf_quiet (M : KModel nx o p) {z : List (MaskedRow o)} (hz : ∀ r ∈ z, ∀ j, r.mask j = true) :
    QuietRows (EKF.cls M).correct (EKF.cls M).predict (fun s => (((EKF.cls M).attrs s).x, ((EKF.cls M).attrs s).Px)) z where
  correct r hr s m s' h := by
    have h : EKF.correct M r s = .ok (m, s') := h
    rw [ekf_correct_masked M (hz r hr)] at h
    cases h
    exact ⟨rfl, rfl⟩
  predict s m s' h := by
    have h : EKF.predict M s = .ok (m, s') := h
    rw [ekf_predict_eq] at h
    cases h
    rfl

theorem ukf_quiet (put cut : UT nx) (M : KModel nx o p) {z : List (MaskedRow o)} (hz : ∀ r ∈ z, ∀ j, r.mask j = true) :
    QuietRows (UKF.cls put cut M).correct (UKF.cls put cut M).predict (fun s => (((UKF.cls put cut M).attrs s).x, ((UKF.cls put cut M).attrs s).Px)) z where
  correct r hr s m s' h := by
    have h : UKF.correct cut M r s = .ok (m, s') := h
    rw [ukf_correct_masked M (hz r hr)] at h
    cases h
    exact ⟨rfl, rfl⟩
  predict s m s' h := by
    obtain ⟨d, hd, rfl, rfl⟩ := ukf_predict_cases h
    rfl

/-- **C106** (extended filter). Masked samples at the end change no smoothed estimate of the samples before; theirs are the forecasts. -/
theorem C106_ekf (M : KModel nx o p) {y z : List (MaskedRow o)} (hy : y ≠ []) (hz : ∀ r ∈ z, ∀ j, r.mask j = true) {s s' : EKF nx o p} {sm : List (Moments nx)}
    (h : (EKF.cls M).smooth (y ++ z) s = .ok (sm, s')) : ∃ s1 ms, (EKF.cls M).smooth y s = .ok (sm.take y.length, s1) ∧
      (EKF.cls M).filter (y ++ z) s = .ok (ms, s') ∧ ∀ k, y.length ≤ k + 1 → sm[k]? = ms[k]? :=
  smooth_quiet _ hy (ekf_quiet M hz) h

/-- **C106** (unscented filter). -/
theorem C106_ukf (put cut : UT nx) (M : KModel nx o p) {y z : List (MaskedRow o)} (hy : y ≠ []) (hz : ∀ r ∈ z, ∀ j, r.mask j = true)
    {s s' : UKF nx cut.nsigma put.nsigma o p} {sm : List (Moments nx)} (h : (UKF.cls put cut M).smooth (y ++ z) s = .ok (sm, s')) :
    ∃ s1 ms, (UKF.cls put cut M).smooth y s = .ok (sm.take y.length, s1) ∧ (UKF.cls put cut M).filter (y ++ z) s = .ok (ms, s') ∧
      ∀ k, y.length ≤ k + 1 → sm[k]? = ms[k]? :=
  smooth_quiet _ hy (ukf_quiet put cut M hz) h

section pem
variable (put cut : UT nx) (M : KModel nx o p)

/-- What the likelihood methods return. -/
def likelihoods {ns ns' : Nat} (s : UKF nx ns ns' o p) : ℝ × (p → ℝ) × (p → p → ℝ) := (s.L, s.dL_dq, s.d2L_dq2)

theorem predict_keep {s s' : UKF nx cut.nsigma put.nsigma o p} {m : Moments nx} (h : (UKF.cls put cut M).predict s = .ok (m, s')) : likelihoods s' = likelihoods s := by
  obtain ⟨d, hd, rfl, rfl⟩ := ukf_predict_cases h
  rfl

theorem predictionDiff_keep {s s' : UKF nx cut.nsigma put.nsigma o p} (h : UKF.predictionDiff put M s = .ok s') : likelihoods s' = likelihoods s := by
  unfold UKF.predictionDiff at h
  split at h
  · cases h
  · obtain ⟨dd, -, h⟩ := py_bind_eq_ok h
    cases h
    rfl

theorem predictionDiff2_keep {s s' : UKF nx cut.nsigma put.nsigma o p} (h : UKF.predictionDiff2 put M s = .ok s') : likelihoods s' = likelihoods s := by
  unfold UKF.predictionDiff2 at h
  split at h
  · cases h
  · split at h
    · cases h
    · cases h
      rfl

/-- **C106** (likelihood). Masked samples at the end change neither the likelihood nor its derivatives. -/
theorem C106_likelihood {y z : List (MaskedRow o)} (hy : y ≠ []) (hz : ∀ r ∈ z, ∀ j, r.mask j = true) (s : UKF nx cut.nsigma put.nsigma o p) :
    (∀ L s', (UKF.cls put cut M).pemMerit (y ++ z) s = .ok (L, s') → ∃ s1, (UKF.cls put cut M).pemMerit y s = .ok (L, s1)) ∧
    (∀ g s', (UKF.cls put cut M).pemGradient (y ++ z) s = .ok (g, s') → ∃ s1, (UKF.cls put cut M).pemGradient y s = .ok (g, s1)) ∧
    (∀ H s', (UKF.cls put cut M).pemHessian (y ++ z) s = .ok (H, s') → ∃ s1, (UKF.cls put cut M).pemHessian y s = .ok (H, s1)) := by
  by_cases hz0 : z = []
  · subst hz0
    simp only [List.append_nil]
    exact ⟨fun L s' h => ⟨s', h⟩, fun L s' h => ⟨s', h⟩, fun L s' h => ⟨s', h⟩⟩
  refine ⟨fun L s' h => ?_, fun g s' h => ?_, fun H s' h => ?_⟩
  · rw [pemMerit_eq] at h ⊢
    obtain ⟨t, hw, e⟩ := py_bind_eq_ok h
    cases e
    obtain ⟨s1, s2, h1, h2, h3⟩ := walk_append hy hz0 hw
    refine ⟨s1, ?_⟩
    rw [h1]
    have hh : ∀ s s' : UKF nx cut.nsigma put.nsigma o p, meritH (UKF.cls put cut M) s = .ok s' → likelihoods s' = likelihoods s := fun s s' h => by
      obtain ⟨r, h1, h⟩ := py_bind_eq_ok h
      cases h
      exact predict_keep put cut M h1
    have := walk_keep likelihoods (fun r hr s s' h => by
      have h : UKF.correct cut M r s >>= (fun r => UKF.updateLikelihood r.2) = .ok s' := h
      rw [ukf_correct_masked M (hz r hr)] at h
      cases h
      rfl) hh h3
    exact congrArg Except.ok (Prod.ext (congrArg Prod.fst (this.trans (hh _ _ h2))).symm rfl)
  · rw [pemGradient_eq] at h ⊢
    obtain ⟨t, hw, e⟩ := py_bind_eq_ok h
    cases e
    obtain ⟨s1, s2, h1, h2, h3⟩ := walk_append hy hz0 hw
    refine ⟨s1, ?_⟩
    rw [h1]
    have hh : ∀ s s' : UKF nx cut.nsigma put.nsigma o p, gradientH (UKF.cls put cut M) s = .ok s' → likelihoods s' = likelihoods s := fun s s' h => by
      obtain ⟨r, h1, h⟩ := py_bind_eq_ok h
      exact (predictionDiff_keep put cut M h).trans (predict_keep put cut M h1)
    have := walk_keep likelihoods (fun r hr s s' h => by
      obtain ⟨q, h1, h⟩ := py_bind_eq_ok h
      have h1 : UKF.correct cut M r s = .ok q := h1
      rw [ukf_correct_masked M (hz r hr)] at h1
      cases h1
      cases h
      rfl) hh h3
    exact congrArg Except.ok (Prod.ext (congrArg (fun v => v.2.1) (this.trans (hh _ _ h2))).symm rfl)
  · rw [pemHessian_eq] at h ⊢
    obtain ⟨t, hw, e⟩ := py_bind_eq_ok h
    cases e
    obtain ⟨s1, s2, h1, h2, h3⟩ := walk_append hy hz0 hw
    refine ⟨s1, ?_⟩
    rw [h1]
    have hh : ∀ s s' : UKF nx cut.nsigma put.nsigma o p, hessianH (UKF.cls put cut M) s = .ok s' → likelihoods s' = likelihoods s := fun s s' h => by
      obtain ⟨r, h1, h⟩ := py_bind_eq_ok h
      obtain ⟨t, h2, h⟩ := py_bind_eq_ok h
      exact (predictionDiff2_keep put cut M h).trans ((predictionDiff_keep put cut M h2).trans (predict_keep put cut M h1))
    have := walk_keep likelihoods (fun r hr s s' h => by
      obtain ⟨q, h1, h⟩ := py_bind_eq_ok h
      have h1 : UKF.correct cut M r s = .ok q := h1
      rw [ukf_correct_masked M (hz r hr)] at h1
      cases h1
      cases h
      rfl) hh h3
    exact congrArg Except.ok (Prod.ext (congrArg (fun v => v.2.2) (this.trans (hh _ _ h2))).symm rfl)

end pem

/-! ### Examples -/

/-- The demonstration model with a masked last sample. -/
example : ∃ sm s' s1, (EKF.cls (Demo.model 2)).smooth ([Demo.both, Demo.half] ++ [Demo.none]) Demo.ekf = .ok (sm, s') ∧
    (EKF.cls (Demo.model 2)).smooth [Demo.both, Demo.half] Demo.ekf = .ok (sm.take 2, s1) := by
  obtain ⟨sm, s', h, -⟩ := C40_ekf_returns (Demo.model 2) (fun _ _ => PosDef.one) PosDef.one ([Demo.both, Demo.half] ++ [Demo.none]) (by simp) Demo.ekf
    PosDef.one.posSemidef
  obtain ⟨s1, ms, h1, -⟩ := C106_ekf (Demo.model 2) (by simp) (fun r hr j => by rw [List.mem_singleton.1 hr]; fin_cases j <;> rfl) h
  exact ⟨sm, s', s1, h, h1⟩

example : ∃ put L s' s1, UT.init 1 .cholesky (1 : ℝ) = .ok put ∧
    (UKF.cls put put (Demo.model 2)).pemMerit ([Demo.both, Demo.half] ++ [Demo.none]) (Demo.ukf put.nsigma put.nsigma) = .ok (L, s') ∧
    (UKF.cls put put (Demo.model 2)).pemMerit [Demo.both, Demo.half] (Demo.ukf put.nsigma put.nsigma) = .ok (L, s1) := by
  obtain ⟨put, hput⟩ := Demo.exists_ut
  have hk : (0 : ℝ) < ((1 : Nat) : ℝ) + 1 := by norm_num
  obtain ⟨⟨ms, s', h⟩, -⟩ := C43_returns (demo_affine 2) hput hput hk hk (fun _ _ => ⟨PosDef.one, PosDef.one⟩) PosDef.one
    ([Demo.both, Demo.half] ++ [Demo.none]) (Demo.ukf put.nsigma put.nsigma) ⟨PosDef.one, PosDef.one⟩
  obtain ⟨L, s2, h', -⟩ := C48_ukf_returns_partial put put (Demo.model 2) (by simp [Demo.model]) _ _ s' ms h
  obtain ⟨s1, h1⟩ := (C106_likelihood put put (Demo.model 2) (by simp) (fun r hr j => by rw [List.mem_singleton.1 hr]; fin_cases j <;> rfl) _).1 L s2 h'
  exact ⟨put, L, s2, s1, hput, h', h1⟩

end Ceacoest
