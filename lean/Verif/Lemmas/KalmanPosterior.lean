import Verif.Spec.KalmanPosterior
import Verif.Lemmas.Gaussian
import Verif.Lemmas.KalmanLoops

/-! # The extended filter on affine models with normal noise -/

namespace Ceacoest
open Matrix Spec MeasureTheory
variable {nx : Nat} {o p : Type} [Fintype o] [LinearOrder o]
variable {M : KModel nx o p} {A : ℤ → Matrix (Fin nx) (Fin nx) ℝ} {b : ℤ → Fin nx → ℝ} {C : ℤ → Matrix o (Fin nx) ℝ} {c : ℤ → o → ℝ}

/-- The density of the innovation: what a measurement contributes to the evidence. -/
noncomputable def innovDensity (M : KModel nx o p) (k : ℤ) (y : MaskedRow o) (m : Moments nx) : ℝ :=
  gaussian ((activeH y (M.dh_dx k m.1))ᵀ * (m.2 * activeH y (M.dh_dx k m.1)) + activeR y M.R) fun j : y.Active => y.data j.1 - M.h k m.1 j.1

theorem innovDensity_pos (hM : GaussModel M A b C c) (k : ℤ) (y : MaskedRow o) {m : Moments nx} (hm : m.2.PosDef) : 0 < innovDensity M k y m :=
  gaussian_pos (innovation_pd hm (activeR_pd y hM.Rpd)) _

/-- A correction. -/
theorem correct_density (hM : GaussModel M A b C c) {y : MaskedRow o} {s s' : EKF nx o p} {m : Moments nx} (hP : s.Px.PosDef)
    (h : EKF.correct M y s = .ok (m, s')) : s'.x = m.1 ∧ s'.Px = m.2 ∧ s'.k = s.k ∧ m.2.PosDef ∧
      ∀ x, gaussian s.Px (x - s.x) * measDensity M s.k y x = innovDensity M s.k y (s.x, s.Px) * gaussian m.2 (x - m.1) := by
  have hRa := activeR_pd y hM.Rpd
  have hh : ∀ x, (fun j : y.Active => y.data j.1 - M.h s.k x j.1) =
      (fun j : y.Active => y.data j.1) - ((fun j : y.Active => M.h s.k s.x j.1) + (activeH y (M.dh_dx s.k s.x))ᵀ *ᵥ (x - s.x)) := by
    intro x
    funext j
    have e : ((activeH y (M.dh_dx s.k s.x))ᵀ *ᵥ (x - s.x)) j = (C s.k *ᵥ (x - s.x)) j.1 := by
      simp only [mulVec, dotProduct, transpose_apply, activeH, of_apply, hM.dh_dx]
    rw [Pi.sub_apply, Pi.add_apply, e, hM.h, hM.h, mulVec_sub]
    simp only [Pi.add_apply, Pi.sub_apply]
    ring
  have key := fun x => bayes (H := activeH y (M.dh_dx s.k s.x)) hP hRa rfl s.x x (fun j : y.Active => y.data j.1) fun j : y.Active => M.h s.k s.x j.1
  rcases ekf_correct_cases h with ⟨hy, rfl, rfl⟩ | ⟨hy, d, hd, rfl⟩
  · refine ⟨rfl, rfl, rfl, hP, fun x => ?_⟩
    have hempty : IsEmpty y.Active := ⟨fun j => by have := hy j.1; rw [j.2] at this; cases this⟩
    have h1 : ∀ (S : Matrix y.Active y.Active ℝ) e, gaussian S e = 1 := fun S e => by simp [gaussian, dotProduct]
    rw [measDensity, innovDensity, h1, h1, one_mul, mul_one]
  · have hc := ekf_core_ok hd
    refine ⟨rfl, rfl, rfl, ekf_correct_pd hP hRa hc, fun x => ?_⟩
    rw [measDensity, hh, key, hc.mean, hc.cov]
    rfl

/-- A prediction, and the smoothing of the state before it. -/
theorem predict_density (hM : GaussModel M A b C c) {s s' : EKF nx o p} {m : Moments nx} (hP : s.Px.PosDef)
    (h : EKF.predict M s = .ok (m, s')) : s'.x = m.1 ∧ s'.Px = m.2 ∧ s'.k = s.k + 1 ∧ m.2.PosDef ∧
      ∃ cr, EKF.predictionCrosscov s' = .ok cr ∧ (s.Px - cr * m.2⁻¹ * m.2 * (cr * m.2⁻¹)ᵀ).PosDef ∧
      ∀ x z, gaussian s.Px (x - s.x) * transDensity M s.k x z =
        gaussian m.2 (z - m.1) * gaussian (s.Px - cr * m.2⁻¹ * m.2 * (cr * m.2⁻¹)ᵀ) (x - (s.x + (cr * m.2⁻¹) *ᵥ (z - m.1))) := by
  rw [ekf_predict_eq] at h
  cases h
  have hQ := hM.Qpd s.k s.x
  refine ⟨rfl, rfl, rfl, innovation_pd hP hQ, _, rfl, posterior_pd hP hQ rfl, fun x z => ?_⟩
  have e : M.f s.k x = M.f s.k s.x + (of (M.df_dx s.k s.x) : Matrix (Fin nx) (Fin nx) ℝ)ᵀ *ᵥ (x - s.x) := by
    have e' : (of (M.df_dx s.k s.x) : Matrix (Fin nx) (Fin nx) ℝ)ᵀ = A s.k := by
      ext i j
      exact hM.df_dx s.k s.x j i
    rw [e', hM.f, hM.f, mulVec_sub]
    abel
  rw [transDensity, hM.Q s.k x s.x, e, bayes hP hQ rfl]

/-! ### Integrals over lists of states -/

theorem outer_mul (n : Nat) (a : ℝ) (F : List (Fin nx → ℝ) → ℝ) : integralFirstOuter n (fun xs => a * F xs) = a * integralFirstOuter n F := by
  induction n generalizing F with
  | zero => rfl
  | succ n ih => simp only [integralFirstOuter, ih, integral_const_mul]

theorem inner_mul (n : Nat) (a : ℝ) (F : List (Fin nx → ℝ) → ℝ) : integralFirstInner n (fun xs => a * F xs) = a * integralFirstInner n F := by
  induction n generalizing F with
  | zero => rfl
  | succ n ih => simp only [integralFirstInner, integral_const_mul, ih]

/-- What a correction and a prediction do to the joint density. -/
structure StepDensity (M : KModel nx o p) (s s₂ : EKF nx o p) (y : MaskedRow o) (m pr : Moments nx) (cr : Matrix (Fin nx) (Fin nx) ℝ) : Prop where
  mean : s₂.x = pr.1
  cov : s₂.Px = pr.2
  k : s₂.k = s.k + 1
  pd : m.2.PosDef
  prpd : pr.2.PosDef
  back : (m.2 - cr * pr.2⁻¹ * pr.2 * (cr * pr.2⁻¹)ᵀ).PosDef
  joint : ∀ y' ys x x' xs, jointDensity M s.k (s.x, s.Px) (y :: y' :: ys) (x :: x' :: xs) = innovDensity M s.k y (s.x, s.Px) *
    (gaussian (m.2 - cr * pr.2⁻¹ * pr.2 * (cr * pr.2⁻¹)ᵀ) (x - (m.1 + (cr * pr.2⁻¹) *ᵥ (x' - pr.1))) *
      jointDensity M s₂.k (s₂.x, s₂.Px) (y' :: ys) (x' :: xs))

theorem step_density (hM : GaussModel M A b C c) {y : MaskedRow o} {s s₁ s₂ : EKF nx o p} {m pr : Moments nx} {cr : Matrix (Fin nx) (Fin nx) ℝ}
    (hP : s.Px.PosDef) (hc : EKF.correct M y s = .ok (m, s₁)) (hp : EKF.predict M s₁ = .ok (pr, s₂)) (hx : EKF.predictionCrosscov s₂ = .ok cr) :
    StepDensity M s s₂ y m pr cr := by
  obtain ⟨c1, c2, c3, c4, c5⟩ := correct_density hM hP hc
  obtain ⟨p1, p2, p3, p4, cr', p5, p6, p7⟩ := predict_density hM (by rw [c2]; exact c4) hp
  rw [hx] at p5
  cases p5
  rw [c2] at p6
  refine ⟨p1, p2, by rw [p3, c3], c4, p4, p6, fun y' ys x x' xs => ?_⟩
  have h := p7 x x'
  simp only [c1, c2, c3] at h
  simp only [jointDensity, pathDensity]
  rw [p1, p2, p3, c3]
  calc _ = gaussian s.Px (x - s.x) * measDensity M s.k y x * transDensity M s.k x x' * pathDensity M (s.k + 1) (y' :: ys) (x' :: xs) := by ring
    _ = innovDensity M s.k y (s.x, s.Px) * (gaussian m.2 (x - m.1) * transDensity M s.k x x') * pathDensity M (s.k + 1) (y' :: ys) (x' :: xs) := by
      rw [c5]; ring
    _ = _ := by rw [h]; ring

variable {s s₁ s₂ : EKF nx o p} {y : MaskedRow o} {m pr : Moments nx} {cr : Matrix (Fin nx) (Fin nx) ℝ}

/-- Integrating out the first state. -/
theorem StepDensity.first (h : StepDensity M s s₂ y m pr cr) (y' : MaskedRow o) (ys : List (MaskedRow o)) (xs : List (Fin nx → ℝ)) :
    ∫ x, jointDensity M s.k (s.x, s.Px) (y :: y' :: ys) (x :: xs) =
      innovDensity M s.k y (s.x, s.Px) * jointDensity M s₂.k (s₂.x, s₂.Px) (y' :: ys) xs := by
  cases xs with
  | nil => simp [jointDensity, pathDensity]
  | cons x' xs =>
    simp only [h.joint]
    rw [integral_const_mul, integral_mul_const, gaussian_integral h.back, one_mul]

theorem StepDensity.evidence (h : StepDensity M s s₂ y m pr cr) (y' : MaskedRow o) (ys : List (MaskedRow o)) :
    evidence M s.k (s.x, s.Px) (y :: y' :: ys) = innovDensity M s.k y (s.x, s.Px) * evidence M s₂.k (s₂.x, s₂.Px) (y' :: ys) := by
  unfold Spec.evidence
  rw [List.length_cons, integralFirstInner]
  simp only [h.first]
  exact inner_mul _ _ _

theorem StepDensity.marginal (h : StepDensity M s s₂ y m pr cr) (y' : MaskedRow o) (ys : List (MaskedRow o)) (j : Nat) (z : Fin nx → ℝ) :
    stateMarginal M s.k (s.x, s.Px) (y :: y' :: ys) (j + 1) z = innovDensity M s.k y (s.x, s.Px) * stateMarginal M s₂.k (s₂.x, s₂.Px) (y' :: ys) j z := by
  unfold Spec.stateMarginal
  have e : (y :: y' :: ys).length - 1 - (j + 1) = (y' :: ys).length - 1 - j := by simp only [List.length_cons]; omega
  rw [e, ← outer_mul]
  congr 1
  funext after
  rw [integralFirstInner, ← inner_mul]
  congr 1
  funext before
  exact h.first y' ys _

theorem evidence_single (hM : GaussModel M A b C c) (hP : s.Px.PosDef) (hc : EKF.correct M y s = .ok (m, s₁)) :
    evidence M s.k (s.x, s.Px) [y] = innovDensity M s.k y (s.x, s.Px) ∧
    (∀ z, jointDensity M s.k (s.x, s.Px) [y] [z] = innovDensity M s.k y (s.x, s.Px) * gaussian m.2 (z - m.1)) ∧ m.2.PosDef := by
  obtain ⟨-, -, -, c4, c5⟩ := correct_density hM hP hc
  have hj : ∀ z, jointDensity M s.k (s.x, s.Px) [y] [z] = innovDensity M s.k y (s.x, s.Px) * gaussian m.2 (z - m.1) := fun z => c5 z
  refine ⟨?_, hj, c4⟩
  unfold evidence
  simp only [List.length_singleton, integralFirstInner, hj]
  rw [integral_const_mul, gaussian_integral c4, mul_one]

/-- The recursions of the smoother, read from the first sample. -/
inductive Smoothed : List (Moments nx) → List (Moments nx × Matrix (Fin nx) (Fin nx) ℝ) → List (Moments nx) → Prop
  | last (m : Moments nx) : Smoothed [m] [] [m]
  | step {m m' sm sm' : Moments nx} {ms sms : List (Moments nx)} {pr : Moments nx × Matrix (Fin nx) (Fin nx) ℝ}
      {prs : List (Moments nx × Matrix (Fin nx) (Fin nx) ℝ)} : SmoothStep m pr.1 pr.2 sm' sm → Smoothed (m' :: ms) prs (sm' :: sms) →
      Smoothed (m :: m' :: ms) (pr :: prs) (sm :: sm' :: sms)

theorem smoothed_of {n : Nat} {ms : List (Moments nx)} {prs : List (Moments nx × Matrix (Fin nx) (Fin nx) ℝ)} {sm : List (Moments nx)}
    (hm : ms.length = n + 1) (hp : prs.length = n) (hs : sm.length = n + 1) (hl : sm[n]? = ms[n]?)
    (h : ∀ k, k < n → ∃ mk pr sm' smk, ms[k]? = some mk ∧ prs[k]? = some pr ∧
        sm[k + 1]? = some sm' ∧ sm[k]? = some smk ∧ SmoothStep mk pr.1 pr.2 sm' smk) : Smoothed ms prs sm := by
  induction n generalizing ms prs sm with
  | zero =>
    obtain ⟨m, rfl⟩ := List.length_eq_one_iff.1 hm
    obtain ⟨m', rfl⟩ := List.length_eq_one_iff.1 hs
    cases List.length_eq_zero_iff.1 hp
    cases hl
    exact .last _
  | succ n ih =>
    match ms, hm, prs, hp, sm, hs with
    | m :: m' :: ms, hm, pr :: prs, hp, a :: a' :: sm, hs =>
      obtain ⟨mk, pr', sm', smk, h1, h2, h3, h4, h5⟩ := h 0 (by omega)
      cases h1
      cases h2
      cases h3
      cases h4
      exact .step h5 (ih (by simpa using hm) (by simpa using hp) (by simpa using hs) (by simpa using hl) fun k hk => by simpa using h (k + 1) (by omega))

/-- A forward pass of the filter, step by step. -/
theorem scheduleWith_cons {Y M C σ : Type} {correct : Y → σ → Py (M × σ)} {predict : σ → Py (M × σ)} {cross : σ → Py C} {y y' : Y} {ys : List Y}
    {s s' : σ} {ms : List M} {prs : List (M × C)} (h : scheduleWith correct predict cross (y :: y' :: ys) s = .ok (ms, prs, s')) :
    ∃ m s₁ pr s₂ cr ms' prs', correct y s = .ok (m, s₁) ∧ predict s₁ = .ok (pr, s₂) ∧ cross s₂ = .ok cr ∧
      scheduleWith correct predict cross (y' :: ys) s₂ = .ok (ms', prs', s') ∧ ms = m :: ms' ∧ prs = (pr, cr) :: prs' := by
  rw [scheduleWith] at h
  obtain ⟨⟨m, s₁⟩, h1, h⟩ := py_bind_eq_ok h
  obtain ⟨⟨pr, s₂⟩, h2, h⟩ := py_bind_eq_ok h
  obtain ⟨cr, h3, h⟩ := py_bind_eq_ok h
  obtain ⟨⟨ms', prs', s₃⟩, h4, h⟩ := py_bind_eq_ok h
  cases h
  exact ⟨m, s₁, pr, s₂, cr, ms', prs', h1, h2, h3, h4, rfl, rfl⟩

theorem schedule_cons {Y M σ : Type} {correct : Y → σ → Py (M × σ)} {predict : σ → Py (M × σ)} {y y' : Y} {ys : List Y}
    {s s' : σ} {ms : List M} (h : schedule correct predict (y :: y' :: ys) s = .ok (ms, s')) :
    ∃ m s₁ pr s₂ ms', correct y s = .ok (m, s₁) ∧ predict s₁ = .ok (pr, s₂) ∧
      schedule correct predict (y' :: ys) s₂ = .ok (ms', s') ∧ ms = m :: ms' := by
  rw [schedule] at h
  obtain ⟨⟨m, s₁⟩, h1, h⟩ := py_bind_eq_ok h
  obtain ⟨⟨pr, s₂⟩, h2, h⟩ := py_bind_eq_ok h
  obtain ⟨⟨ms', s₃⟩, h4, h⟩ := py_bind_eq_ok h
  cases h
  exact ⟨m, s₁, pr, s₂, ms', h1, h2, h4, rfl⟩

/-- A normal density has its maximum at zero, and only there. -/
theorem gaussian_le {n : Type} [Fintype n] [DecidableEq n] {S : Matrix n n ℝ} (hS : S.PosDef) (e : n → ℝ) :
    gaussian S e ≤ gaussian S 0 ∧ (gaussian S e = gaussian S 0 → e = 0) := by
  have hpos : 0 < (Real.sqrt ((2 * Real.pi) ^ Fintype.card n * S.det))⁻¹ :=
    inv_pos.2 (Real.sqrt_pos.2 (mul_pos (by positivity) hS.det_pos))
  have hq : e ≠ 0 → 0 < e ⬝ᵥ S⁻¹ *ᵥ e := fun he => by simpa using hS.inv.dotProduct_mulVec_pos he
  by_cases he : e = 0
  · subst he
    exact ⟨le_rfl, fun _ => rfl⟩
  · have hlt : gaussian S e < gaussian S 0 := by
      unfold gaussian
      refine mul_lt_mul_of_pos_left (Real.exp_lt_exp.2 ?_) hpos
      rw [mulVec_zero, dotProduct_zero]
      have := hq he
      linarith
    exact ⟨hlt.le, fun h => absurd h hlt.ne⟩

end Ceacoest
