import Verif.Lemmas.KalmanMerit
import Verif.Lemmas.KalmanPosterior

/-! # Lemmas for C106 -/

namespace Ceacoest
open Matrix Spec FilterClass
variable {nx : Nat} {Y p σ : Type}

theorem scheduleWith_append {M C : Type} {correct : Y → σ → Py (M × σ)} {predict : σ → Py (M × σ)} {cross : σ → Py C} {y z : List Y} (hy : y ≠ []) (hz : z ≠ [])
    {s s' : σ} {ms : List M} {prs : List (M × C)} (h : scheduleWith correct predict cross (y ++ z) s = .ok (ms, prs, s')) :
    ∃ ms1 prs1 s1 pr s2 c ms2 prs2, scheduleWith correct predict cross y s = .ok (ms1, prs1, s1) ∧ predict s1 = .ok (pr, s2) ∧ cross s2 = .ok c ∧
      scheduleWith correct predict cross z s2 = .ok (ms2, prs2, s') ∧ ms = ms1 ++ ms2 ∧ prs = prs1 ++ (pr, c) :: prs2 := by
  induction y generalizing s ms prs with
  | nil => exact absurd rfl hy
  | cons a y ih =>
    cases y with
    | nil =>
      obtain ⟨b, z, rfl⟩ := List.exists_cons_of_ne_nil hz
      obtain ⟨⟨m, s1⟩, h1, h⟩ := py_bind_eq_ok h
      obtain ⟨⟨pr, s2⟩, h2, h⟩ := py_bind_eq_ok h
      obtain ⟨c, h3, h⟩ := py_bind_eq_ok h
      obtain ⟨⟨ms2, prs2, s3⟩, h4, h⟩ := py_bind_eq_ok h
      cases h
      refine ⟨[m], [], s1, pr, s2, c, ms2, prs2, ?_, h2, h3, h4, rfl, rfl⟩
      rw [scheduleWith, h1]
      rfl
    | cons b y =>
      obtain ⟨⟨m, s1⟩, h1, h⟩ := py_bind_eq_ok h
      obtain ⟨⟨pr, s2⟩, h2, h⟩ := py_bind_eq_ok h
      obtain ⟨c, h3, h⟩ := py_bind_eq_ok h
      obtain ⟨⟨ms2, prs2, s3⟩, h4, h⟩ := py_bind_eq_ok h
      cases h
      obtain ⟨ms1, prs1, t1, pr', t2, c', ms3, prs3, g1, g2, g3, g4, rfl, rfl⟩ := ih (by simp) h4
      refine ⟨m :: ms1, (pr, c) :: prs1, t1, pr', t2, c', ms3, prs3, ?_, g2, g3, g4, rfl, rfl⟩
      rw [scheduleWith, h1]
      simp only [py_bind_ok]
      rw [h2]
      simp only [py_bind_ok]
      rw [h3]
      simp only [py_bind_ok]
      rw [g1]
      rfl

/-- Corrections with the rows `z` return what was there, and predictions set it. -/
structure QuietRows {M : Type} (correct : Y → σ → Py (M × σ)) (predict : σ → Py (M × σ)) (view : σ → M) (z : List Y) : Prop where
  correct : ∀ r ∈ z, ∀ s m s', correct r s = .ok (m, s') → m = view s ∧ view s' = view s
  predict : ∀ s m s', predict s = .ok (m, s') → view s' = m

/-- The corrected moments of quiet rows are the predicted ones. -/
theorem scheduleWith_quiet {M C : Type} {correct : Y → σ → Py (M × σ)} {predict : σ → Py (M × σ)} {cross : σ → Py C} {view : σ → M} {z : List Y}
    (hq : QuietRows correct predict view z) {s s' : σ} {ms : List M} {prs : List (M × C)} (hz : z ≠ [])
    (h : scheduleWith correct predict cross z s = .ok (ms, prs, s')) : ms = view s :: prs.map Prod.fst := by
  induction z generalizing s ms prs with
  | nil => exact absurd rfl hz
  | cons a z ih =>
    cases z with
    | nil =>
      obtain ⟨⟨m, s1⟩, h1, h⟩ := py_bind_eq_ok h
      cases h
      rw [(hq.correct a (by simp) _ _ _ h1).1]
      rfl
    | cons b z =>
      obtain ⟨⟨m, s1⟩, h1, h⟩ := py_bind_eq_ok h
      obtain ⟨⟨pr, s2⟩, h2, h⟩ := py_bind_eq_ok h
      obtain ⟨c, h3, h⟩ := py_bind_eq_ok h
      obtain ⟨⟨ms2, prs2, s3⟩, h4, h⟩ := py_bind_eq_ok h
      cases h
      rw [ih ⟨fun r hr => hq.correct r (List.mem_cons_of_mem _ hr), hq.predict⟩ (by simp) h4, hq.predict _ _ _ h2, (hq.correct a (by simp) _ _ _ h1).1]
      rfl

theorem smoothStep_self {n : Type} [Fintype n] [DecidableEq n] {m pr sm : (n → ℝ) × Matrix n n ℝ} {c : Matrix n n ℝ} (h : SmoothStep m pr c pr sm) : sm = m := by
  obtain ⟨-, rfl⟩ := h
  simp

theorem walk_append {g : Y → σ → Py σ} {h : σ → Py σ} {y z : List Y} (hy : y ≠ []) (hz : z ≠ []) {s s' : σ} (hw : walk g h (y ++ z) s = .ok s') :
    ∃ s1 s2, walk g h y s = .ok s1 ∧ h s1 = .ok s2 ∧ walk g h z s2 = .ok s' := by
  induction y generalizing s with
  | nil => exact absurd rfl hy
  | cons a y ih =>
    cases y with
    | nil =>
      obtain ⟨b, z, rfl⟩ := List.exists_cons_of_ne_nil hz
      obtain ⟨s1, h1, hw⟩ := py_bind_eq_ok hw
      obtain ⟨s2, h2, hw⟩ := py_bind_eq_ok hw
      exact ⟨s1, s2, h1, h2, hw⟩
    | cons b y =>
      obtain ⟨s1, h1, hw⟩ := py_bind_eq_ok hw
      obtain ⟨s2, h2, hw⟩ := py_bind_eq_ok hw
      obtain ⟨t1, t2, g1, g2, g3⟩ := ih (by simp) hw
      refine ⟨t1, t2, ?_, g2, g3⟩
      rw [walk, h1]
      simp only [py_bind_ok]
      rw [h2]
      exact g1

theorem walk_keep {g : Y → σ → Py σ} {h : σ → Py σ} {V : Type} (view : σ → V) {z : List Y} (hg : ∀ r ∈ z, ∀ s s', g r s = .ok s' → view s' = view s)
    (hh : ∀ s s', h s = .ok s' → view s' = view s) {s s' : σ} (hw : walk g h z s = .ok s') : view s' = view s := by
  induction z generalizing s with
  | nil => cases hw; rfl
  | cons a z ih =>
    cases z with
    | nil => exact hg a (by simp) _ _ hw
    | cons b z =>
      obtain ⟨s1, h1, hw⟩ := py_bind_eq_ok hw
      obtain ⟨s2, h2, hw⟩ := py_bind_eq_ok hw
      rw [ih (fun r hr => hg r (List.mem_cons_of_mem _ hr)) hw, hh _ _ h2, hg a (by simp) _ _ h1]

end Ceacoest
