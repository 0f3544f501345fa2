import Verif.Lemmas.KalmanCore

/-! # Covariances along the two passes of the smoother -/

namespace Ceacoest
open Matrix Spec
variable {nx : Nat} {Y p σ : Type}

/-- The part of a covariance that the next state does not explain. -/
noncomputable def unexplained (A : Matrix (Fin nx) (Fin nx) ℝ) (B c : Matrix (Fin nx) (Fin nx) ℝ) : Matrix (Fin nx) (Fin nx) ℝ := A - c * B⁻¹ * B * (c * B⁻¹)ᵀ

theorem unexplained_psd {A T Q c : Matrix (Fin nx) (Fin nx) ℝ} (hS : (T + Q).PosSemidef) (hdet : (T + Q).det ≠ 0) (hQ : Q.PosSemidef)
    (hJ : ∀ K : Matrix (Fin nx) (Fin nx) ℝ, (A - K * cᵀ - c * Kᵀ + K * T * Kᵀ).PosSemidef) : (unexplained A (T + Q) c).PosSemidef := by
  rw [unexplained, joseph (psd_symm hS) hdet _ rfl]
  exact (hJ _).add (psd_conj hQ _)

theorem chain_psd {correct : Y → σ → Py (Moments nx × σ)} {predict : σ → Py (Moments nx × σ)} {cross : σ → Py (Matrix (Fin nx) (Fin nx) ℝ)}
    (cov : σ → Matrix (Fin nx) (Fin nx) ℝ)
    (hc : ∀ y s m s', (cov s).PosSemidef → correct y s = .ok (m, s') → cov s' = m.2 ∧ m.2.PosSemidef ∧ (cov s - m.2).PosSemidef)
    (hp : ∀ s pr s' c, (cov s).PosSemidef → predict s = .ok (pr, s') → cross s' = .ok c →
      cov s' = pr.2 ∧ pr.2.PosSemidef ∧ (pr.2.det ≠ 0 → (unexplained (cov s) pr.2 c).PosSemidef))
    {y : List Y} {s s' : σ} {ms : List (Moments nx)} {prs : List (Moments nx × Matrix (Fin nx) (Fin nx) ℝ)} (hs : (cov s).PosSemidef)
    (h : scheduleWith correct predict cross y s = .ok (ms, prs, s')) :
    (∀ (k : Nat) m, ms[k]? = some m → m.2.PosSemidef) ∧ (∀ m, ms[0]? = some m → (cov s - m.2).PosSemidef) ∧
      ∀ (k : Nat) m pr m', ms[k]? = some m → prs[k]? = some pr → ms[k + 1]? = some m' →
        (pr.1.2 - m'.2).PosSemidef ∧ (pr.1.2.det ≠ 0 → (unexplained m.2 pr.1.2 pr.2).PosSemidef) := by
  induction y generalizing s ms prs with
  | nil => cases h; simp
  | cons a y ih =>
    cases y with
    | nil =>
      obtain ⟨⟨m, s1⟩, h1, h⟩ := py_bind_eq_ok h
      cases h
      obtain ⟨-, b, c⟩ := hc _ _ _ _ hs h1
      refine ⟨fun k m' hk => ?_, fun m' hm => ?_, fun k m' pr m'' _ hpr => by simp at hpr⟩
      · cases k with
        | zero => simp only [List.getElem?_cons_zero, Option.some.injEq] at hk; exact hk ▸ b
        | succ k => simp at hk
      · simp only [List.getElem?_cons_zero, Option.some.injEq] at hm; exact hm ▸ c
    | cons a' y =>
      obtain ⟨⟨m, s1⟩, h1, h⟩ := py_bind_eq_ok h
      obtain ⟨⟨pr, s2⟩, h2, h⟩ := py_bind_eq_ok h
      obtain ⟨c, h3, h⟩ := py_bind_eq_ok h
      obtain ⟨⟨ms', prs', s3⟩, h4, h⟩ := py_bind_eq_ok h
      cases h
      obtain ⟨e1, b1, c1⟩ := hc _ _ _ _ hs h1
      have hs1 : (cov s1).PosSemidef := e1 ▸ b1
      obtain ⟨e2, b2, c2⟩ := hp _ _ _ _ hs1 h2 h3
      obtain ⟨i1, i2, i3⟩ := ih (e2 ▸ b2) h4
      refine ⟨fun k m' hk => ?_, fun m' hm => ?_, fun k m0 pr0 m' hk hpr hk' => ?_⟩
      · cases k with
        | zero => simp only [List.getElem?_cons_zero, Option.some.injEq] at hk; exact hk ▸ b1
        | succ k => exact i1 k m' (by simpa using hk)
      · simp only [List.getElem?_cons_zero, Option.some.injEq] at hm; exact hm ▸ c1
      · cases k with
        | zero =>
          simp only [List.getElem?_cons_zero, Option.some.injEq] at hk hpr
          subst hk hpr
          exact ⟨e2 ▸ i2 m' (by simpa using hk'), fun hd => e1 ▸ c2 hd⟩
        | succ k => exact i3 k m0 pr0 m' (by simpa using hk) (by simpa using hpr) (by simpa using hk')

/-- The backward pass. -/
theorem smooth_psd (F : FilterClass nx Y p σ)
    (hc : ∀ y s m s', (F.attrs s).Px.PosSemidef → F.correct y s = .ok (m, s') →
      (F.attrs s').Px = m.2 ∧ m.2.PosSemidef ∧ ((F.attrs s).Px - m.2).PosSemidef)
    (hp : ∀ s pr s' c, (F.attrs s).Px.PosSemidef → F.predict s = .ok (pr, s') → F.predictionCrosscov s' = .ok c →
      (F.attrs s').Px = pr.2 ∧ pr.2.PosSemidef ∧ (pr.2.det ≠ 0 → (unexplained (F.attrs s).Px pr.2 c).PosSemidef))
    {y : List Y} {s s' s'' : σ} {ms sm : List (Moments nx)} (hs : (F.attrs s).Px.PosSemidef) (hf : F.filter y s = .ok (ms, s''))
    (h : F.smooth y s = .ok (sm, s')) (k : Nat) (m mk : Moments nx) (hk : ms[k]? = some m) (hk' : sm[k]? = some mk) :
    mk.2.PosSemidef ∧ (m.2 - mk.2).PosSemidef := by
  obtain ⟨ms', prs, h1, hy, h3, h4, h5⟩ := smooth_ok F h
  obtain ⟨g1, g2, -⟩ := scheduleWith_schedule h1
  rw [filter_eq, g1] at hf
  cases hf
  obtain ⟨c1, -, c3⟩ := chain_psd (fun s => (F.attrs s).Px) hc hp hs h1
  have hkl : k < y.length := by
    rw [← g2]
    exact (List.getElem?_eq_some_iff.1 hk).1
  obtain ⟨d, hd⟩ : ∃ d, k + d = y.length - 1 := ⟨y.length - 1 - k, by omega⟩
  clear hkl
  induction d generalizing k m mk with
  | zero =>
    rw [← hd, Nat.add_zero, hk, hk'] at h4
    obtain rfl := Option.some.inj h4
    exact ⟨c1 k _ hk, by simpa using PosSemidef.zero⟩
  | succ d ih =>
    obtain ⟨m0, pr, sm', smk, a1, a2, a3, a4, hdet, he⟩ := h5 k (by omega)
    obtain rfl := Option.some.inj (a1.symm.trans hk)
    obtain rfl := Option.some.inj (a4.symm.trans hk')
    obtain ⟨m', hm'⟩ : ∃ m', ms[k + 1]? = some m' := ⟨ms[k + 1]'(by omega), List.getElem?_eq_getElem _⟩
    obtain ⟨b1, b2⟩ := c3 k m0 pr m' hk a2 hm'
    obtain ⟨i1, i2⟩ := ih (k + 1) m' sm' hm' a3 (by omega)
    have he2 : smk.2 = m0.2 + pr.2 * pr.1.2⁻¹ * (sm'.2 - pr.1.2) * (pr.2 * pr.1.2⁻¹)ᵀ := congrArg Prod.snd he
    constructor
    · have : smk.2 = unexplained m0.2 pr.1.2 pr.2 + pr.2 * pr.1.2⁻¹ * sm'.2 * (pr.2 * pr.1.2⁻¹)ᵀ := by
        rw [he2, unexplained, Matrix.mul_sub, Matrix.sub_mul]
        abel
      rw [this]
      exact (b2 (isUnit_iff_ne_zero.1 hdet)).add (psd_conj i1 _)
    · have : m0.2 - smk.2 = pr.2 * pr.1.2⁻¹ * (pr.1.2 - m'.2 + (m'.2 - sm'.2)) * (pr.2 * pr.1.2⁻¹)ᵀ := by
        rw [he2, sub_add_sub_cancel, ← neg_sub sm'.2, Matrix.mul_neg, Matrix.neg_mul]
        abel
      rw [this]
      exact psd_conj (b1.add i2) _

end Ceacoest
