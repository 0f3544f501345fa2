import Verif.Spec.Units
import Verif.Lemmas.KalmanMerit
import Verif.Lemmas.KalmanLoops

/-! # Filters in other coordinates -/

namespace Ceacoest
open Matrix Spec
variable {A B A' B' : Type}

theorem Spec.SameOutcome.bind {R : A → B → Prop} {R' : A' → B' → Prop} {a : Py A} {b : Py B} {f : A → Py A'} {g : B → Py B'} (h : SameOutcome R a b)
    (hf : ∀ x y, R x y → SameOutcome R' (f x) (g y)) : SameOutcome R' (a >>= f) (b >>= g) := by
  cases a <;> cases b
  · exact h
  · exact h.elim
  · exact h.elim
  · exact hf _ _ h

theorem Spec.SameOutcome.mono {R R' : A → B → Prop} {a : Py A} {b : Py B} (h : SameOutcome R a b) (hf : ∀ x y, R x y → R' x y) : SameOutcome R' a b := by
  cases a <;> cases b
  · exact h
  · exact h.elim
  · exact h.elim
  · exact hf _ _ h

section loops
variable {nx : Nat} {Y p σ σ' : Type} {F F' : FilterClass nx Y p σ} {Rel : σ → σ → Prop} {φ : Moments nx → Moments nx}
  {χ : Matrix (Fin nx) (Fin nx) ℝ → Matrix (Fin nx) (Fin nx) ℝ} {ρ : Y → Y}

structure UnitsSim (F F' : FilterClass nx Y p σ) (Rel : σ → σ → Prop) (φ : Moments nx → Moments nx)
    (χ : Matrix (Fin nx) (Fin nx) ℝ → Matrix (Fin nx) (Fin nx) ℝ) (ρ : Y → Y) : Prop where
  attrs : ∀ s t, Rel s t → ((F'.attrs t).x, (F'.attrs t).Px) = φ ((F.attrs s).x, (F.attrs s).Px)
  correct : ∀ y s t, Rel s t → SameOutcome (fun r r' => r'.1 = φ r.1 ∧ Rel r.2 r'.2) (F.correct y s) (F'.correct (ρ y) t)
  predict : ∀ s t, Rel s t → SameOutcome (fun r r' => r'.1 = φ r.1 ∧ Rel r.2 r'.2 ∧
    SameOutcome (fun c c' => c' = χ c) (F.predictionCrosscov r.2) (F'.predictionCrosscov r'.2)) (F.predict s) (F'.predict t)

theorem UnitsSim.schedule (h : UnitsSim F F' Rel φ χ ρ) (y : List Y) (s t : σ) (hs : Rel s t) :
    SameOutcome (fun r r' => r'.1 = r.1.map φ ∧ Rel r.2 r'.2) (Spec.schedule F.correct F.predict y s) (Spec.schedule F'.correct F'.predict (y.map ρ) t) := by
  induction y generalizing s t with
  | nil => exact ⟨rfl, hs⟩
  | cons y ys ih =>
    cases ys with
    | nil =>
      simp only [List.map_cons, List.map_nil, Spec.schedule]
      exact (h.correct y s t hs).bind fun r r' hr => ⟨by rw [hr.1]; rfl, hr.2⟩
    | cons y' ys =>
      simp only [List.map_cons, Spec.schedule]
      refine (h.correct y s t hs).bind fun r r' hr => (h.predict _ _ hr.2).bind fun q q' hq => (ih _ _ hq.2.1).bind fun v v' hv => ⟨?_, hv.2⟩
      rw [hr.1, hv.1]
      rfl

theorem UnitsSim.filter (h : UnitsSim F F' Rel φ χ ρ) (y : List Y) (s t : σ) (hs : Rel s t) :
    SameOutcome (fun r r' => r'.1 = r.1.map φ ∧ Rel r.2 r'.2) (F.filter y s) (F'.filter (y.map ρ) t) := by
  rw [filter_eq, filter_eq]
  exact h.schedule y s t hs

theorem UnitsSim.scheduleWith (h : UnitsSim F F' Rel φ χ ρ) (y : List Y) (s t : σ) (hs : Rel s t) :
    SameOutcome (fun r r' => r'.1 = r.1.map φ ∧ r'.2.1 = r.2.1.map (Prod.map φ χ) ∧ Rel r.2.2 r'.2.2)
      (Spec.scheduleWith F.correct F.predict F.predictionCrosscov y s) (Spec.scheduleWith F'.correct F'.predict F'.predictionCrosscov (y.map ρ) t) := by
  induction y generalizing s t with
  | nil => exact ⟨rfl, rfl, hs⟩
  | cons y ys ih =>
    cases ys with
    | nil =>
      simp only [List.map_cons, List.map_nil, Spec.scheduleWith]
      exact (h.correct y s t hs).bind fun r r' hr => ⟨by rw [hr.1]; rfl, rfl, hr.2⟩
    | cons y' ys =>
      simp only [List.map_cons, Spec.scheduleWith]
      refine (h.correct y s t hs).bind fun r r' hr => (h.predict _ _ hr.2).bind fun q q' hq => hq.2.2.bind fun c c' hc =>
        (ih _ _ hq.2.1).bind fun v v' hv => ⟨?_, ?_, hv.2.2⟩
      · rw [hr.1, hv.1]; rfl
      · rw [hq.1, hv.2.1, hc]; rfl

theorem row_map {A B : Type} (f : A → B) (l : List A) (k : Nat) : SameOutcome (fun a b => b = f a) (FilterClass.row l k) (FilterClass.row (l.map f) k) := by
  unfold FilterClass.row
  rw [List.getElem?_map]
  cases l[k]? <;> rfl

theorem foldlM_same {A B K : Type} {R : A → B → Prop} {g : A → K → Py A} {g' : B → K → Py B} (ks : List K)
    (hg : ∀ a b k, R a b → SameOutcome R (g a k) (g' b k)) (a : A) (b : B) (h : R a b) : SameOutcome R (ks.foldlM g a) (ks.foldlM g' b) := by
  induction ks generalizing a b with
  | nil => exact h
  | cons k ks ih =>
    rw [List.foldlM_cons, List.foldlM_cons]
    exact (hg a b k h).bind fun a b h => ih a b h

theorem UnitsSim.smooth (h : UnitsSim F F' Rel φ χ ρ)
    (hφ : ∀ pr c m' m, SameOutcome (fun r r' : Moments nx => ((φ m).1 + r'.1, (φ m).2 + r'.2) = φ (m.1 + r.1, m.2 + r.2))
      (FilterClass.smootherCorrection pr.1 pr.2 c m'.1 m'.2) (FilterClass.smootherCorrection (φ pr).1 (φ pr).2 (χ c) (φ m').1 (φ m').2))
    (y : List Y) (s t : σ) (hs : Rel s t) :
    SameOutcome (fun r r' => r'.1 = r.1.map φ ∧ Rel r.2 r'.2) (F.smooth y s) (F'.smooth (y.map ρ) t) := by
  by_cases hy : y = []
  · subst hy; rfl
  rw [smooth_eq F hy, smooth_eq F' (by simpa using hy)]
  refine (h.scheduleWith y s t hs).bind fun r r' hr => ?_
  rw [List.length_map]
  refine (foldlM_same (R := fun m m' => m' = m.map φ) _ ?_ _ _ hr.1).bind fun m m' hm => ⟨hm, hr.2.2⟩
  rintro m _ k rfl
  have e1 : (((F'.attrs t).x, (F'.attrs t).Px) :: r'.2.1.map Prod.fst) = (((F.attrs s).x, (F.attrs s).Px) :: r.2.1.map Prod.fst).map φ := by
    rw [h.attrs s t hs, hr.2.1, List.map_cons, List.map_map, List.map_map]; rfl
  have e2 : r'.2.1.map Prod.snd = (r.2.1.map Prod.snd).map χ := by
    rw [hr.2.1, List.map_map, List.map_map]; rfl
  rw [e1, e2]
  unfold FilterClass.smoothBackward
  refine (row_map φ _ _).bind fun pr pr' hpr => (row_map χ _ _).bind fun c c' hc => (row_map φ _ _).bind fun m1 m1' hm1 => ?_
  subst hpr hc hm1
  have key := hφ pr c m1
  cases e : FilterClass.smootherCorrection pr.1 pr.2 c m1.1 m1.2 with
  | error err =>
    have := key (0, 0)
    rw [e] at this
    dsimp only
    rw [e]
    cases e' : FilterClass.smootherCorrection (φ pr).1 (φ pr).2 (χ c) (φ m1).1 (φ m1).2 with
    | error err' => rw [e'] at this; exact this
    | ok v => rw [e'] at this; exact this.elim
  | ok v =>
    dsimp only
    rw [e]
    cases e' : FilterClass.smootherCorrection (φ pr).1 (φ pr).2 (χ c) (φ m1).1 (φ m1).2 with
    | error err' => have := key (0, 0); rw [e, e'] at this; exact this.elim
    | ok v' =>
      refine (row_map φ _ _).bind fun m0 m0' hm0 => ?_
      subst hm0
      have := key m0
      rw [e, e'] at this
      have this : ((φ m0).1 + v'.1, (φ m0).2 + v'.2) = φ (m0.1 + v.1, m0.2 + v.2) := this
      show List.set (m.map φ) _ _ = (List.set m _ _).map φ
      rw [List.map_set, ← this]

end loops

section units
variable {nx : Nat} {o p : Type} (U : Units nx o)

theorem state_add (x v : Fin nx → ℝ) : U.state (x + v) = U.state x + U.T *ᵥ v := by
  unfold Units.state
  rw [mulVec_add]
  abel

theorem state_sub (x v : Fin nx → ℝ) : U.state x - U.state v = U.T *ᵥ (x - v) := by
  unfold Units.state
  rw [mulVec_sub]
  abel

theorem cov_add (P Q : Matrix (Fin nx) (Fin nx) ℝ) : U.cov (P + Q) = U.cov P + U.cov Q := by
  unfold Units.cov
  rw [Matrix.mul_add, Matrix.add_mul]

theorem cov_sub (P Q : Matrix (Fin nx) (Fin nx) ℝ) : U.cov (P - Q) = U.cov P - U.cov Q := by
  unfold Units.cov
  rw [Matrix.mul_sub, Matrix.sub_mul]

theorem smootherCorrection_eq (xp : Fin nx → ℝ) (Pp C : Matrix (Fin nx) (Fin nx) ℝ) (xs : Fin nx → ℝ) (Ps : Matrix (Fin nx) (Fin nx) ℝ) :
    FilterClass.smootherCorrection xp Pp C xs Ps = if Pp.det = 0 then .error .linAlgError else
      .ok ((C * Pp⁻¹) *ᵥ (xs - xp), C * Pp⁻¹ * (Ps - Pp) * (C * Pp⁻¹)ᵀ) := by
  unfold FilterClass.smootherCorrection npInv
  split
  · rfl
  · simp only [py_bind_ok, py_pure]
    exact congrArg Except.ok (Prod.ext rfl (sandwich_eq _ _))

theorem units_smoother (hT : U.T.det ≠ 0) (pr : Moments nx) (c : Matrix (Fin nx) (Fin nx) ℝ) (m' m : Moments nx) :
    SameOutcome (fun r r' : Moments nx => ((U.moments m).1 + r'.1, (U.moments m).2 + r'.2) = U.moments (m.1 + r.1, m.2 + r.2))
      (FilterClass.smootherCorrection pr.1 pr.2 c m'.1 m'.2)
      (FilterClass.smootherCorrection (U.moments pr).1 (U.moments pr).2 (U.cov c) (U.moments m').1 (U.moments m').2) := by
  rw [smootherCorrection_eq, smootherCorrection_eq]
  have hd : (U.moments pr).2.det = U.T.det * pr.2.det * U.T.det := by
    unfold Units.moments Units.cov; dsimp only; rw [det_mul, det_mul, det_transpose]
  by_cases h : pr.2.det = 0
  · rw [if_pos h, if_pos (by rw [hd, h]; simp)]; rfl
  · rw [if_neg h, if_neg (by rw [hd]; exact mul_ne_zero (mul_ne_zero hT h) hT)]
    have hT' : IsUnit U.T.det := isUnit_iff_ne_zero.2 hT
    have hTT : IsUnit U.Tᵀ.det := by rwa [det_transpose]
    have hK : U.cov c * (U.moments pr).2⁻¹ = U.T * (c * pr.2⁻¹) * U.T⁻¹ := by
      unfold Units.moments Units.cov
      dsimp only
      rw [Matrix.mul_inv_rev, Matrix.mul_inv_rev]
      calc U.T * c * U.Tᵀ * (U.Tᵀ⁻¹ * (pr.2⁻¹ * U.T⁻¹)) = U.T * c * (U.Tᵀ * U.Tᵀ⁻¹) * (pr.2⁻¹ * U.T⁻¹) := by simp only [Matrix.mul_assoc]
        _ = _ := by rw [mul_nonsing_inv _ hTT, Matrix.mul_one]; simp only [Matrix.mul_assoc]
    show (U.state m.1 + _, U.cov m.2 + _) = (U.state _, U.cov _)
    rw [hK, state_add, cov_add]
    refine Prod.ext ?_ ?_
    · refine congrArg (U.state m.1 + ·) ?_
      show (U.T * (c * pr.2⁻¹) * U.T⁻¹) *ᵥ (U.state m'.1 - U.state pr.1) = _
      rw [state_sub, mulVec_mulVec, mulVec_mulVec, Matrix.mul_assoc _ U.T⁻¹, nonsing_inv_mul _ hT', Matrix.mul_one]
    · refine congrArg (U.cov m.2 + ·) ?_
      show (U.T * (c * pr.2⁻¹) * U.T⁻¹) * (U.cov m'.2 - U.cov pr.2) * (U.T * (c * pr.2⁻¹) * U.T⁻¹)ᵀ = _
      rw [← cov_sub]
      unfold Units.cov
      generalize c * pr.2⁻¹ = G
      generalize m'.2 - pr.2 = E
      rw [transpose_mul, transpose_mul]
      calc U.T * G * U.T⁻¹ * (U.T * E * U.Tᵀ) * (U.T⁻¹ᵀ * (Gᵀ * U.Tᵀ))
          = U.T * G * (U.T⁻¹ * U.T) * E * (U.Tᵀ * U.T⁻¹ᵀ) * (Gᵀ * U.Tᵀ) := by simp only [Matrix.mul_assoc]
        _ = _ := by
          rw [nonsing_inv_mul _ hT', ← transpose_mul, nonsing_inv_mul _ hT', transpose_one, Matrix.mul_one, Matrix.mul_one]
          simp only [Matrix.mul_assoc]

variable {U} [Fintype o] [LinearOrder o]

omit [Fintype o] [LinearOrder o] in
/-- The innovation part, for any filter: `I` is the inverse, `C` the cross covariance and `S` the covariance of the innovation. -/
theorem units_gain {a : Type} [Fintype a] [DecidableEq a] {D : a → ℝ} {C C' : Matrix (Fin nx) a ℝ} {S S' I I' : Matrix a a ℝ} {e e' : a → ℝ}
    (hC : C' = U.T * C * diagonal D) (hS : S' = diagonal D * S * diagonal D) (hI : I = diagonal D * I' * diagonal D) (he : ∀ j, e' j = D j * e j)
    (x : Fin nx → ℝ) (P : Matrix (Fin nx) (Fin nx) ℝ) :
    U.state x + (C' * I') *ᵥ e' = U.state (x + (C * I) *ᵥ e) ∧ U.cov P - C' * I' * S' * (C' * I')ᵀ = U.cov (P - C * I * S * (C * I)ᵀ) := by
  have he' : e' = diagonal D *ᵥ e := by ext j; rw [mulVec_diagonal, he]
  have hK : C' * I' * diagonal D = U.T * (C * I) := by
    rw [hC, hI]
    simp only [Matrix.mul_assoc]
  have hK' : diagonal D * (C' * I')ᵀ = (C * I)ᵀ * U.Tᵀ := by
    rw [← transpose_mul, ← hK, transpose_mul _ (diagonal D), diagonal_transpose]
  refine ⟨?_, ?_⟩
  · rw [state_add, he', mulVec_mulVec, mulVec_mulVec, hK]
  · rw [cov_sub, hS]
    unfold Units.cov
    refine congrArg (U.T * P * U.Tᵀ - ·) ?_
    calc C' * I' * (diagonal D * S * diagonal D) * (C' * I')ᵀ = (C' * I' * diagonal D) * S * (diagonal D * (C' * I')ᵀ) := by
          simp only [Matrix.mul_assoc]
      _ = _ := by rw [hK, hK']; simp only [Matrix.mul_assoc]

theorem inv_scale {a : Type} [Fintype a] [LinearOrder a] {D : a → ℝ} (hD : ∀ j, D j ≠ 0) (C : Matrix a a ℝ) :
    ((diagonal D * C * diagonal D).det = 0 ↔ C.det = 0) ∧ C⁻¹ = diagonal D * (diagonal D * C * diagonal D)⁻¹ * diagonal D ∧
      ((C * diagonal D).det = 0 ↔ C.det = 0) ∧ C⁻¹ = diagonal D * (C * diagonal D)⁻¹ := by
  have hdet : (diagonal D).det ≠ 0 := by rw [det_diagonal]; exact Finset.prod_ne_zero_iff.2 fun j _ => hD j
  have hu : IsUnit (diagonal D).det := isUnit_iff_ne_zero.2 hdet
  refine ⟨?_, ?_, ?_, ?_⟩
  · rw [det_mul, det_mul, mul_eq_zero, mul_eq_zero]; tauto
  · rw [Matrix.mul_inv_rev, Matrix.mul_inv_rev]
    calc C⁻¹ = 1 * C⁻¹ * 1 := by rw [Matrix.one_mul, Matrix.mul_one]
      _ = (diagonal D * (diagonal D)⁻¹) * C⁻¹ * ((diagonal D)⁻¹ * diagonal D) := by rw [mul_nonsing_inv _ hu, nonsing_inv_mul _ hu]
      _ = _ := by simp only [Matrix.mul_assoc]
  · rw [det_mul, mul_eq_zero]; tauto
  · rw [Matrix.mul_inv_rev, ← Matrix.mul_assoc, mul_nonsing_inv _ hu, Matrix.one_mul]

/-! ### extended.py -/

theorem ekf_core_units {a : Type} [Fintype a] [LinearOrder a] {D : a → ℝ} (hD : ∀ j, D j ≠ 0) {H H' : Matrix (Fin nx) a ℝ} {R R' : Matrix a a ℝ} {y y' h h' : a → ℝ}
    (hH : U.Tᵀ * H' = H * diagonal D) (hR : R' = diagonal D * R * diagonal D) (he : ∀ j, y' j - h' j = D j * (y j - h j)) (x : Fin nx → ℝ)
    (P : Matrix (Fin nx) (Fin nx) ℝ) :
    SameOutcome (fun r r' => r'.1 = U.moments r.1) (EKF.core x P y h H R) (EKF.core (U.state x) (U.cov P) y' h' H' R') := by
  rw [ekf_core_eq, ekf_core_eq]
  have hC : U.cov P * H' = U.T * (P * H) * diagonal D := by
    unfold Units.cov
    rw [Matrix.mul_assoc, hH]
    simp only [Matrix.mul_assoc]
  have hS : H'ᵀ * (U.cov P * H') + R' = diagonal D * (Hᵀ * (P * H) + R) * diagonal D := by
    rw [hC, hR, Matrix.mul_add, Matrix.add_mul]
    refine congrArg (· + _) ?_
    have := congrArg transpose hH
    rw [transpose_mul, transpose_mul, transpose_transpose, diagonal_transpose] at this
    rw [← Matrix.mul_assoc, ← Matrix.mul_assoc, this]
    simp only [Matrix.mul_assoc]
  obtain ⟨h0, hI, -⟩ := inv_scale hD (Hᵀ * (P * H) + R)
  rw [← hS] at h0 hI
  obtain ⟨h1, h2⟩ := units_gain (U := U) hC hS hI (e := y - h) (e' := y' - h') he x P
  by_cases hdet : (Hᵀ * (P * H) + R).det = 0
  · rw [if_pos hdet, if_pos (h0.2 hdet)]; rfl
  · rw [if_neg hdet, if_neg fun h => hdet (h0.1 h)]
    exact Prod.ext h1 h2

theorem ekf_units {M M' : KModel nx o p} (hM : U.Converts M M') (hM' : U.ConvertsDeriv M M') (hD : ∀ j, U.D j ≠ 0) :
    UnitsSim (EKF.cls M) (EKF.cls M') (fun s t => U.Same s.toFilterAttrs t.toFilterAttrs) U.moments U.cov U.row where
  attrs := fun s t ⟨_, hx, hP⟩ => Prod.ext hx hP
  predict := by
    rintro s t ⟨hk, hx, hP⟩
    show SameOutcome _ (EKF.predict M s) (EKF.predict M' t)
    rw [ekf_predict_eq, ekf_predict_eq]
    have hF : U.Tᵀ * (of (M'.df_dx t.k t.x) : Matrix (Fin nx) (Fin nx) ℝ) = of (M.df_dx s.k s.x) * U.Tᵀ := by
      rw [hk, hx]; ext i j; exact hM'.f s.k s.x i j
    dsimp only
    rw [hP]
    have hc : U.cov s.Px * (of (M'.df_dx t.k t.x) : Matrix (Fin nx) (Fin nx) ℝ) = U.cov (s.Px * of (M.df_dx s.k s.x)) := by
      unfold Units.cov
      rw [Matrix.mul_assoc, hF]
      simp only [Matrix.mul_assoc]
    have hp : (of (M'.df_dx t.k t.x) : Matrix (Fin nx) (Fin nx) ℝ)ᵀ * (U.cov s.Px * (of (M'.df_dx t.k t.x) : Matrix (Fin nx) (Fin nx) ℝ)) + M'.Q t.k t.x =
        U.cov ((of (M.df_dx s.k s.x) : Matrix (Fin nx) (Fin nx) ℝ)ᵀ * (s.Px * of (M.df_dx s.k s.x)) + M.Q s.k s.x) := by
      rw [cov_add, hc, hk, hx, hM.Q]
      refine congrArg (· + _) ?_
      have := congrArg transpose hF
      rw [transpose_mul, transpose_mul, transpose_transpose, hk, hx] at this
      unfold Units.cov
      rw [Matrix.mul_assoc, ← Matrix.mul_assoc _ U.T, this]
      simp only [Matrix.mul_assoc]
    have hf : M'.f t.k t.x = U.state (M.f s.k s.x) := by rw [hk, hx, hM.f]
    exact ⟨Prod.ext hf hp, ⟨congrArg (· + 1) hk, hf, hp⟩, hc⟩
  correct := by
    rintro y s t ⟨hk, hx, hP⟩
    show SameOutcome _ (EKF.correct M y s) (EKF.correct M' (U.row y) t)
    by_cases hy : ∀ j, y.mask j = true
    · rw [ekf_correct_masked M hy, ekf_correct_masked M' (y := U.row y) hy]
      exact ⟨Prod.ext hx hP, hk, hx, hP⟩
    · rw [ekf_correct_active M hy, ekf_correct_active M' (y := U.row y) hy]
      refine SameOutcome.bind (R := fun r r' => r'.1 = U.moments r.1) ?_ fun r r' hr => ⟨hr, hk, congrArg Prod.fst hr, congrArg Prod.snd hr⟩
      rw [hx, hP]
      refine ekf_core_units (D := fun j : y.Active => U.D j.1) (fun j => hD j.1) ?_ ?_ (fun j => ?_) s.x s.Px
      · ext i j; rw [mul_diagonal, hk]; exact hM'.h s.k s.x i j.1
      · ext i j; rw [mul_diagonal, diagonal_mul]; exact hM.R i.1 j.1
      · show U.D j.1 * y.data j.1 + U.c j.1 - M'.h t.k (U.state s.x) j.1 = U.D j.1 * (y.data j.1 - M.h s.k s.x j.1)
        rw [hk, hM.h]; ring

/-! ### unscented.py -/

section chol
variable {ι : Type} [Fintype ι] [LinearOrder ι] {d : ι → ℝ}

omit [Fintype ι] in
theorem lowerSym_scale [Fintype ι] (Q : Matrix ι ι ℝ) : lowerSym (diagonal d * Q * diagonal d) = diagonal d * lowerSym Q * diagonal d := by
  ext i j
  simp only [lowerSym, of_apply, mul_diagonal, diagonal_mul]
  split
  · rfl
  · ring

theorem isChol_scale (hd : ∀ i, 0 < d i) {Q L : Matrix ι ι ℝ} (h : IsChol Q L) : IsChol (diagonal d * Q * diagonal d) (diagonal d * L) where
  lower := fun i j hij => by rw [diagonal_mul, h.lower i j hij, mul_zero]
  pos := fun i => by rw [diagonal_mul]; exact mul_pos (hd i) (h.pos i)
  eq := by
    rw [transpose_mul, diagonal_transpose, ← h.eq]
    simp only [Matrix.mul_assoc]

theorem cholU_scale (hd : ∀ i, 0 < d i) (Q : Matrix ι ι ℝ) :
    SameOutcome (fun S S' => S' = S * diagonal d ∧ ∀ i, 0 < S i i) (cholU Q) (cholU (diagonal d * Q * diagonal d)) := by
  unfold cholU
  have hd' : ∀ i, 0 < (d i)⁻¹ := fun i => inv_pos.2 (hd i)
  have hinv : (diagonal fun i => (d i)⁻¹) * diagonal d = 1 := by
    rw [diagonal_mul_diagonal, ← diagonal_one]
    exact congrArg diagonal (funext fun i => inv_mul_cancel₀ (hd i).ne')
  have hinv' : diagonal d * (diagonal fun i => (d i)⁻¹) = 1 := by
    rw [diagonal_mul_diagonal, ← diagonal_one]
    exact congrArg diagonal (funext fun i => mul_inv_cancel₀ (hd i).ne')
  by_cases h : ∃ L, IsChol (lowerSym Q) L
  · obtain ⟨L, hL⟩ := h
    rw [(npCholesky_ok_iff Q L).2 hL, (npCholesky_ok_iff _ _).2 (lowerSym_scale (d := d) Q ▸ isChol_scale hd hL)]
    refine ⟨?_, hL.pos⟩
    show (diagonal d * L)ᵀ = Lᵀ * diagonal d
    rw [transpose_mul, diagonal_transpose]
  · rw [npCholesky_error Q fun hp => h ((isChol_iff_posDef _).2 hp), npCholesky_error _ fun hp => h ?_]
    · rfl
    · obtain ⟨L, hL⟩ := (isChol_iff_posDef _).2 hp
      have h2 := isChol_scale hd' hL
      rw [lowerSym_scale] at h2
      refine ⟨_, Eq.mp (congrArg (fun Z => IsChol Z _) ?_) h2⟩
      calc (diagonal fun i => (d i)⁻¹) * (diagonal d * lowerSym Q * diagonal d) * (diagonal fun i => (d i)⁻¹)
          = ((diagonal fun i => (d i)⁻¹) * diagonal d) * lowerSym Q * (diagonal d * (diagonal fun i => (d i)⁻¹)) := by simp only [Matrix.mul_assoc]
        _ = lowerSym Q := by rw [hinv, hinv', Matrix.one_mul, Matrix.mul_one]

end chol

theorem spread_scale {ni ns : Nat} (S : Matrix (Fin ni) (Fin ni) ℝ) (d : Fin ni → ℝ) (k : Fin ns) (i : Fin ni) :
    UT.spread ns (fun k => (S * diagonal d) k) k i = UT.spread ns (fun k => S k) k i * d i := by
  have h : ∀ k, (S * diagonal d) k i = S k i * d i := fun k => mul_diagonal d S k i
  unfold UT.spread
  split
  · exact h _
  · split
    · exact (congrArg Neg.neg (h _)).trans (neg_mul _ _).symm
    · exact (zero_mul _).symm

theorem transform_units {ni : Nat} {ut : UT ni} {kappa : ℝ} (hi : UT.init ni .cholesky kappa = .ok ut) {d b : Fin ni → ℝ} (hd : ∀ i, 0 < d i)
    {a : Type} [Fintype a] [DecidableEq a] {D c : a → ℝ} {f f' : (Fin ni → ℝ) → a → ℝ}
    (hf : ∀ x j, f' (diagonal d *ᵥ x + b) j = D j * f x j + c j) (x : Fin ni → ℝ) (P : Matrix (Fin ni) (Fin ni) ℝ) :
    SameOutcome (fun t t' => (∀ j, t'.mean j = D j * t.mean j + c j) ∧ t'.Po = diagonal D * t.Po * diagonal D ∧
        ut.crosscov t' = diagonal d * ut.crosscov t * diagonal D)
      (ut.transform x P f) (ut.transform (diagonal d *ᵥ x + b) (diagonal d * P * diagonal d) f') := by
  obtain ⟨-, -, hkind, -⟩ := ut_init_ok hi
  have hw := weights_sum hi
  have hsq : SameOutcome (fun S S' => S' = S * diagonal d) (ut.sqrt (((ni : ℝ) + ut.kappa) • P))
      (ut.sqrt (((ni : ℝ) + ut.kappa) • (diagonal d * P * diagonal d))) := by
    unfold UT.sqrt
    rw [hkind]
    have := (cholU_scale hd (((ni : ℝ) + ut.kappa) • P)).mono fun _ _ h => h.1
    rwa [Matrix.mul_smul, Matrix.smul_mul] at this
  unfold UT.transform UT.sigmaPoints
  refine SameOutcome.bind (SameOutcome.bind hsq (R' := fun r r' => r'.1 = r.1 * diagonal d ∧ r.2.1 = UT.spread ut.nsigma (fun k => r.1 k) ∧
    r'.2.1 = UT.spread ut.nsigma (fun k => r'.1 k) ∧ r.2.2 = (fun k => r.2.1 k + x) ∧ r'.2.2 = fun k => r'.2.1 k + (diagonal d *ᵥ x + b)) ?_) ?_
  · rintro S S' rfl
    exact ⟨rfl, rfl, rfl, rfl, rfl⟩
  rintro ⟨S, idev, isigma⟩ ⟨S', idev', isigma'⟩ ⟨h1, h2, h3, h4, h5⟩
  dsimp only at h1 h2 h3 h4 h5
  have hidev : ∀ k i, idev' k i = idev k i * d i := fun k i => by rw [h3, h2, h1]; exact spread_scale S d k i
  have hsig : ∀ k, isigma' k = diagonal d *ᵥ isigma k + b := by
    intro k
    ext i
    rw [h5, h4]
    simp only [Pi.add_apply, mulVec_diagonal, hidev]
    ring
  have hmean : ∀ j, ∑ k, ut.weights k * f' (isigma' k) j = D j * (∑ k, ut.weights k * f (isigma k) j) + c j := by
    intro j
    have : ∀ k, ut.weights k * f' (isigma' k) j = D j * (ut.weights k * f (isigma k) j) + ut.weights k * c j := fun k => by rw [hsig, hf]; ring
    rw [Finset.sum_congr rfl fun k _ => this k, Finset.sum_add_distrib, ← Finset.mul_sum, ← Finset.sum_mul, hw, one_mul]
  have hodev : ∀ k j, f' (isigma' k) j - (∑ k, ut.weights k * f' (isigma' k) j) = D j * (f (isigma k) j - ∑ k, ut.weights k * f (isigma k) j) := by
    intro k j
    rw [hmean, hsig, hf]
    ring
  refine ⟨hmean, ?_, ?_⟩
  · ext i j
    rw [mul_diagonal, diagonal_mul]
    show ∑ k, (f' (isigma' k) i - _) * (f' (isigma' k) j - _) * ut.weights k = D i * (∑ k, (f (isigma k) i - _) * (f (isigma k) j - _) * ut.weights k) * D j
    rw [Finset.mul_sum, Finset.sum_mul]
    refine Finset.sum_congr rfl fun k _ => ?_
    rw [hodev k i, hodev k j]
    ring
  · ext i j
    rw [mul_diagonal, diagonal_mul]
    show ∑ k, idev' k i * (f' (isigma' k) j - _) * ut.weights k = d i * (∑ k, idev k i * (f (isigma k) j - _) * ut.weights k) * D j
    rw [Finset.mul_sum, Finset.sum_mul]
    refine Finset.sum_congr rfl fun k _ => ?_
    rw [hodev k j, hidev]
    ring

theorem ukf_core_units {cut : UT nx} {kappa : ℝ} (hi : UT.init nx .cholesky kappa = .ok cut) {d : Fin nx → ℝ} (hT : U.T = diagonal d) (hd : ∀ i, 0 < d i)
    {a : Type} [Fintype a] [LinearOrder a] {D c : a → ℝ} (hD : ∀ j, 0 < D j) {R R' : Matrix a a ℝ} {y y' : a → ℝ} {h h' : (Fin nx → ℝ) → a → ℝ}
    (hh : ∀ x j, h' (U.state x) j = D j * h x j + c j) (hy : ∀ j, y' j = D j * y j + c j) (hR : R' = diagonal D * R * diagonal D)
    (x : Fin nx → ℝ) (P : Matrix (Fin nx) (Fin nx) ℝ) :
    SameOutcome (fun r r' => r'.1 = U.moments r.1 ∧ (∀ j, r'.2.e j = D j * r.2.e j) ∧ r.2.PyI = diagonal D * r'.2.PyI * diagonal D ∧
        ∀ j, r'.2.PyC j j = r.2.PyC j j * D j ∧ 0 < r.2.PyC j j)
      (UKF.core (p := p) cut x P y h R) (UKF.core (p := p) cut (U.state x) (U.cov P) y' h' R') := by
  have ht := transform_units hi hd (b := U.b) (D := D) (c := c) (f := h) (f' := h') (by rw [← hT]; exact hh) x P
  have e1 : diagonal d *ᵥ x + U.b = U.state x := by rw [← hT]; rfl
  have e2 : diagonal d * P * diagonal d = U.cov P := by unfold Units.cov; rw [hT, diagonal_transpose]
  rw [e1, e2] at ht
  unfold UKF.core
  refine ht.bind fun t t' ⟨hm, hPo, hX⟩ => ?_
  have hS : t'.Po + R' = diagonal D * (t.Po + R) * diagonal D := by rw [hPo, hR, Matrix.mul_add, Matrix.add_mul]
  have hc := cholU_scale hD (t.Po + R)
  rw [← hS] at hc
  refine hc.bind fun C C' ⟨hC, hpos⟩ => ?_
  obtain ⟨-, -, h0, hI⟩ := inv_scale (fun j => (hD j).ne') C
  rw [← hC] at h0 hI
  have hn : SameOutcome (fun I I' => I = diagonal D * I') (npInv C) (npInv C') := by
    unfold npInv
    by_cases hdet : C.det = 0
    · rw [if_pos hdet, if_pos (h0.2 hdet)]; rfl
    · rw [if_neg hdet, if_neg fun h => hdet (h0.1 h)]; exact hI
  refine hn.bind fun I I' hI => ?_
  have hPI : I * Iᵀ = diagonal D * (I' * I'ᵀ) * diagonal D := by
    rw [hI, transpose_mul, diagonal_transpose]
    simp only [Matrix.mul_assoc]
  have he : ∀ j, (y' - t'.mean) j = D j * (y - t.mean) j := fun j => by rw [Pi.sub_apply, hy, hm, Pi.sub_apply]; ring
  rw [← hT] at hX
  obtain ⟨h1, h2⟩ := units_gain (U := U) hX hS hPI he x P
  refine ⟨Prod.ext h1 ?_, he, hPI, fun j => ⟨?_, hpos j⟩⟩
  · have g := gain_cov (cut.crosscov t * (I * Iᵀ)) (t.Po + R)
    have g' := gain_cov (cut.crosscov t' * (I' * I'ᵀ)) (t'.Po + R')
    refine Eq.trans (congrArg (U.cov P - ·) g') (h2.trans (congrArg (fun Z => U.cov (P - Z)) g.symm))
  · show C' j j = C j j * D j
    rw [hC, mul_diagonal]

section ukf
variable {put cut : UT nx} {kappa kappa' : ℝ} {M M' : KModel nx o p} {d : Fin nx → ℝ}

/-- What is known of a correction of the unscented filter, and of its likelihood. -/
theorem ukf_correct_units {ns : Nat} (hcut : UT.init nx .cholesky kappa' = .ok cut) (hM : U.Converts M M') (hT : U.T = diagonal d) (hd : ∀ i, 0 < d i)
    (hD : ∀ j, 0 < U.D j) (y : MaskedRow o) (s t : UKF nx cut.nsigma ns o p) (hs : U.Same s.toFilterAttrs t.toFilterAttrs) :
    SameOutcome (fun r r' => r'.1 = U.moments r.1 ∧ U.Same r.2.toFilterAttrs r'.2.toFilterAttrs ∧
        SameOutcome (fun q q' => U.Same q.toFilterAttrs q'.toFilterAttrs ∧ q'.L - t.L = q.L - s.L - U.logVolume y)
          (UKF.updateLikelihood r.2) (UKF.updateLikelihood r'.2))
      (UKF.correct cut M y s) (UKF.correct cut M' (U.row y) t) := by
  obtain ⟨hk, hx, hP⟩ := hs
  by_cases hy : ∀ j, y.mask j = true
  · rw [ukf_correct_masked M hy, ukf_correct_masked M' (y := U.row y) hy]
    refine ⟨Prod.ext hx hP, ⟨hk, hx, hP⟩, ⟨hk, hx, hP⟩, ?_⟩
    have : U.logVolume y = 0 := Finset.sum_eq_zero fun j _ => if_neg (by rw [hy j]; decide)
    show t.L - t.L = s.L - s.L - _
    rw [this]; ring
  · rw [ukf_correct_active M hy, ukf_correct_active M' (y := U.row y) hy]
    refine SameOutcome.bind (R := fun (r : Moments nx × UCorr nx cut.nsigma p y.Active) (r' : Moments nx × UCorr nx cut.nsigma p y.Active) => r'.1 = U.moments r.1 ∧
      (∀ j : y.Active, r'.2.e j = U.D j.1 * r.2.e j) ∧ r.2.PyI = diagonal (fun j : y.Active => U.D j.1) * r'.2.PyI * diagonal (fun j : y.Active => U.D j.1) ∧
        ∀ j : y.Active, r'.2.PyC j j = r.2.PyC j j * U.D j.1 ∧ 0 < r.2.PyC j j) ?_ ?_
    · rw [hx, hP]
      refine ukf_core_units hcut hT hd (D := fun j : y.Active => U.D j.1) (c := fun j => U.c j.1) (fun j => hD j.1) (fun x j => ?_) (fun j => rfl) ?_ s.x s.Px
      · rw [hk]; exact hM.h s.k x j.1
      · ext i j; rw [mul_diagonal, diagonal_mul]; exact hM.R i.1 j.1
    · rintro r r' ⟨hr, he, hI, hC⟩
      refine ⟨hr, ⟨hk, congrArg Prod.fst hr, congrArg Prod.snd hr⟩, ⟨hk, congrArg Prod.fst hr, congrArg Prod.snd hr⟩, ?_⟩
      show t.L - 0.5 * (∑ i : y.Active, ∑ j : y.Active, r'.2.e i * r'.2.PyI i j * r'.2.e j) - (∑ k : y.Active, Real.log (r'.2.PyC k k)) - t.L =
        s.L - 0.5 * (∑ i : y.Active, ∑ j : y.Active, r.2.e i * r.2.PyI i j * r.2.e j) - (∑ k : y.Active, Real.log (r.2.PyC k k)) - s.L - U.logVolume y
      have h1 : (∑ i : y.Active, ∑ j : y.Active, r'.2.e i * r'.2.PyI i j * r'.2.e j) = ∑ i : y.Active, ∑ j : y.Active, r.2.e i * r.2.PyI i j * r.2.e j := by
        refine Finset.sum_congr rfl fun i _ => Finset.sum_congr rfl fun j _ => ?_
        have : r.2.PyI i j = U.D i.1 * r'.2.PyI i j * U.D j.1 := by
          rw [hI, mul_diagonal, diagonal_mul]
        rw [he, he, this]
        ring
      have h2 : (∑ k : y.Active, Real.log (r'.2.PyC k k)) = (∑ k : y.Active, Real.log (r.2.PyC k k)) + U.logVolume y := by
        have hv : U.logVolume y = ∑ k : y.Active, Real.log (U.D k.1) := by
          unfold Units.logVolume
          rw [← Finset.sum_filter]
          exact Finset.sum_subtype _ (fun j => by simp) fun j => Real.log (U.D j)
        rw [hv, ← Finset.sum_add_distrib]
        refine Finset.sum_congr rfl fun k _ => ?_
        rw [(hC k).1, Real.log_mul (hC k).2.ne' (hD k.1).ne']
      rw [h1, h2]
      ring

theorem ukf_predict_units {ns : Nat} (hput : UT.init nx .cholesky kappa = .ok put) (hM : U.Converts M M') (hT : U.T = diagonal d) (hd : ∀ i, 0 < d i)
    (s t : UKF nx ns put.nsigma o p) (hs : U.Same s.toFilterAttrs t.toFilterAttrs) :
    SameOutcome (fun r r' => r'.1 = U.moments r.1 ∧ U.Same r.2.toFilterAttrs r'.2.toFilterAttrs ∧ r.2.L = s.L ∧ r'.2.L = t.L ∧
        ∃ u u', r.2.pred = some u ∧ r'.2.pred = some u' ∧ put.crosscov u'.ut = U.cov (put.crosscov u.ut))
      (UKF.predict put M s) (UKF.predict put M' t) := by
  obtain ⟨hk, hx, hP⟩ := hs
  have hst : ∀ x, diagonal d *ᵥ x + U.b = U.state x := fun x => by rw [← hT]; rfl
  have hcv : ∀ P, diagonal d * P * diagonal d = U.cov P := fun P => by unfold Units.cov; rw [hT, diagonal_transpose]
  have ht := transform_units hput hd (b := U.b) (D := d) (c := U.b) (f := M.f s.k) (f' := M'.f t.k)
    (fun x j => by rw [hst, hk, hM.f, ← hst, Pi.add_apply, mulVec_diagonal]) s.x s.Px
  rw [hst, hcv, ← hx, ← hP] at ht
  unfold UKF.predict
  refine ht.bind fun u u' ⟨h1, h2, h3⟩ => ?_
  have hm : u'.mean = U.state u.mean := by ext j; rw [h1, ← hst, Pi.add_apply, mulVec_diagonal]
  have hp : u'.Po + M'.Q t.k t.x = U.cov (u.Po + M.Q s.k s.x) := by rw [h2, hcv, hk, hx, hM.Q, cov_add]
  exact ⟨Prod.ext hm hp, ⟨congrArg (· + 1) hk, hm, hp⟩, rfl, rfl, _, _, rfl, rfl, h3.trans (hcv _)⟩

theorem ukf_units (hput : UT.init nx .cholesky kappa = .ok put) (hcut : UT.init nx .cholesky kappa' = .ok cut) (hM : U.Converts M M') (hT : U.T = diagonal d)
    (hd : ∀ i, 0 < d i) (hD : ∀ j, 0 < U.D j) :
    UnitsSim (UKF.cls put cut M) (UKF.cls put cut M') (fun s t => U.Same s.toFilterAttrs t.toFilterAttrs) U.moments U.cov U.row where
  attrs := fun s t ⟨_, hx, hP⟩ => Prod.ext hx hP
  correct := fun y s t hs => (ukf_correct_units hcut hM hT hd hD y s t hs).mono fun _ _ h => ⟨h.1, h.2.1⟩
  predict := fun s t hs => (ukf_predict_units hput hM hT hd s t hs).mono fun r r' h => by
    obtain ⟨h1, h2, -, -, u, u', hu, hu', hc⟩ := h
    refine ⟨h1, h2, ?_⟩
    show SameOutcome _ (UKF.predictionCrosscov put r.2) (UKF.predictionCrosscov put r'.2)
    unfold UKF.predictionCrosscov
    rw [hu, hu']
    exact hc

theorem ukf_merit_units (hput : UT.init nx .cholesky kappa = .ok put) (hcut : UT.init nx .cholesky kappa' = .ok cut) (hM : U.Converts M M') (hT : U.T = diagonal d)
    (hd : ∀ i, 0 < d i) (hD : ∀ j, 0 < U.D j) (y : List (MaskedRow o)) (s t : UKF nx cut.nsigma put.nsigma o p) (hs : U.Same s.toFilterAttrs t.toFilterAttrs) :
    SameOutcome (fun q q' => U.Same q.toFilterAttrs q'.toFilterAttrs ∧ q'.L - t.L = q.L - s.L - (y.map U.logVolume).sum)
      (walk (meritG (UKF.cls put cut M)) (meritH (UKF.cls put cut M)) y s)
      (walk (meritG (UKF.cls put cut M')) (meritH (UKF.cls put cut M')) (y.map U.row) t) := by
  have hG := fun (y : MaskedRow o) (s t : UKF nx cut.nsigma put.nsigma o p) (hs : U.Same s.toFilterAttrs t.toFilterAttrs) =>
    show SameOutcome (fun q q' => U.Same q.toFilterAttrs q'.toFilterAttrs ∧ q'.L - t.L = q.L - s.L - U.logVolume y)
        (meritG (UKF.cls put cut M) y s) (meritG (UKF.cls put cut M') (U.row y) t) from
      (ukf_correct_units hcut hM hT hd hD y s t hs).bind fun r r' hr => hr.2.2
  have hH := fun (s t : UKF nx cut.nsigma put.nsigma o p) (hs : U.Same s.toFilterAttrs t.toFilterAttrs) =>
    show SameOutcome (fun q q' => U.Same q.toFilterAttrs q'.toFilterAttrs ∧ q.L = s.L ∧ q'.L = t.L)
        (meritH (UKF.cls put cut M) s) (meritH (UKF.cls put cut M') t) from
      (ukf_predict_units hput hM hT hd s t hs).bind fun r r' hr => ⟨hr.2.1, hr.2.2.1, hr.2.2.2.1⟩
  induction y generalizing s t with
  | nil => exact ⟨hs, by simp [walk]⟩
  | cons y ys ih =>
    cases ys with
    | nil =>
      refine (hG y s t hs).mono fun q q' h => ⟨h.1, ?_⟩
      simpa using h.2
    | cons y' ys =>
      simp only [List.map_cons, walk]
      refine (hG y s t hs).bind fun q q' hq => (hH _ _ hq.1).bind fun v v' hv => (ih _ _ hv.1).mono fun w w' hw => ⟨hw.1, ?_⟩
      have h1 := hq.2
      have h2 := hw.2
      rw [hv.2.1, hv.2.2] at h2
      simp only [List.map_cons, List.sum_cons] at h2 ⊢
      linarith

end ukf

end units

end Ceacoest
