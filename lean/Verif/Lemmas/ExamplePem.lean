import Verif.Spec.ExamplePem
import Verif.Lemmas.TestKalmanFixture
import Verif.Props.SymSDE

/-! # Lemmas for C112: the discretised model is smooth, and so are its derivatives -/

namespace Ceacoest.Pem
open SymSDE Matrix TestKalman Spec Filter Topology
open scoped ContDiff
variable {nx nw ny nq : Nat}

theorem generated_smooth {f : (Fin nq → ℝ) → ℤ → (Fin nx → ℝ) → Fin nx → ℝ} {h : (Fin nq → ℝ) → ℤ → (Fin nx → ℝ) → Fin ny → ℝ}
    {Q : (Fin nq → ℝ) → ℤ → (Fin nx → ℝ) → Matrix (Fin nx) (Fin nx) ℝ} {R : (Fin nq → ℝ) → Matrix (Fin ny) (Fin ny) ℝ}
    (hf : ∀ k j, ContDiff ℝ ∞ (onPair fun q x => f q k x j)) (hh : ∀ k j, ContDiff ℝ ∞ (onPair fun q x => h q k x j))
    (hQ : ∀ k i j, ContDiff ℝ ∞ (onPair fun q x => Q q k x i j)) (hR : ∀ i j, ContDiff ℝ ∞ fun q => R q i j) (hs : ∀ q, (R q)ᵀ = R q) (q₀ : Fin nq → ℝ) :
    SmoothModel2 (generated f h Q R) q₀ where
  near := .of_forall fun q => {
    f := fun k x j => hasGrad₂_partial (hf k j) q x
    h := fun k x j => hasGrad₂_partial (hh k j) q x
    Q := fun k x i j => hasGrad₂_partial (hQ k i j) q x
    R := fun i j => hasGrad_partial (hR i j) q
    symm := .of_forall hs }
  df_dq := fun k x b j => df_dq_grad (hf k j) b q₀ x
  df_dx := fun k x i j => df_dx_grad (hf k j) i q₀ x
  dh_dq := fun k x b j => df_dq_grad (hh k j) b q₀ x
  dh_dx := fun k x i j => df_dx_grad (hh k j) i q₀ x
  dQ_dq := fun k x b j m => df_dq_grad (hQ k j m) b q₀ x
  dQ_dx := fun k x i j m => df_dx_grad (hQ k j m) i q₀ x
  dR_dq := fun b j l => hasGrad_partial2 (hR j l) b q₀

/-- Put in a time. -/
theorem at_time {F : (Fin nq → ℝ) × ℝ × (Fin nx → ℝ) → ℝ} (hF : ContDiff ℝ ∞ F) (t : ℝ) : ContDiff ℝ ∞ (onPair fun q x => F (q, t, x)) :=
  hF.comp (contDiff_fst.prodMk (contDiff_const.prodMk contDiff_snd))

theorem time_smooth {F : (Fin nq → ℝ) × ℝ × (Fin nx → ℝ) → ℝ} (hF : ContDiff ℝ ∞ F) (t : ℝ) : ContDiff ℝ ∞ (onPair fun q x => deriv (fun s => F (q, s, x)) t) := by
  have e : (onPair fun q x => deriv (fun s => F (q, s, x)) t) = onPair fun q x => fderiv ℝ F (q, t, x) (0, 1, 0) := by
    funext z
    have h1 : HasDerivAt (fun s => (z.1, s, z.2)) (0, 1, 0) t := (hasDerivAt_const _ _).prodMk ((hasDerivAt_id _).prodMk (hasDerivAt_const _ _))
    exact (((hF.differentiable (by simp) _).hasFDerivAt).comp_hasDerivAt t h1).deriv
  rw [e]
  exact at_time (directional_smooth hF _) t

variable {S : SDE nx nw ny nq}

theorem foldl_smooth (G : (Fin nq → ℝ) → (Fin nx → ℝ) → Matrix (Fin nx) (Fin nw) ℝ) (D : (Fin nq → ℝ) → (Fin nx → ℝ) → Fin nx → Fin nx → Fin nx → ℝ)
    (hG : ∀ i j, ContDiff ℝ ∞ (onPair fun q x => G q x i j)) (hD : ∀ a b i, ContDiff ℝ ∞ (onPair fun q x => D q x a b i)) (l : List (Fin nx × Fin nw × Fin nx × Fin nx))
    (L : (Fin nq → ℝ) → (Fin nx → ℝ) → Fin nx → ℝ) (hL : ∀ i, ContDiff ℝ ∞ (onPair fun q x => L q x i)) (i : Fin nx) :
    ContDiff ℝ ∞ (onPair fun q x => l.foldl (l0fStep (G q x) (D q x)) (L q x) i) := by
  induction l generalizing L with
  | nil => exact hL i
  | cons a l ih =>
    simp only [List.foldl_cons]
    refine ih (fun q x => l0fStep (G q x) (D q x) (L q x) a) fun i => ?_
    unfold l0fStep
    by_cases h : i = a.1
    · subst h
      simp only [Function.update_self]
      exact (hL _).add (((contDiff_const.mul (hG _ _)).mul (hG _ _)).mul (hD _ _ _))
    · simp only [Function.update_of_ne h]
      exact hL i

theorem itoF_smooth (hS : Smooth S) (dt k : ℝ) (i : Fin nx) : ContDiff ℝ ∞ (onPair fun q x => itoF (S.at q) dt k x i) := by
  have hf := fun i => at_time (hS.f i) (dt * k)
  have hx := fun p i => right_smooth (hf i) p
  unfold itoF
  refine ((ContDiff.mul (hf i) contDiff_const).add (ContDiff.mul (ContDiff.mul contDiff_const (foldl_smooth (fun q x => (S.at q).g (dt * k) x) (fun q x => (S.at q).d2f_dx2 (dt * k) x)
    (fun i j => at_time (hS.g i j) (dt * k)) (fun p r i => right_smooth (hx r i) p) _ (fun q x => (S.at q).df_dt (dt * k) x + ((S.at q).df_dx (dt * k) x)ᵀ *ᵥ (S.at q).f (dt * k) x)
    (fun i => ?_) i)) contDiff_const)).add ?_
  · refine (time_smooth (hS.f i) (dt * k)).add ?_
    simp only [mulVec, dotProduct]
    exact ContDiff.sum fun p _ => (hx p i).mul (hf p)
  · exact (contDiff_apply ℝ ℝ i).comp contDiff_snd

theorem itoG_smooth (hS : Smooth S) (dt k : ℝ) (i : Fin nx) (j : Fin (nw + nw)) : ContDiff ℝ ∞ (onPair fun q x => itoG (S.at q) dt k x i j) := by
  have hf := fun i => at_time (hS.f i) (dt * k)
  have hx := fun p i => right_smooth (hf i) p
  have hg := fun i j => at_time (hS.g i j) (dt * k)
  have hL : ∀ i j, ContDiff ℝ ∞ (onPair fun q x => (((S.at q).df_dx (dt * k) x)ᵀ * (S.at q).g (dt * k) x) i j) := fun i j => by
    simp only [mul_apply]
    exact ContDiff.sum fun p _ => (hx p i).mul (hg p j)
  unfold itoG
  simp only [of_apply]
  refine Fin.addCases (fun j => ?_) (fun j => ?_) j
  · simp only [Fin.append_left]
    exact ((hg i j).mul contDiff_const).add ((contDiff_const.mul (hL i j)).mul contDiff_const)
  · simp only [Fin.append_right]
    exact ((contDiff_const.mul (hL i j)).mul contDiff_const).div_const _

theorem Q_smooth (hS : Smooth S) (dt k : ℝ) (i j : Fin nx) : ContDiff ℝ ∞ (onPair fun q x => SymSDE.Q (itoG (S.at q) dt k x) i j) := by
  unfold SymSDE.Q
  simp only [mul_apply]
  exact ContDiff.sum fun l _ => (itoG_smooth hS dt k i l).mul (itoG_smooth hS dt k j l)

theorem ito_smooth (hS : Smooth S) (dt : ℝ) (q₀ : Fin nq → ℝ) : SmoothModel2 (ito S dt) q₀ :=
  generated_smooth (fun k j => itoF_smooth hS dt k j) (fun k j => at_time (hS.h j) (k * dt)) (fun k i j => Q_smooth hS dt k i j) hS.R hS.symm q₀

theorem start_smooth (hS : Smooth S) (q₀ : Fin nq → ℝ) : SmoothAttrs2 (start S) q₀ where
  near := .of_forall fun q => {
    k := .of_forall fun _ => rfl
    x := fun i => hasGrad_partial (hS.x0 i) q
    Px := fun i j => hasGrad_partial (hS.Px0 i j) q
    L := hasGrad_const 0 }
  dx := fun b i => hasGrad_partial2 (hS.x0 i) b q₀
  dPx := fun b i j => hasGrad_partial2 (hS.Px0 i j) b q₀
  dL := fun b => hasGrad_const 0

/-- The derivatives that the discretisation adds are those of the drift. -/
theorem derivs (hS : Smooth S) (q : Fin nq → ℝ) : Derivs (S.at q) where
  dt t x i := by
    have h1 : HasDerivAt (fun s => (q, s, x)) (0, 1, 0) t := (hasDerivAt_const _ _).prodMk ((hasDerivAt_id _).prodMk (hasDerivAt_const _ _))
    exact ((((hS.f i).differentiable (by simp) _).hasFDerivAt).comp_hasDerivAt t h1).differentiableAt.hasDerivAt
  dx t x p i := by
    have h := (at_time (hS.f i) t).comp (contDiff_const.prodMk contDiff_id : ContDiff ℝ ∞ fun x : Fin nx → ℝ => (q, x))
    have h2 := h.differentiable (by simp) (Function.update x p (x p))
    exact (h2.comp (x p) (hasDerivAt_update x p (x p)).differentiableAt).hasDerivAt
  dx2 t x p r i := by
    have h := (right_smooth (at_time (hS.f i) t) r).comp (contDiff_const.prodMk contDiff_id : ContDiff ℝ ∞ fun x : Fin nx → ℝ => (q, x))
    have h2 := h.differentiable (by simp) (Function.update x p (x p))
    exact (h2.comp (x p) (hasDerivAt_update x p (x p)).differentiableAt).hasDerivAt

end Ceacoest.Pem
