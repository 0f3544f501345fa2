import Verif.Lemmas.TestKalmanDiff
import Mathlib.Analysis.Calculus.ContDiff.Basic
import Mathlib.Analysis.Calculus.ContDiff.FiniteDimension
import Mathlib.Analysis.Calculus.FDeriv.Symmetric
import Mathlib.Analysis.Calculus.Deriv.Prod
import Mathlib.Analysis.SpecialFunctions.Trigonometric.Deriv

/-! # Lemmas for C102: the functions of the test model and their partial derivatives -/

namespace Ceacoest.TestKalman
open Matrix Spec Filter Topology
open scoped ContDiff

variable {n m : Nat}

/-- The same function on pairs. -/
def onPair (F : (Fin n → ℝ) → (Fin m → ℝ) → ℝ) : (Fin n → ℝ) × (Fin m → ℝ) → ℝ := fun z => F z.1 z.2

section
variable {F : (Fin n → ℝ) → (Fin m → ℝ) → ℝ}

theorem partialDiff_left (hF : ContDiff ℝ ∞ (onPair F)) (a : Fin n) (q : Fin n → ℝ) (x : Fin m → ℝ) :
    partialDiff a (fun q => F q x) q = fderiv ℝ (onPair F) (q, x) (Pi.single a 1, 0) := by
  have h1 : HasDerivAt (fun t => (Function.update q a t, x)) (Pi.single a 1, 0) (q a) := (hasDerivAt_update q a (q a)).prodMk (hasDerivAt_const _ _)
  have h2 : HasFDerivAt (onPair F) (fderiv ℝ (onPair F) (q, x)) (Function.update q a (q a), x) := by
    rw [Function.update_eq_self]
    exact (hF.differentiable (by simp) _).hasFDerivAt
  exact (h2.comp_hasDerivAt (q a) h1).deriv

theorem partialDiff_right (hF : ContDiff ℝ ∞ (onPair F)) (i : Fin m) (q : Fin n → ℝ) (x : Fin m → ℝ) :
    partialDiff i (F q) x = fderiv ℝ (onPair F) (q, x) (0, Pi.single i 1) := by
  have h1 : HasDerivAt (fun t => (q, Function.update x i t)) (0, Pi.single i 1) (x i) :=
    HasDerivAt.prodMk (hasDerivAt_const (x i) q) (hasDerivAt_update x i (x i))
  have h2 : HasFDerivAt (onPair F) (fderiv ℝ (onPair F) (q, x)) (q, Function.update x i (x i)) := by
    rw [Function.update_eq_self]
    exact (hF.differentiable (by simp) _).hasFDerivAt
  exact (h2.comp_hasDerivAt (x i) h1).deriv

theorem directional_smooth {E : Type} [NormedAddCommGroup E] [NormedSpace ℝ E] {G : E → ℝ} (hG : ContDiff ℝ ∞ G) (u : E) :
    ContDiff ℝ ∞ fun z => fderiv ℝ G z u := by
  have h := hG.fderiv_right (m := ∞) (by simp)
  exact h.clm_apply contDiff_const

theorem directional_comm {E : Type} [NormedAddCommGroup E] [NormedSpace ℝ E] {G : E → ℝ} (hG : ContDiff ℝ ∞ G) (u w z : E) :
    fderiv ℝ (fun z => fderiv ℝ G z u) z w = fderiv ℝ (fun z => fderiv ℝ G z w) z u := by
  have h := (hG.fderiv_right (m := ∞) (by simp)).differentiable (by simp) z
  have e : ∀ u, fderiv ℝ (fun z => fderiv ℝ G z u) z = (fderiv ℝ (fderiv ℝ G) z).flip u := fun u => by
    have := (h.hasFDerivAt.clm_apply (hasFDerivAt_const u z)).fderiv
    rw [this]
    ext v
    simp
  rw [e, e]
  exact (hG.contDiffAt.isSymmSndFDerivAt (by
    rw [minSmoothness_of_isRCLikeNormedField]
    exact WithTop.coe_le_coe.2 (le_top : (2 : ℕ∞) ≤ ⊤))).eq w u

theorem left_eq (hF : ContDiff ℝ ∞ (onPair F)) (a : Fin n) : onPair (fun q x => partialDiff a (fun q => F q x) q) = fun z => fderiv ℝ (onPair F) z (Pi.single a 1, 0) :=
  funext fun z => partialDiff_left hF a z.1 z.2

theorem right_eq (hF : ContDiff ℝ ∞ (onPair F)) (i : Fin m) : onPair (fun q x => partialDiff i (F q) x) = fun z => fderiv ℝ (onPair F) z (0, Pi.single i 1) :=
  funext fun z => partialDiff_right hF i z.1 z.2

theorem left_smooth (hF : ContDiff ℝ ∞ (onPair F)) (a : Fin n) : ContDiff ℝ ∞ (onPair fun q x => partialDiff a (fun q => F q x) q) := by
  rw [left_eq hF]
  exact directional_smooth hF _

theorem right_smooth (hF : ContDiff ℝ ∞ (onPair F)) (i : Fin m) : ContDiff ℝ ∞ (onPair fun q x => partialDiff i (F q) x) := by
  rw [right_eq hF]
  exact directional_smooth hF _

/-- Partial derivatives make up the derivative. -/
theorem hasGrad₂_partial (hF : ContDiff ℝ ∞ (onPair F)) (q : Fin n → ℝ) (x : Fin m → ℝ) :
    HasGrad₂ F (fun a => partialDiff a (fun q => F q x) q) (fun i => partialDiff i (F q) x) q x := by
  have h := (hF.differentiable (by simp) (q, x)).hasFDerivAt
  have e : fderiv ℝ (onPair F) (q, x) = (lin fun a => partialDiff a (fun q => F q x) q).coprod (lin fun i => partialDiff i (F q) x) := by
    simp only [partialDiff_left hF, partialDiff_right hF]
    have e1 := lin_eq ((fderiv ℝ (onPair F) (q, x)).comp (.inl ℝ _ _))
    have e2 := lin_eq ((fderiv ℝ (onPair F) (q, x)).comp (.inr ℝ _ _))
    simp only [ContinuousLinearMap.comp_apply, ContinuousLinearMap.inl_apply, ContinuousLinearMap.inr_apply] at e1 e2
    rw [← e1, ← e2]
    ext v <;> simp
  unfold HasGrad₂
  rw [← e]
  exact h

/-- The order of the derivatives does not matter. -/
theorem partial_comm (hF : ContDiff ℝ ∞ (onPair F)) (a : Fin n) (i : Fin m) (q : Fin n → ℝ) (x : Fin m → ℝ) :
    partialDiff i (fun x => partialDiff a (fun q => F q x) q) x = partialDiff a (fun q => partialDiff i (F q) x) q := by
  rw [partialDiff_right (F := fun q x => partialDiff a (fun q => F q x) q) (left_smooth hF a) i q x,
    partialDiff_left (F := fun q x => partialDiff i (F q) x) (right_smooth hF i) a q x, left_eq hF, right_eq hF]
  exact directional_comm hF _ _ _

theorem partial_comm_right (hF : ContDiff ℝ ∞ (onPair F)) (i l : Fin m) (q : Fin n → ℝ) (x : Fin m → ℝ) :
    partialDiff i (fun x => partialDiff l (F q) x) x = partialDiff l (fun x => partialDiff i (F q) x) x := by
  rw [partialDiff_right (F := fun q x => partialDiff l (F q) x) (right_smooth hF l) i q x,
    partialDiff_right (F := fun q x => partialDiff i (F q) x) (right_smooth hF i) l q x, right_eq hF, right_eq hF]
  exact directional_comm hF _ _ _

theorem df_dq_grad (hF : ContDiff ℝ ∞ (onPair F)) (b : Fin n) (q : Fin n → ℝ) (x : Fin m → ℝ) :
    HasGrad₂ (fun q x => partialDiff b (fun q => F q x) q) (fun a => partialDiff a (fun q => partialDiff b (fun q => F q x) q) q)
      (fun i => partialDiff b (fun q => partialDiff i (F q) x) q) q x := by
  have h := hasGrad₂_partial (F := fun q x => partialDiff b (fun q => F q x) q) (left_smooth hF b) q x
  simpa only [partial_comm hF] using h

theorem df_dx_grad (hF : ContDiff ℝ ∞ (onPair F)) (i : Fin m) (q : Fin n → ℝ) (x : Fin m → ℝ) :
    HasGrad₂ (fun q x => partialDiff i (F q) x) (fun a => partialDiff a (fun q => partialDiff i (F q) x) q)
      (fun l => partialDiff i (fun x => partialDiff l (F q) x) x) q x := by
  have h := hasGrad₂_partial (F := fun q x => partialDiff i (F q) x) (right_smooth hF i) q x
  simpa only [partial_comm_right hF i] using h

end

/-- Functions of one vector. -/
theorem hasGrad_partial {F : (Fin n → ℝ) → ℝ} (hF : ContDiff ℝ ∞ F) (q : Fin n → ℝ) : HasGrad F (fun a => partialDiff a F q) q := by
  obtain ⟨g, hg⟩ := HasGrad.of_differentiableAt (hF.differentiable (by simp) q)
  exact hg.congr_grad fun a => (HasGrad.partial hg a).deriv

theorem partial_smooth {F : (Fin n → ℝ) → ℝ} (hF : ContDiff ℝ ∞ F) (a : Fin n) : ContDiff ℝ ∞ fun q => partialDiff a F q := by
  have h := left_smooth (F := fun q (_ : Fin 0 → ℝ) => F q) (hF.comp contDiff_fst) a
  exact h.comp (contDiff_id.prodMk (contDiff_const (c := (fun i => i.elim0 : Fin 0 → ℝ))))

theorem hasGrad_partial2 {F : (Fin n → ℝ) → ℝ} (hF : ContDiff ℝ ∞ F) (b : Fin n) (q : Fin n → ℝ) :
    HasGrad (fun q => partialDiff b F q) (fun a => partialDiff a (fun q => partialDiff b F q) q) q := hasGrad_partial (partial_smooth hF b) q

/-! ### The functions of the model -/

theorem sumSlice_smooth (start stop : Option Int) : ContDiff ℝ ∞ fun v : Fin n → ℝ => sumSlice v start stop := by
  unfold sumSlice
  induction sliceIdx n start stop 1 with
  | nil => exact contDiff_const
  | cons k ks ih =>
    simp only [List.map_cons, List.sum_cons]
    refine ContDiff.add ?_ ih
    by_cases hk : k < n
    · simp only [hk, dif_pos]
      exact contDiff_apply ℝ ℝ _
    · simp only [hk, dif_neg, not_false_eq_true]
      exact contDiff_const

variable {nx ny nq : Nat}

theorem f_smooth (j : Fin nx) : ContDiff ℝ ∞ (onPair fun (q : Fin nq → ℝ) (x : Fin nx → ℝ) => f x q j) := by
  unfold onPair f
  refine ContDiff.sum fun i _ => ?_
  split_ifs
  · exact Real.contDiff_sin.comp ((contDiff_const.add ((sumSlice_smooth _ _).comp contDiff_snd)).add ((sumSlice_smooth _ _).comp contDiff_fst))
  · exact contDiff_const

theorem h_smooth (j : Fin ny) : ContDiff ℝ ∞ (onPair fun (q : Fin nq → ℝ) (x : Fin nx → ℝ) => h ny x q j) := by
  unfold onPair h
  exact Real.contDiff_cos.comp (((sumSlice_smooth _ _).comp contDiff_snd).add ((sumSlice_smooth _ _).comp contDiff_fst))

theorem Q_smooth (i j : Fin nx) : ContDiff ℝ ∞ (onPair fun (q : Fin nq → ℝ) (x : Fin nx → ℝ) => Q x q i j) := by
  unfold onPair Q qAngle
  simp only [of_apply]
  refine contDiff_const.add ?_
  split_ifs <;>
    exact (Real.contDiff_cos.comp (((sumSlice_smooth _ _).comp contDiff_snd).add ((sumSlice_smooth _ _).comp contDiff_fst))).div_const _

theorem R_smooth (i j : Fin ny) : ContDiff ℝ ∞ fun q : Fin nq → ℝ => R ny q i j := by
  unfold R
  simp only [of_apply]
  refine contDiff_const.add ?_
  split_ifs <;> exact Real.contDiff_sin.comp (sumSlice_smooth _ _)

theorem v_smooth (x : Fin nx → ℝ) (i : Fin nx) : ContDiff ℝ ∞ fun q : Fin nq → ℝ => v q x i := by
  unfold v
  exact contDiff_const.add (Real.contDiff_sin.comp (sumSlice_smooth _ _))

theorem Pv_smooth (Px : Matrix (Fin nx) (Fin nx) ℝ) (i j : Fin nx) : ContDiff ℝ ∞ fun q : Fin nq → ℝ => Pv q Px i j := by
  unfold Pv
  simp only [of_apply]
  refine contDiff_const.add ?_
  split_ifs <;> exact Real.contDiff_sin.comp (sumSlice_smooth _ _)

end Ceacoest.TestKalman
