import Verif.Lemmas.OneStep
import Verif.Model.GenSDE
import Verif.Model.Kalman
import Verif.Spec.Kalman
import Verif.Props.SymSDE
import Mathlib.Analysis.Normed.Module.FiniteDimension
import Mathlib.Analysis.SpecialFunctions.ExpDeriv

/-! # C78: the moments that the discretised models propagate converge to those of the stochastic differential equation -/

namespace Ceacoest.GenSDE
open Matrix SymSDE Spec

variable {nx nw ny m : Nat}

/-! ## Specification -/

/-- The model is `dx = (A x + b) dt + G dW`, and its derivative functions are the derivatives. -/
structure LinearSDE (c : CtModel nx nw ny) (A : Matrix (Fin nx) (Fin nx) ℝ) (b : Fin nx → ℝ) (G : Matrix (Fin nx) (Fin nw) ℝ) : Prop where
  drift : ∀ t x, c.f t x = A *ᵥ x + b
  gain : ∀ t x, c.g t x = G
  derivs : Derivs c

/-- The mean and the covariance of the solution of `dx = (A x + b) dt + G dW` with `S = G Gᵀ`. -/
structure ExactMoments (A : Matrix (Fin nx) (Fin nx) ℝ) (b : Fin nx → ℝ) (S : Matrix (Fin nx) (Fin nx) ℝ) (μ : ℝ → Fin nx → ℝ)
    (P : ℝ → Matrix (Fin nx) (Fin nx) ℝ) : Prop where
  mean : ∀ s i, HasDerivAt (fun s => μ s i) ((A *ᵥ μ s + b) i) s
  cov : ∀ s i j, HasDerivAt (fun s => P s i j) ((A * P s + P s * Aᵀ + S) i j) s

/-- What a filter is given of a discretised model: its functions and the derivative of `f`. -/
structure FilterModel {o p : Type} (M : KModel nx o p) (d : DtModel nx m ny) : Prop where
  f : ∀ (k : ℤ) x, M.f k x = d.f k x
  Q : ∀ (k : ℤ) x, M.Q k x = SymSDE.Q (d.g k x)
  df_dx : ∀ (k : ℤ) x p i, HasDerivAt (fun s => d.f k (Function.update x p s) i) (M.df_dx k x p i) (x p)

/-! ## The two schemes on a linear model -/

theorem affine_deriv (F : Matrix (Fin nx) (Fin nx) ℝ) (v : Fin nx → ℝ) (x : Fin nx → ℝ) (p i : Fin nx) :
    HasDerivAt (fun s => (F *ᵥ Function.update x p s + v) i) (F i p) (x p) := by
  have e : (fun s => (F *ᵥ Function.update x p s + v) i) = fun s => F i p * (s - x p) + (F *ᵥ x + v) i := by
    funext s
    have hu : Function.update x p s = x + Pi.single p (s - x p) := by
      funext q
      by_cases h : q = p
      · subst h; simp
      · simp [h]
    rw [hu, mulVec_add]
    simp [mulVec_single]
    ring
  rw [e]
  exact ((((hasDerivAt_id' (x p)).sub_const (x p)).const_mul (F i p)).add_const _).congr_deriv (by ring)

variable {c : CtModel nx nw ny} {A : Matrix (Fin nx) (Fin nx) ℝ} {b : Fin nx → ℝ} {G : Matrix (Fin nx) (Fin nw) ℝ}

theorem linear_jacobian (h : LinearSDE c A b G) (t : ℝ) (x : Fin nx → ℝ) : jacobian c.f t x = A := by
  ext i p
  simp only [jacobian, of_apply, partialD, h.drift]
  exact (affine_deriv A b x p i).deriv

theorem linear_itoF (h : LinearSDE c A b G) (dt k : ℝ) (x : Fin nx → ℝ) :
    itoF c dt k x = x + dt • (A *ᵥ x + b) + (dt ^ 2 / 2) • (A *ᵥ (A *ᵥ x + b)) := by
  funext i
  rw [C54_ito_drift c h.derivs, generator]
  have h1 : ∀ z p, partialD (fun z => c.f (k * dt) z i) p z = A i p := fun z p => congrFun (congrFun (linear_jacobian h (k * dt) z) i) p
  have h2 : ∀ p q, partialD (partialD (fun z => c.f (k * dt) z i) q) p x = 0 := by
    intro p q
    rw [show partialD (fun z => c.f (k * dt) z i) q = fun _ => A i q from funext fun z => h1 z q]
    simp [partialD]
  simp only [h1, h2]
  simp only [h.drift]
  simp only [deriv_const, mul_zero, Finset.sum_const_zero, add_zero, zero_add, Pi.add_apply, Pi.smul_apply, smul_eq_mul]
  congr 2
  simp only [mulVec, dotProduct, mul_comm (A i _), Pi.add_apply]

theorem linear_itoQ (h : LinearSDE c A b G) (dt k : ℝ) (hdt : 0 ≤ dt) (x : Fin nx → ℝ) :
    SymSDE.Q (itoG c dt k x) = dt • (G * Gᵀ) + (dt ^ 2 / 2) • (A * (G * Gᵀ) + G * Gᵀ * Aᵀ) + (dt ^ 3 / 3) • (A * (G * Gᵀ) * Aᵀ) := by
  have := C54_ito_cov c h.derivs dt k hdt x
  dsimp only at this
  rw [this, linear_jacobian h, h.gain, transpose_mul]
  simp only [Matrix.mul_assoc]

theorem linear_euler (h : LinearSDE c A b G) (dt k : ℝ) (hdt : 0 ≤ dt) (x : Fin nx → ℝ) :
    eulerF c dt k x = x + dt • (A *ᵥ x + b) ∧ SymSDE.Q (eulerG c dt k x) = dt • (G * Gᵀ) := by
  obtain ⟨h1, h2⟩ := C54_euler c dt k hdt x
  rw [h1, h2, h.drift, h.gain]
  exact ⟨rfl, rfl⟩

/-! ## Linear maps on vectors and matrices -/

/-- Covariances with the norm of the largest entry. -/
abbrev Cov (nx : Nat) := Fin nx → Fin nx → ℝ

/-- `v ↦ A v`. -/
noncomputable def vecMap (A : Matrix (Fin nx) (Fin nx) ℝ) : (Fin nx → ℝ) →L[ℝ] (Fin nx → ℝ) := (mulVecLin A).toContinuousLinearMap

@[simp] theorem vecMap_apply (A : Matrix (Fin nx) (Fin nx) ℝ) (v : Fin nx → ℝ) : vecMap A v = A *ᵥ v := rfl

/-- `V ↦ X V Yᵀ`. -/
noncomputable def matMap (X Y : Matrix (Fin nx) (Fin nx) ℝ) : Cov nx →L[ℝ] Cov nx :=
  LinearMap.toContinuousLinearMap (E := Cov nx) (F' := Cov nx)
    { toFun := fun V => (X * (of V) * Yᵀ : Matrix (Fin nx) (Fin nx) ℝ)
      map_add' := fun V W => by
        change X * (of V + of W) * Yᵀ = _
        rw [Matrix.mul_add, Matrix.add_mul]; rfl
      map_smul' := fun r V => by
        change X * (r • of V) * Yᵀ = _
        rw [Matrix.mul_smul, Matrix.smul_mul]; rfl }

theorem matMap_apply (X Y : Matrix (Fin nx) (Fin nx) ℝ) (V : Cov nx) : of (matMap X Y V) = X * of V * Yᵀ := rfl

/-- `V ↦ A V + V Aᵀ`. -/
noncomputable def lyap (A : Matrix (Fin nx) (Fin nx) ℝ) : Cov nx →L[ℝ] Cov nx := matMap A 1 + matMap 1 A

theorem lyap_apply (A : Matrix (Fin nx) (Fin nx) ℝ) (V : Cov nx) : of (lyap A V) = A * of V + of V * Aᵀ := by
  change A * of V * 1ᵀ + 1 * of V * Aᵀ = _
  rw [transpose_one, Matrix.mul_one, Matrix.one_mul]

/-- The covariance step of either scheme, as a perturbed Taylor step. -/
theorem cov_step_ito (A S : Matrix (Fin nx) (Fin nx) ℝ) (h : ℝ) (V : Cov nx) :
    (1 + h • A + (h ^ 2 / 2) • (A * A)) * of V * (1 + h • A + (h ^ 2 / 2) • (A * A))ᵀ +
      (h • S + (h ^ 2 / 2) • (A * S + S * Aᵀ) + (h ^ 3 / 3) • (A * S * Aᵀ)) =
    of (V + h • (lyap A V + of.symm S) + (h ^ 2 / 2) • lyap A (lyap A V + of.symm S) +
      h ^ 3 • (((1 / 2 : ℝ) • (matMap (A * A) A + matMap A (A * A))) V + h • ((1 / 4 : ℝ) • matMap (A * A) (A * A)) V +
        of.symm ((1 / 3 : ℝ) • (A * S * Aᵀ)))) := by
  have hl : of (lyap A (lyap A V + of.symm S)) = A * (A * of V + of V * Aᵀ + S) + (A * of V + of V * Aᵀ + S) * Aᵀ := by
    rw [lyap_apply]
    have : of (lyap A V + of.symm S) = A * of V + of V * Aᵀ + S := by
      rw [← lyap_apply]; rfl
    rw [this]
  have hr : of (V + h • (lyap A V + of.symm S) + (h ^ 2 / 2) • lyap A (lyap A V + of.symm S) +
      h ^ 3 • (((1 / 2 : ℝ) • (matMap (A * A) A + matMap A (A * A))) V + h • ((1 / 4 : ℝ) • matMap (A * A) (A * A)) V +
        of.symm ((1 / 3 : ℝ) • (A * S * Aᵀ)))) =
      of V + h • (of (lyap A V) + S) + (h ^ 2 / 2) • of (lyap A (lyap A V + of.symm S)) +
      h ^ 3 • ((1 / 2 : ℝ) • (A * A * of V * Aᵀ + A * of V * (A * A)ᵀ) + h • ((1 / 4 : ℝ) • (A * A * of V * (A * A)ᵀ)) +
        (1 / 3 : ℝ) • (A * S * Aᵀ)) := rfl
  rw [hr, hl, lyap_apply]
  generalize of V = W
  simp only [transpose_add, transpose_smul, transpose_one, transpose_mul, Matrix.add_mul, Matrix.mul_add, Matrix.one_mul, Matrix.mul_one,
    Matrix.smul_mul, Matrix.mul_smul, Matrix.mul_assoc]
  module

theorem cov_step_euler (A S : Matrix (Fin nx) (Fin nx) ℝ) (h : ℝ) (V : Cov nx) :
    (1 + h • A) * of V * (1 + h • A)ᵀ + h • S = of (V + h • (lyap A V + of.symm S) + h ^ 2 • matMap A A V) := by
  have hr : of (V + h • (lyap A V + of.symm S) + h ^ 2 • matMap A A V) = of V + h • (of (lyap A V) + S) + h ^ 2 • (A * of V * Aᵀ) := rfl
  rw [hr, lyap_apply]
  generalize of V = W
  simp only [transpose_add, transpose_smul, transpose_one, Matrix.add_mul, Matrix.mul_add, Matrix.one_mul, Matrix.mul_one,
    Matrix.smul_mul, Matrix.mul_smul, Matrix.mul_assoc]
  module

theorem exact_mean {S : Matrix (Fin nx) (Fin nx) ℝ} {μ : ℝ → Fin nx → ℝ} {P : ℝ → Matrix (Fin nx) (Fin nx) ℝ}
    (h : ExactMoments A b S μ P) (s : ℝ) : HasDerivAt μ (vecMap A (μ s) + b) s :=
  hasDerivAt_pi.2 fun i => h.mean s i

theorem exact_cov {S : Matrix (Fin nx) (Fin nx) ℝ} {μ : ℝ → Fin nx → ℝ} {P : ℝ → Matrix (Fin nx) (Fin nx) ℝ}
    (h : ExactMoments A b S μ P) (s : ℝ) :
    HasDerivAt (fun s => (of.symm (P s) : Cov nx)) (lyap A (of.symm (P s)) + of.symm S) s := by
  refine hasDerivAt_pi.2 fun i => hasDerivAt_pi.2 fun j => (h.cov s i j).congr_deriv ?_
  change _ = (of (lyap A (of.symm (P s))) + S) i j
  rw [lyap_apply]
  rfl

/-! ## The filter -/

/-- Predictions without measurements iterate the step of the mean and that of the covariance. -/
theorem predictions {o p : Type} [Fintype o] [LinearOrder o] (M : KModel nx o p) (F : Matrix (Fin nx) (Fin nx) ℝ) (Q : Matrix (Fin nx) (Fin nx) ℝ)
    (S1 : (Fin nx → ℝ) → Fin nx → ℝ) (S2 : Cov nx → Cov nx) (h1 : ∀ k x, M.f k x = S1 x) (hQ : ∀ k x, M.Q k x = Q)
    (hF : ∀ k x p i, M.df_dx k x p i = F i p) (h2 : ∀ V, F * of V * Fᵀ + Q = of (S2 V)) (j : Nat) (s0 : EKF nx o p) :
    ∃ s, history (EKF.correct M) (EKF.predict M) (List.replicate j none) s0 = .ok s ∧ s.x = S1^[j] s0.x ∧
      of.symm s.Px = S2^[j] (of.symm s0.Px) := by
  induction j generalizing s0 with
  | zero => exact ⟨s0, rfl, rfl, rfl⟩
  | succ j ih =>
    have hp : (of fun y z => ∑ i, M.df_dx s0.k s0.x i y * (of fun y z => ∑ i, s0.Px y i * M.df_dx s0.k s0.x i z : Matrix (Fin nx) (Fin nx) ℝ) i z :
        Matrix (Fin nx) (Fin nx) ℝ) + M.Q s0.k s0.x = F * s0.Px * Fᵀ + Q := by
      rw [hQ, Matrix.mul_assoc]
      congr 1
      ext y z
      simp only [of_apply, mul_apply, transpose_apply, hF]
    obtain ⟨s, hs, hx, hP⟩ := ih { s0 with
      Pxf := some (of fun y z => ∑ i, s0.Px y i * M.df_dx s0.k s0.x i z), k := s0.k + 1, x := M.f s0.k s0.x
      Px := (of fun y z => ∑ i, M.df_dx s0.k s0.x i y * (of fun y z => ∑ i, s0.Px y i * M.df_dx s0.k s0.x i z : Matrix (Fin nx) (Fin nx) ℝ) i z :
        Matrix (Fin nx) (Fin nx) ℝ) + M.Q s0.k s0.x }
    refine ⟨s, ?_, ?_, ?_⟩
    · rw [List.replicate_succ, history]
      exact hs
    · rw [hx, Function.iterate_succ_apply, h1]
    · rw [hP, Function.iterate_succ_apply]
      congr 1
      dsimp only
      rw [hp]
      exact h2 (of.symm s0.Px)

theorem entry_le (V W : Cov nx) (i l : Fin nx) : |V i l - W i l| ≤ ‖V - W‖ := by
  have h1 := norm_le_pi_norm (V - W) i
  have h2 := norm_le_pi_norm ((V - W) i) l
  exact h2.trans h1

theorem coord_le (v w : Fin nx → ℝ) (i : Fin nx) : |v i - w i| ≤ ‖v - w‖ := norm_le_pi_norm (v - w) i

/-- **C78** (order 1.5 scheme).  For a linear model with additive noise, the extended Kalman filter on the discretised
model, predicting without measurements over `[0, T]` in `N` steps, has at every step the mean and the covariance of the
solution of the stochastic differential equation up to `C/N²`. -/
theorem C78_ito {o p : Type} [Fintype o] [LinearOrder o] (hc : LinearSDE c A b G) {μ : ℝ → Fin nx → ℝ}
    {P : ℝ → Matrix (Fin nx) (Fin nx) ℝ} (hex : ExactMoments A b (G * Gᵀ) μ P) (T : ℝ) (hT : 0 ≤ T) :
    ∃ C, ∀ N : Nat, 1 ≤ N → ∀ M : KModel nx o p, FilterModel M (ito c (T / N)) → ∀ s0 : EKF nx o p, s0.x = μ 0 → s0.Px = P 0 →
      ∀ j ≤ N, ∃ s, history (EKF.correct M) (EKF.predict M) (List.replicate j none) s0 = .ok s ∧
        (∀ i, |s.x i - μ (j * (T / N)) i| ≤ C / N ^ 2) ∧ ∀ i l, |s.Px i l - P (j * (T / N)) i l| ≤ C / N ^ 2 := by
  obtain ⟨c1, K1, hc1, hK1, H1⟩ := OneStep.order_two (vecMap A) b 0 0 0 μ (exact_mean hex) T hT
  obtain ⟨c2, K2, hc2, hK2, H2⟩ := OneStep.order_two (lyap A) (of.symm (G * Gᵀ)) ((1 / 2 : ℝ) • (matMap (A * A) A + matMap A (A * A)))
    ((1 / 4 : ℝ) • matMap (A * A) (A * A)) (of.symm ((1 / 3 : ℝ) • (A * (G * Gᵀ) * Aᵀ))) (fun s => (of.symm (P s) : Cov nx)) (exact_cov hex) T hT
  refine ⟨max (c1 * T * Real.exp (K1 * T) * T ^ 2) (c2 * T * Real.exp (K2 * T) * T ^ 2), fun N hN M hM s0 hx0 hP0 j hj => ?_⟩
  have hN0 : (0 : ℝ) < N := by exact_mod_cast hN
  have hh : 0 ≤ T / N := by positivity
  have hhT : T / N ≤ T := div_le_self hT (by exact_mod_cast hN)
  have hNh : N * (T / N) = T := by field_simp
  generalize hdef : T / (N : ℝ) = h at *
  have hT2 : T ^ 2 / N ^ 2 = h ^ 2 := by rw [← hdef, div_pow]
  let F := 1 + h • A + (h ^ 2 / 2) • (A * A)
  let S1 : (Fin nx → ℝ) → Fin nx → ℝ := fun x => x + h • (A *ᵥ x + b) + (h ^ 2 / 2) • (A *ᵥ (A *ᵥ x + b))
  let S2 : Cov nx → Cov nx := fun V => V + h • (lyap A V + of.symm (G * Gᵀ)) + (h ^ 2 / 2) • lyap A (lyap A V + of.symm (G * Gᵀ)) +
      h ^ 3 • (((1 / 2 : ℝ) • (matMap (A * A) A + matMap A (A * A))) V + h • ((1 / 4 : ℝ) • matMap (A * A) (A * A)) V +
        of.symm ((1 / 3 : ℝ) • (A * (G * Gᵀ) * Aᵀ)))
  have hS1 : ∀ x, S1 x = F *ᵥ x + (h • b + (h ^ 2 / 2) • (A *ᵥ b)) := by
    intro x
    simp only [S1, F, add_mulVec, one_mulVec, smul_mulVec, mulVec_add, mulVec_mulVec]
    module
  obtain ⟨s, hs, hx, hP⟩ := predictions M F (h • (G * Gᵀ) + (h ^ 2 / 2) • (A * (G * Gᵀ) + G * Gᵀ * Aᵀ) + (h ^ 3 / 3) • (A * (G * Gᵀ) * Aᵀ)) S1 S2
    (fun k x => (hM.f k x).trans (linear_itoF hc h k x)) (fun k x => (hM.Q k x).trans (linear_itoQ hc h k hh x))
    (fun k x p i => by
      have h1 := hM.df_dx k x p i
      have e : (fun s => (ito c h).f k (Function.update x p s) i) = fun s => (F *ᵥ Function.update x p s + (h • b + (h ^ 2 / 2) • (A *ᵥ b))) i := by
        funext s
        rw [← hS1]
        exact congrFun (linear_itoF hc h k _) i
      rw [e] at h1
      exact h1.unique (affine_deriv F _ x p i))
    (fun V => cov_step_ito A (G * Gᵀ) h V) j s0
  obtain ⟨a1, b1⟩ := H1 h hh hhT S1 fun v => by simp [S1]
  obtain ⟨a2, b2⟩ := H2 h hh hhT S2 fun v => rfl
  have e1 := OneStep.accumulate S1 μ K1 c1 T h 2 N hK1 hc1 hh hNh a1 b1 j hj
  have e2 := OneStep.accumulate S2 (fun s => (of.symm (P s) : Cov nx)) K2 c2 T h 2 N hK2 hc2 hh hNh a2 b2 j hj
  refine ⟨s, hs, fun i => ?_, fun i l => ?_⟩
  · rw [hx, hx0]
    refine (coord_le _ _ i).trans (e1.trans ?_)
    rw [← hT2, ← mul_div_assoc]
    gcongr
    exact le_max_left _ _
  · have : s.Px i l = (of.symm s.Px : Cov nx) i l := rfl
    rw [this, hP, hP0]
    refine (entry_le _ (of.symm (P (j * h))) i l).trans (e2.trans ?_)
    rw [← hT2, ← mul_div_assoc]
    gcongr
    exact le_max_right _ _

/-- **C78** (Euler scheme): the same with first order. -/
theorem C78_euler {o p : Type} [Fintype o] [LinearOrder o] (hc : LinearSDE c A b G) {μ : ℝ → Fin nx → ℝ}
    {P : ℝ → Matrix (Fin nx) (Fin nx) ℝ} (hex : ExactMoments A b (G * Gᵀ) μ P) (T : ℝ) (hT : 0 ≤ T) :
    ∃ C, ∀ N : Nat, 1 ≤ N → ∀ M : KModel nx o p, FilterModel M (euler c (T / N)) → ∀ s0 : EKF nx o p, s0.x = μ 0 → s0.Px = P 0 →
      ∀ j ≤ N, ∃ s, history (EKF.correct M) (EKF.predict M) (List.replicate j none) s0 = .ok s ∧
        (∀ i, |s.x i - μ (j * (T / N)) i| ≤ C / N) ∧ ∀ i l, |s.Px i l - P (j * (T / N)) i l| ≤ C / N := by
  obtain ⟨c1, K1, hc1, hK1, H1⟩ := OneStep.order_one (vecMap A) b 0 μ (exact_mean hex) T hT
  obtain ⟨c2, K2, hc2, hK2, H2⟩ := OneStep.order_one (lyap A) (of.symm (G * Gᵀ)) (matMap A A) (fun s => (of.symm (P s) : Cov nx)) (exact_cov hex) T hT
  refine ⟨max (c1 * T * Real.exp (K1 * T) * T) (c2 * T * Real.exp (K2 * T) * T), fun N hN M hM s0 hx0 hP0 j hj => ?_⟩
  have hN0 : (0 : ℝ) < N := by exact_mod_cast hN
  have hh : 0 ≤ T / N := by positivity
  have hhT : T / N ≤ T := div_le_self hT (by exact_mod_cast hN)
  have hNh : N * (T / N) = T := by field_simp
  generalize hdef : T / (N : ℝ) = h at *
  let F := 1 + h • A
  let S1 : (Fin nx → ℝ) → Fin nx → ℝ := fun x => x + h • (A *ᵥ x + b)
  let S2 : Cov nx → Cov nx := fun V => V + h • (lyap A V + of.symm (G * Gᵀ)) + h ^ 2 • matMap A A V
  have hS1 : ∀ x, S1 x = F *ᵥ x + h • b := by
    intro x
    simp only [S1, F, add_mulVec, one_mulVec, smul_mulVec]
    module
  obtain ⟨s, hs, hx, hP⟩ := predictions M F (h • (G * Gᵀ)) S1 S2
    (fun k x => (hM.f k x).trans (linear_euler hc h k hh x).1) (fun k x => (hM.Q k x).trans (linear_euler hc h k hh x).2)
    (fun k x p i => by
      have h1 := hM.df_dx k x p i
      have e : (fun s => (euler c h).f k (Function.update x p s) i) = fun s => (F *ᵥ Function.update x p s + h • b) i := by
        funext s
        rw [← hS1]
        exact congrFun (linear_euler hc h k hh _).1 i
      rw [e] at h1
      exact h1.unique (affine_deriv F _ x p i))
    (fun V => cov_step_euler A (G * Gᵀ) h V) j s0
  obtain ⟨a1, b1⟩ := H1 h hh hhT S1 fun v => by simp [S1]
  obtain ⟨a2, b2⟩ := H2 h hh hhT S2 fun v => rfl
  have e1 := OneStep.accumulate S1 μ K1 c1 T h 1 N hK1 hc1 hh hNh a1 b1 j hj
  have e2 := OneStep.accumulate S2 (fun s => (of.symm (P s) : Cov nx)) K2 c2 T h 1 N hK2 hc2 hh hNh a2 b2 j hj
  refine ⟨s, hs, fun i => ?_, fun i l => ?_⟩
  · rw [hx, hx0]
    refine (coord_le _ _ i).trans (e1.trans ?_)
    rw [pow_one, ← hdef, ← mul_div_assoc]
    gcongr
    exact le_max_left _ _
  · have : s.Px i l = (of.symm s.Px : Cov nx) i l := rfl
    rw [this, hP, hP0]
    refine (entry_le _ (of.symm (P (j * h))) i l).trans (e2.trans ?_)
    rw [pow_one, ← hdef, ← mul_div_assoc]
    gcongr
    exact le_max_right _ _

/-- One step: the transition mean and covariance of the order 1.5 scheme are those of the differential equation from a
known state, up to `C dt³`. -/
theorem C78_ito_step (hc : LinearSDE c A b G) {μ : ℝ → Fin nx → ℝ} {P : ℝ → Matrix (Fin nx) (Fin nx) ℝ}
    (hex : ExactMoments A b (G * Gᵀ) μ P) (hP0 : P 0 = 0) (T : ℝ) (hT : 0 ≤ T) :
    ∃ C, ∀ dt, 0 ≤ dt → dt ≤ T → ∀ k, (∀ i, |(ito c dt).f k (μ 0) i - μ dt i| ≤ C * dt ^ 3) ∧
      ∀ i l, |SymSDE.Q ((ito c dt).g k (μ 0)) i l - P dt i l| ≤ C * dt ^ 3 := by
  obtain ⟨c1, K1, hc1, hK1, H1⟩ := OneStep.order_two (vecMap A) b 0 0 0 μ (exact_mean hex) T hT
  obtain ⟨c2, K2, hc2, hK2, H2⟩ := OneStep.order_two (lyap A) (of.symm (G * Gᵀ)) ((1 / 2 : ℝ) • (matMap (A * A) A + matMap A (A * A)))
    ((1 / 4 : ℝ) • matMap (A * A) (A * A)) (of.symm ((1 / 3 : ℝ) • (A * (G * Gᵀ) * Aᵀ))) (fun s => (of.symm (P s) : Cov nx)) (exact_cov hex) T hT
  refine ⟨max c1 c2, fun h hh hhT k => ⟨fun i => ?_, fun i l => ?_⟩⟩
  · have a1 := (H1 h hh hhT (fun x => itoF c h k x) fun v => by rw [linear_itoF hc]; simp).1 0 ⟨le_rfl, hT⟩ (by simpa using hhT)
    rw [zero_add] at a1
    refine (coord_le _ _ i).trans (a1.trans ?_)
    gcongr
    exact le_max_left _ _
  · have a2 := (H2 h hh hhT _ fun v => rfl).1 0 ⟨le_rfl, hT⟩ (by simpa using hhT)
    rw [zero_add] at a2
    have hQ := cov_step_ito A (G * Gᵀ) h (of.symm (P 0))
    have hz : (of (of.symm (P 0) : Cov nx) : Matrix (Fin nx) (Fin nx) ℝ) = 0 := hP0
    rw [hz, Matrix.mul_zero, Matrix.zero_mul, zero_add, ← linear_itoQ hc h k hh (μ 0)] at hQ
    have e := congrFun (congrFun hQ i) l
    change |SymSDE.Q (itoG c h k (μ 0)) i l - _| ≤ _
    rw [e]
    refine (entry_le _ (of.symm (P h)) i l).trans (le_trans ?_ (mul_le_mul_of_nonneg_right (le_max_right c1 c2) (by positivity)))
    exact a2

/-- The Ornstein-Uhlenbeck process `dx = (1 - 2 x) dt + 3 dW`. -/
noncomputable def ou : CtModel 1 1 1 where
  f _ x := ![1 - 2 * x 0]
  g _ _ := !![3]
  h _ x := ![x 0]
  R := !![1]
  df_dt _ _ := ![0]
  df_dx _ _ := !![-2]
  d2f_dx2 _ _ _ _ _ := 0

theorem ou_linear : LinearSDE ou !![-2] ![1] !![3] where
  drift _ x := by
    funext i
    fin_cases i
    simp [ou, mulVec, dotProduct]
    ring
  gain _ _ := rfl
  derivs :=
    { dt := fun t x i => by fin_cases i; simpa [ou] using hasDerivAt_const t _
      dx := fun t x p i => by
        fin_cases p; fin_cases i
        simpa [ou, Function.update] using ((hasDerivAt_id' (x 0)).const_mul 2).const_sub 1
      dx2 := fun t x p q i => hasDerivAt_const _ _ }

/-- Its moments from the mean `4` and the covariance `5`. -/
theorem ou_moments : ExactMoments !![-2] ![1] (!![3] * !![3]ᵀ) (fun s => ![1 / 2 + 7 / 2 * Real.exp (-2 * s)])
    (fun s => !![9 / 4 + 11 / 4 * Real.exp (-4 * s)]) where
  mean s i := by
    fin_cases i
    have h : HasDerivAt (fun s => Real.exp (-2 * s)) (Real.exp (-2 * s) * (-2)) s := by
      simpa using ((hasDerivAt_id' s).const_mul (-2)).exp
    refine ((h.const_mul (7 / 2)).const_add (1 / 2)).congr_deriv ?_
    simp [mulVec, dotProduct]
    ring
  cov s i j := by
    fin_cases i; fin_cases j
    have h : HasDerivAt (fun s => Real.exp (-4 * s)) (Real.exp (-4 * s) * (-4)) s := by
      simpa using ((hasDerivAt_id' s).const_mul (-4)).exp
    refine ((h.const_mul (11 / 4)).const_add (9 / 4)).congr_deriv ?_
    change _ = ((!![-2] * !![9 / 4 + 11 / 4 * Real.exp (-4 * s)] + !![9 / 4 + 11 / 4 * Real.exp (-4 * s)] * !![-2]ᵀ + !![3] * !![3]ᵀ :
      Matrix (Fin 1) (Fin 1) ℝ)) 0 0
    rw [Matrix.add_apply, Matrix.add_apply, Matrix.mul_apply, Matrix.mul_apply, Matrix.mul_apply]
    simp only [Fin.sum_univ_one, transpose_apply, of_apply, cons_val_zero, cons_val_fin_one]
    ring

/-- What the filter is given of the discretised process. -/
noncomputable def ouFilter (dt : ℝ) : KModel 1 (Fin 1) (Fin 0) where
  f k x := (ito ou dt).f k x
  h k x := (ito ou dt).h k x
  Q k x := SymSDE.Q ((ito ou dt).g k x)
  R := !![1]
  df_dx _ _ _ _ := 1 - 2 * dt + 2 * dt ^ 2
  dh_dx _ _ _ _ := 1
  df_dq _ _ _ _ := 0
  dh_dq _ _ _ _ := 0
  dQ_dq _ _ _ := 0
  dQ_dx _ _ _ := 0
  dR_dq _ := 0
  d2f_dq2 _ _ _ _ _ := 0
  d2f_dx2 _ _ _ _ _ := 0
  d2f_dx_dq _ _ _ _ _ := 0
  d2h_dq2 _ _ _ _ _ := 0
  d2h_dx2 _ _ _ _ _ := 0
  d2h_dx_dq _ _ _ _ _ := 0
  d2Q_dq2 _ _ _ _ := 0
  d2Q_dx2 _ _ _ _ := 0
  d2Q_dx_dq _ _ _ _ := 0
  d2R_dq2 _ _ := 0

theorem ouFilter_model (dt : ℝ) : FilterModel (ouFilter dt) (ito ou dt) where
  f _ _ := rfl
  Q _ _ := rfl
  df_dx k x p i := by
    have e : (fun s => (ito ou dt).f k (Function.update x p s) i) = fun s => s * (1 - 2 * dt + 2 * dt ^ 2) + (dt - dt ^ 2) := by
      funext s
      have := congrFun (linear_itoF ou_linear dt k (Function.update x p s)) i
      refine this.trans ?_
      fin_cases p; fin_cases i
      simp [mulVec, dotProduct, Function.update, vecHead]
      ring
    rw [e]
    simpa [ouFilter] using ((hasDerivAt_id' (x p)).mul_const (1 - 2 * dt + 2 * dt ^ 2)).add_const (dt - dt ^ 2)

example : ∃ C, ∀ N : Nat, 1 ≤ N → ∀ s0 : EKF 1 (Fin 1) (Fin 0), s0.x = ![4] → s0.Px = !![5] →
    ∃ s, history (EKF.correct (ouFilter (3 / N))) (EKF.predict (ouFilter (3 / N))) (List.replicate N none) s0 = .ok s ∧
      |s.x 0 - (1 / 2 + 7 / 2 * Real.exp (-6))| ≤ C / N ^ 2 ∧ |s.Px 0 0 - (9 / 4 + 11 / 4 * Real.exp (-12))| ≤ C / N ^ 2 := by
  obtain ⟨C, hC⟩ := C78_ito (o := Fin 1) (p := Fin 0) ou_linear ou_moments 3 (by norm_num)
  refine ⟨C, fun N hN s0 hx hP => ?_⟩
  obtain ⟨s, hs, h1, h2⟩ := hC N hN _ (ouFilter_model _) s0 (by rw [hx]; funext i; fin_cases i; norm_num)
    (by rw [hP]; ext i j; fin_cases i; fin_cases j; norm_num) N le_rfl
  have hN0 : (N : ℝ) ≠ 0 := by exact_mod_cast (by omega : N ≠ 0)
  have e : (N : ℝ) * (3 / N) = 3 := by field_simp
  rw [e] at h1 h2
  refine ⟨s, hs, ?_, ?_⟩
  · have := h1 0
    norm_num at this ⊢
    exact this
  · have := h2 0 0
    norm_num at this ⊢
    exact this

end Ceacoest.GenSDE
