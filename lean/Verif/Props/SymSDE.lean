import Verif.Model.SymSDE
import Mathlib.Analysis.Calculus.Deriv.Add
import Mathlib.Analysis.Calculus.Deriv.Mul
import Mathlib.Analysis.Calculus.Deriv.Pow
import Mathlib.Analysis.Calculus.Deriv.Prod
import Mathlib.Analysis.Calculus.Deriv.Pi
import Mathlib.Analysis.Calculus.FDeriv.Pi
import Mathlib.Analysis.Calculus.Deriv.Comp
import Mathlib.LinearAlgebra.Matrix.PosDef
import Mathlib.LinearAlgebra.Matrix.Notation
import Mathlib.Algebra.Order.Star.Real
import Mathlib.Tactic.FieldSimp

/-! # C54: discretisation of stochastic differential equations -/

namespace Ceacoest.SymSDE
open Matrix

variable {nx nw ny : Nat}

/-! ## Specification -/

/-- The model's derivative functions are the partial derivatives of `f`. -/
structure Derivs (c : CtModel nx nw ny) : Prop where
  dt : ∀ t x i, HasDerivAt (fun s => c.f s x i) (c.df_dt t x i) t
  dx : ∀ t x p i, HasDerivAt (fun s => c.f t (Function.update x p s) i) (c.df_dx t x p i) (x p)
  dx2 : ∀ t x p q i, HasDerivAt (fun s => c.df_dx t (Function.update x p s) q i) (c.d2f_dx2 t x p q i) (x p)

/-- Partial derivative with respect to entry `p` of the state. -/
noncomputable def partialD (F : (Fin nx → ℝ) → ℝ) (p : Fin nx) (x : Fin nx → ℝ) : ℝ :=
  deriv (fun s => F (Function.update x p s)) (x p)

/-- The generator `∂F/∂t + Σ_p f_p ∂F/∂x_p + ½ Σ_pq (g gᵀ)_pq ∂²F/∂x_p∂x_q` of the diffusion `dx = f dt + g dW`. -/
noncomputable def generator (f : ℝ → (Fin nx → ℝ) → Fin nx → ℝ) (g : ℝ → (Fin nx → ℝ) → Matrix (Fin nx) (Fin nw) ℝ)
    (F : ℝ → (Fin nx → ℝ) → ℝ) (t : ℝ) (x : Fin nx → ℝ) : ℝ :=
  deriv (fun s => F s x) t + ∑ p, f t x p * partialD (F t) p x +
    1 / 2 * ∑ p, ∑ q, (g t x * (g t x)ᵀ) p q * partialD (partialD (F t) q) p x

/-- Jacobian matrix of the drift. -/
noncomputable def jacobian (f : ℝ → (Fin nx → ℝ) → Fin nx → ℝ) (t : ℝ) (x : Fin nx → ℝ) : Matrix (Fin nx) (Fin nx) ℝ :=
  of fun i p => partialD (fun z => f t z i) p x

/-! ## Covariance -/

/-- The transition covariance of any discretised model is symmetric positive semidefinite. -/
theorem C54_psd {m : Nat} (g : Matrix (Fin nx) (Fin m) ℝ) : (Q g)ᵀ = Q g ∧ (Q g).PosSemidef := by
  constructor
  · simp [Q]
  · have := posSemidef_self_mul_conjTranspose g
    rwa [conjTranspose_eq_transpose_of_trivial] at this

/-- Euler scheme. -/
theorem C54_euler (c : CtModel nx nw ny) (dt k : ℝ) (hdt : 0 ≤ dt) (x : Fin nx → ℝ) :
    eulerF c dt k x = x + dt • c.f (k * dt) x ∧ Q (eulerG c dt k x) = dt • (c.g (k * dt) x * (c.g (k * dt) x)ᵀ) := by
  constructor
  · funext i
    simp only [eulerF, Pi.add_apply, Pi.smul_apply, smul_eq_mul, mul_comm dt k]
    ring
  · ext i j
    simp only [Q, eulerG, mul_apply, of_apply, transpose_apply, Matrix.smul_apply, smul_eq_mul, Finset.mul_sum, mul_comm dt k]
    refine Finset.sum_congr rfl fun l _ => ?_
    have := Real.mul_self_sqrt hdt
    linear_combination (c.g (k * dt) x i l * c.g (k * dt) x j l) * this

theorem jacobian_eq (c : CtModel nx nw ny) (hd : Derivs c) (t : ℝ) (x : Fin nx → ℝ) : jacobian c.f t x = (c.df_dx t x)ᵀ := by
  ext i p
  exact (hd.dx t x p i).deriv

theorem ito_cov_of (c : CtModel nx nw ny) (dt k : ℝ) (hdt : 0 ≤ dt) (x : Fin nx → ℝ) :
    let g := c.g (k * dt) x
    let L := (c.df_dx (k * dt) x)ᵀ * g
    Q (itoG c dt k x) = dt • (g * gᵀ) + (dt ^ 2 / 2) • (L * gᵀ + g * Lᵀ) + (dt ^ 3 / 3) • (L * Lᵀ) := by
  intro g L
  have hL : L = (c.df_dx (k * dt) x)ᵀ * g := rfl
  have e : itoG c dt k x = of fun i => Fin.append
      (fun j => g i j * dt ^ (1 / 2 : ℝ) + 1 / 2 * L i j * dt ^ (3 / 2 : ℝ))
      (fun j => 1 / 2 * L i j * dt ^ (3 / 2 : ℝ) / Real.sqrt 3) := by
    rw [hL]
    simp only [itoG, mul_comm dt k]
    rfl
  have ha : dt ^ (1 / 2 : ℝ) * dt ^ (1 / 2 : ℝ) = dt := by
    rw [← Real.sqrt_eq_rpow]; exact Real.mul_self_sqrt hdt
  have hb : dt ^ (3 / 2 : ℝ) = dt * dt ^ (1 / 2 : ℝ) := by
    rcases hdt.eq_or_lt with h0 | h0
    · subst h0; simp [Real.zero_rpow]
    · rw [← Real.rpow_one_add' hdt (by norm_num)]; norm_num
  have h3 : (Real.sqrt 3)⁻¹ * (Real.sqrt 3)⁻¹ = 1 / 3 := by
    rw [← mul_inv, Real.mul_self_sqrt (by norm_num)]; norm_num
  rw [e]
  clear_value g L
  ext i j
  simp only [Q, mul_apply, of_apply, transpose_apply, Fin.sum_univ_add, Fin.append_left, Fin.append_right, hb, Matrix.add_apply, Matrix.smul_apply,
    smul_eq_mul]
  rw [← Finset.sum_add_distrib, ← Finset.sum_add_distrib, Finset.mul_sum, Finset.mul_sum, Finset.mul_sum, ← Finset.sum_add_distrib,
    ← Finset.sum_add_distrib]
  refine Finset.sum_congr rfl fun l _ => ?_
  generalize dt ^ (1 / 2 : ℝ) = r at ha
  simp only [div_eq_mul_inv _ (Real.sqrt 3)]
  generalize (Real.sqrt 3)⁻¹ = w at h3
  subst ha
  linear_combination (1 / 4 * L i l * L j l * (r * r) ^ 3) * h3

/-- Order 1.5 scheme: the covariance of `g ΔW + L ΔZ`, where `ΔW` and `ΔZ = ∫ΔW` have covariances `dt`, `dt²/2`, `dt³/3`. -/
theorem C54_ito_cov (c : CtModel nx nw ny) (hd : Derivs c) (dt k : ℝ) (hdt : 0 ≤ dt) (x : Fin nx → ℝ) :
    let g := c.g (k * dt) x
    let L := jacobian c.f (k * dt) x * g
    Q (itoG c dt k x) = dt • (g * gᵀ) + (dt ^ 2 / 2) • (L * gᵀ + g * Lᵀ) + (dt ^ 3 / 3) • (L * Lᵀ) := by
  rw [jacobian_eq c hd]
  exact ito_cov_of c dt k hdt x

/-! ## Drift -/

theorem foldl_l0fStep (g : Matrix (Fin nx) (Fin nw) ℝ) (d : Fin nx → Fin nx → Fin nx → ℝ)
    (as : List (Fin nx × Fin nw × Fin nx × Fin nx)) (L : Fin nx → ℝ) (i : Fin nx) :
    as.foldl (l0fStep g d) L i =
      L i + (as.map fun a => if a.1 = i then 1 / 2 * g a.2.2.1 a.2.1 * g a.2.2.2 a.2.1 * d a.2.2.1 a.2.2.2 a.1 else 0).sum := by
  induction as generalizing L with
  | nil => simp
  | cons a as ih =>
    rw [List.foldl_cons, ih, List.map_cons, List.sum_cons, l0fStep]
    by_cases h : a.1 = i
    · subst h; simp; ring
    · rw [Function.update_of_ne (fun h' => h h'.symm)]; simp [h]

theorem sum_ndindex4 (F : Fin nx × Fin nw × Fin nx × Fin nx → ℝ) :
    ((ndindex4 nx nw).map F).sum = ∑ i, ∑ j, ∑ p, ∑ q, F (i, j, p, q) := by
  have fr : ∀ {n : Nat} (G : Fin n → ℝ), ((List.finRange n).map G).sum = ∑ i, G i := fun G => by
    rw [← List.ofFn_eq_map, List.sum_ofFn]
  have fm : ∀ {β : Type} (l : List β) (G : β → List ℝ), (l.flatMap G).sum = (l.map fun b => (G b).sum).sum := fun l G => by
    rw [List.flatMap, List.sum_flatten, List.map_map]; rfl
  simp only [ndindex4, List.map_flatMap, fm, List.map_map, Function.comp_def]
  simp only [fr]

/-- The in-place accumulation computes the generator applied to the drift. -/
theorem l0f_of (c : CtModel nx nw ny) (t : ℝ) (x : Fin nx → ℝ) (i : Fin nx) (h0 : deriv (fun s => c.f s x i) t = c.df_dt t x i)
    (h1 : ∀ q (z : Fin nx → ℝ), partialD (fun z => c.f t z i) q z = c.df_dx t z q i)
    (h2 : ∀ p q, partialD (partialD (fun z => c.f t z i) q) p x = c.d2f_dx2 t x p q i) :
    (ndindex4 nx nw).foldl (l0fStep (c.g t x) (c.d2f_dx2 t x)) (c.df_dt t x + (c.df_dx t x)ᵀ *ᵥ c.f t x) i =
      generator c.f c.g (fun s z => c.f s z i) t x := by
  rw [foldl_l0fStep, sum_ndindex4, generator, h0]
  simp only [h1, h2]
  rw [Pi.add_apply]
  congr 1
  · congr 1
    simp [mulVec, dotProduct, mul_comm]
  · rw [Finset.sum_eq_single i (fun i' _ hne => by simp [hne]) (by simp)]
    simp only [if_true, mul_apply, transpose_apply, Finset.mul_sum, Finset.sum_mul]
    rw [Finset.sum_comm]
    refine Finset.sum_congr rfl fun p _ => ?_
    rw [Finset.sum_comm]
    refine Finset.sum_congr rfl fun q _ => Finset.sum_congr rfl fun j _ => ?_
    ring

theorem l0f_eq (c : CtModel nx nw ny) (hd : Derivs c) (t : ℝ) (x : Fin nx → ℝ) (i : Fin nx) :
    (ndindex4 nx nw).foldl (l0fStep (c.g t x) (c.d2f_dx2 t x)) (c.df_dt t x + (c.df_dx t x)ᵀ *ᵥ c.f t x) i =
      generator c.f c.g (fun s z => c.f s z i) t x := by
  have h1 : ∀ q (z : Fin nx → ℝ), partialD (fun z => c.f t z i) q z = c.df_dx t z q i := fun q z => (hd.dx t z q i).deriv
  have h2 : ∀ p q, partialD (partialD (fun z => c.f t z i) q) p x = c.d2f_dx2 t x p q i := fun p q => by
    rw [show partialD (fun z => c.f t z i) q = fun z => c.df_dx t z q i from funext (h1 q)]
    exact (hd.dx2 t x p q i).deriv
  exact l0f_of c t x i (hd.dt t x i).deriv h1 h2

/-- The drift of the order 1.5 scheme is `x + dt f + ½ dt² L⁰f`, with `L⁰` the generator of the diffusion. -/
theorem C54_ito_drift (c : CtModel nx nw ny) (hd : Derivs c) (dt k : ℝ) (x : Fin nx → ℝ) (i : Fin nx) :
    itoF c dt k x i = x i + dt * c.f (k * dt) x i + dt ^ 2 / 2 * generator c.f c.g (fun s z => c.f s z i) (k * dt) x := by
  simp only [itoF, mul_comm dt k]
  rw [l0f_eq c hd]
  ring

/-- The measurement function is the continuous-time one at time `k dt`. -/
theorem C54_measurement (c : CtModel nx nw ny) (dt k : ℝ) (x : Fin nx → ℝ) : h c dt k x = c.h (k * dt) x := rfl

/-- Without noise, the drift of the order 1.5 scheme is the second-order Taylor polynomial of the solution of the
differential equation: its terms are the value and the first two derivatives of the solution at `k dt`. -/
theorem C54_ito_taylor (c : CtModel nx nw ny) (hd : Derivs c) (dt k : ℝ) (z : ℝ → Fin nx → ℝ) (i : Fin nx)
    (hg : c.g (k * dt) (z (k * dt)) = 0) (hz : ∀ s, HasDerivAt z (c.f s (z s)) s)
    (hf : DifferentiableAt ℝ (fun a : ℝ × (Fin nx → ℝ) => c.f a.1 a.2 i) (k * dt, z (k * dt))) :
    itoF c dt k (z (k * dt)) i =
      z (k * dt) i + dt * deriv (fun s => z s i) (k * dt) + dt ^ 2 / 2 * deriv (deriv fun s => z s i) (k * dt) := by
  have h1 : (deriv fun s => z s i) = fun s => c.f s (z s) i := by
    funext s
    exact (hasDerivAt_pi.1 (hz s) i).deriv
  rw [C54_ito_drift c hd, h1]
  congr 1
  rw [generator, hg]
  set t := k * dt
  obtain ⟨F, hF⟩ := hf
  have hc : HasDerivAt (fun s => c.f s (z s) i) (F (1, c.f t (z t))) t :=
    hF.comp_hasDerivAt (f := fun s => (s, z s)) t ((hasDerivAt_id t).prodMk (hz t))
  rw [hc.deriv]
  have e1 : F (1, 0) = c.df_dt t (z t) i := by
    have h := hF.comp_hasDerivAt (f := fun s => (s, z t)) t ((hasDerivAt_id t).prodMk (hasDerivAt_const t (z t)))
    exact h.unique (hd.dt t (z t) i)
  have e2 : ∀ p, F (0, Pi.single p 1) = c.df_dx t (z t) p i := fun p => by
    have hu : HasDerivAt (fun s => (t, Function.update (z t) p s)) ((0 : ℝ), (Pi.single p 1 : Fin nx → ℝ)) (z t p) :=
      (hasDerivAt_const _ t).prodMk (hasDerivAt_update (z t) p (z t p))
    have hF' : HasFDerivAt (fun a : ℝ × (Fin nx → ℝ) => c.f a.1 a.2 i) F (t, Function.update (z t) p (z t p)) := by
      rw [Function.update_eq_self]; exact hF
    have h := hF'.comp_hasDerivAt (f := fun s => (t, Function.update (z t) p s)) (z t p) hu
    exact h.unique (hd.dx t (z t) p i)
  have e3 : F (1, c.f t (z t)) = c.df_dt t (z t) i + ∑ p, c.f t (z t) p * c.df_dx t (z t) p i := by
    have : ((1 : ℝ), c.f t (z t)) = (1, 0) + ∑ p, c.f t (z t) p • ((0 : ℝ), (Pi.single p 1 : Fin nx → ℝ)) := by
      refine Prod.ext ?_ ?_
      · simp [Prod.fst_sum]
      · simp [Prod.snd_sum]
        funext j
        simp [Finset.sum_apply, Pi.single_apply]
    rw [this, map_add, e1, map_sum]
    simp only [map_smul, e2, smul_eq_mul]
  rw [e3, (hd.dt t (z t) i).deriv]
  simp only [show ∀ p, partialD (fun y => c.f t y i) p (z t) = c.df_dx t (z t) p i from fun p => (hd.dx t (z t) p i).deriv]
  simp

/-- Sampling a transition adds `g w` to the drift; passing the noise explicitly always raises TypeError. -/
theorem C54_transRvs {m : Nat} (f : Fin nx → ℝ) (g : Matrix (Fin nx) (Fin m) ℝ) (rnd w : Fin m → ℝ) :
    transRvs f g rnd none = .ok (f + g *ᵥ rnd) ∧ transRvs f g rnd (some w) = .error .typeError := ⟨rfl, rfl⟩

/-- A nonlinear model with noise and its derivatives: `dx₀ = x₁ dt`, `dx₁ = -x₀³ dt + 2 dW`. -/
noncomputable def duffing : CtModel 2 1 1 where
  f _ x := ![x 1, -x 0 ^ 3]
  g _ _ := !![0; 2]
  h _ x := ![x 0]
  R := !![1]
  df_dt _ _ := ![0, 0]
  df_dx _ x := !![0, -(3 * x 0 ^ 2); 1, 0]
  d2f_dx2 _ x p q i := if p = 0 ∧ q = 0 ∧ i = 1 then -(6 * x 0) else 0

theorem duffing_derivs : Derivs duffing where
  dt t x i := by
    fin_cases i <;> simpa [duffing] using hasDerivAt_const t _
  dx t x p i := by
    fin_cases p <;> fin_cases i <;> simp [duffing, Function.update]
    · exact hasDerivAt_const _ _
    · exact (hasDerivAt_pow 3 (x 0)).neg.congr_deriv (by norm_num)
    · exact hasDerivAt_id' _
    · exact hasDerivAt_const _ _
  dx2 t x p q i := by
    fin_cases p <;> fin_cases q <;> fin_cases i <;> simp [duffing, Function.update]
    all_goals first
      | exact hasDerivAt_const _ _
      | exact ((hasDerivAt_pow 2 (x 0)).const_mul 3).neg.congr_deriv (by norm_num; ring)

example : itoF duffing (1 / 2) 0 ![1, 3] = ![19 / 8, 0 - 1 / 2 * 9 / 4 + 3 - 1 / 2] := by
  have hn : ndindex4 2 1 = [(0, 0, 0, 0), (0, 0, 0, 1), (0, 0, 1, 0), (0, 0, 1, 1), (1, 0, 0, 0), (1, 0, 0, 1), (1, 0, 1, 0), (1, 0, 1, 1)] := by
    decide
  funext i
  fin_cases i <;> simp [itoF, duffing, hn, l0fStep, mulVec, dotProduct, Fin.sum_univ_two, Function.update, vecHead, vecTail] <;> norm_num

end Ceacoest.SymSDE
