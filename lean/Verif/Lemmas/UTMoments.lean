import Verif.Lemmas.UT
import Verif.Lemmas.NormalLaw
import Mathlib.Algebra.MvPolynomial.Degrees
import Mathlib.Algebra.MvPolynomial.Monad
import Mathlib.Probability.Moments.MGFAnalytic

/-! # Moments of normal laws and of sigma points -/

namespace Ceacoest
open MeasureTheory ProbabilityTheory MvPolynomial Spec

/-! ### Moments of the standard normal law -/

/-- The moments of the standard normal law. -/
noncomputable def stdMoment (k : ℕ) : ℝ := ∫ x, x ^ k ∂gaussianReal 0 1

theorem stdMoment_integrable (k : ℕ) : Integrable (fun x : ℝ => x ^ k) (gaussianReal 0 1) := by
  have h := (memLp_id_gaussianReal' (μ := 0) (v := 1) (k : ENNReal) (by simp)).integrable_norm_pow'
  refine (integrable_norm_iff (by fun_prop)).1 ?_
  simpa using h

theorem stdMoment_odd {k : ℕ} (hk : Odd k) : stdMoment k = 0 := by
  have h : (gaussianReal 0 1).map (fun x : ℝ => -x) = gaussianReal 0 1 := by rw [gaussianReal_map_neg, neg_zero]
  have h2 : stdMoment k = -stdMoment k := by
    unfold stdMoment
    conv_lhs => rw [← h]
    rw [integral_map (by fun_prop) (by fun_prop), ← integral_neg]
    exact integral_congr_ae (Filter.Eventually.of_forall fun x => hk.neg_pow x)
  linarith

private theorem deriv_poly_exp (p dp : ℝ → ℝ) (hp : ∀ t, HasDerivAt p (dp t) t) :
    deriv (fun t => p t * Real.exp (t ^ 2 / 2)) = fun t => (dp t + t * p t) * Real.exp (t ^ 2 / 2) := by
  funext t
  have h1 : HasDerivAt (fun t : ℝ => t ^ 2 / 2) t t := by
    have := ((hasDerivAt_id t).pow 2).div_const 2
    simpa using this
  have : HasDerivAt (fun t => p t * Real.exp (t ^ 2 / 2)) _ t := (hp t).mul h1.exp
  rw [this.deriv]
  ring

theorem stdMoment_eq (k : ℕ) : stdMoment k = iteratedDeriv k (fun t => Real.exp (t ^ 2 / 2)) 0 := by
  have h := iteratedDeriv_mgf_zero (X := id) (μ := gaussianReal 0 1) (by simp) k
  rw [mgf_id_gaussianReal] at h
  simp only [zero_mul, zero_add, NNReal.coe_one, one_mul] at h
  rw [h]
  rfl

theorem stdMoment_zero : stdMoment 0 = 1 := by simp [stdMoment]

theorem stdMoment_two : stdMoment 2 = 1 := by
  rw [stdMoment_eq]
  have e0 : (fun t : ℝ => Real.exp (t ^ 2 / 2)) = fun t => 1 * Real.exp (t ^ 2 / 2) := by simp
  rw [iteratedDeriv_succ, iteratedDeriv_one, e0, deriv_poly_exp (fun _ => 1) (fun _ => 0) fun t => hasDerivAt_const _ _,
    deriv_poly_exp (fun t => 0 + t * 1) (fun _ => 1) fun t => by simpa using hasDerivAt_id' t]
  simp

theorem stdMoment_four : stdMoment 4 = 3 := by
  rw [stdMoment_eq]
  have e0 : (fun t : ℝ => Real.exp (t ^ 2 / 2)) = fun t => 1 * Real.exp (t ^ 2 / 2) := by simp
  rw [iteratedDeriv_succ, iteratedDeriv_succ, iteratedDeriv_succ, iteratedDeriv_one, e0,
    deriv_poly_exp (fun _ => 1) (fun _ => 0) fun t => hasDerivAt_const _ _,
    deriv_poly_exp (fun t => 0 + t * 1) (fun _ => 1) fun t => by simpa using hasDerivAt_id' t,
    deriv_poly_exp (fun t => 1 + t * (0 + t * 1)) (fun t => 2 * t) fun t => by
      have := (((hasDerivAt_id t).pow 2).const_add 1)
      simp only [id_eq, Nat.cast_ofNat, Nat.add_one_sub_one, pow_one, mul_one] at this
      refine this.congr_of_eventuallyEq (Filter.Eventually.of_forall fun s => ?_)
      simp; ring,
    deriv_poly_exp (fun t => 2 * t + t * (1 + t * (0 + t * 1))) (fun t => 3 + 3 * t ^ 2) fun t => by
      have := ((hasDerivAt_id t).const_mul 3).add ((hasDerivAt_id t).pow 3)
      simp only [id_eq, Nat.cast_ofNat, Nat.add_one_sub_one, mul_one] at this
      refine this.congr_of_eventuallyEq (Filter.Eventually.of_forall fun s => ?_)
      simp; ring]
  simp

/-! ### Monomials -/

variable {n : ℕ}

theorem monomial_integrable (d : Fin n → ℕ) : Integrable (fun w : Fin n → ℝ => ∏ i, w i ^ d i) (randn n) :=
  Integrable.fintype_prod (f := fun i (x : ℝ) => x ^ d i) fun i => stdMoment_integrable (d i)

theorem monomial_integral (d : Fin n → ℕ) : ∫ w, ∏ i, w i ^ d i ∂randn n = ∏ i, stdMoment (d i) :=
  integral_fintype_prod_eq_prod (fun i (x : ℝ) => x ^ d i)

theorem poly_integrable (q : MvPolynomial (Fin n) ℝ) : Integrable (fun w => eval w q) (randn n) := by
  simp only [eval_eq']
  exact integrable_finsetSum _ fun d _ => (monomial_integrable fun i => d i).const_mul _

/-- Mean of a function over the sigma points of the standard normal law. -/
noncomputable def sigmaMean (n : ℕ) (kappa : ℝ) (F : (Fin n → ℝ) → ℝ) : ℝ :=
  (∑ k, 0.5 / (n + kappa) * (F (Pi.single k (Real.sqrt (n + kappa))) + F (-Pi.single k (Real.sqrt (n + kappa))))) +
    kappa / (n + kappa) * F 0

theorem sigmaMean_sum {ι : Type} (s : Finset ι) (c : ι → ℝ) (F : ι → (Fin n → ℝ) → ℝ) (kappa : ℝ) :
    sigmaMean n kappa (fun w => ∑ i ∈ s, c i * F i w) = ∑ i ∈ s, c i * sigmaMean n kappa (F i) := by
  unfold sigmaMean
  simp only [mul_add, Finset.sum_add_distrib, Finset.mul_sum]
  congr 1
  · congr 1 <;>
    · rw [Finset.sum_comm]
      exact Finset.sum_congr rfl fun _ _ => Finset.sum_congr rfl fun _ _ => by ring
  · exact Finset.sum_congr rfl fun _ _ => by ring

theorem monomial_single (d : Fin n → ℕ) (k : Fin n) (a : ℝ) (h : ∃ j ≠ k, d j ≠ 0) :
    ∏ i, (Pi.single k a : Fin n → ℝ) i ^ d i = 0 := by
  obtain ⟨j, hj, hd⟩ := h
  refine Finset.prod_eq_zero (Finset.mem_univ j) ?_
  rw [Pi.single_eq_of_ne hj, zero_pow hd]

theorem monomial_pure (d : Fin n → ℕ) (k : Fin n) (h : ∀ j ≠ k, d j = 0) (w : Fin n → ℝ) : ∏ i, w i ^ d i = w k ^ d k := by
  refine Finset.prod_eq_single k (fun j _ hj => by rw [h j hj, pow_zero]) fun hk => absurd (Finset.mem_univ k) hk

/-- A monomial with an odd exponent has mean 0 under the normal law and over the sigma points. -/
theorem match_odd (kappa : ℝ) (d : Fin n → ℕ) (k : Fin n) (hk : Odd (d k)) :
    sigmaMean n kappa (fun w => ∏ i, w i ^ d i) = ∏ i, stdMoment (d i) := by
  rw [Finset.prod_eq_zero (Finset.mem_univ k) (stdMoment_odd hk)]
  have h0 : ∏ i, (0 : Fin n → ℝ) i ^ d i = 0 :=
    Finset.prod_eq_zero (Finset.mem_univ k) (by rw [Pi.zero_apply, zero_pow (by rintro h; rw [h] at hk; exact absurd hk (by decide))])
  have hd0 : d k ≠ 0 := by rintro h; rw [h] at hk; exact absurd hk (by decide)
  unfold sigmaMean
  dsimp only
  rw [h0, mul_zero, add_zero]
  refine Finset.sum_eq_zero fun j _ => ?_
  rw [← Pi.single_neg]
  by_cases hjk : j = k
  · subst hjk
    by_cases hp : ∀ l ≠ j, d l = 0
    · rw [monomial_pure d j hp, monomial_pure d j hp, Pi.single_eq_same, Pi.single_eq_same, hk.neg_pow]
      ring
    · push Not at hp
      rw [monomial_single d j _ hp, monomial_single d j _ hp]
      ring
  · rw [monomial_single d j _ ⟨k, fun h => hjk h.symm, hd0⟩, monomial_single d j _ ⟨k, fun h => hjk h.symm, hd0⟩]
    ring

theorem match_one {kappa : ℝ} (hpos : 0 < (n : ℝ) + kappa) (d : Fin n → ℕ) (h : ∀ i, d i = 0) :
    sigmaMean n kappa (fun w => ∏ i, w i ^ d i) = ∏ i, stdMoment (d i) := by
  simp only [h, pow_zero, Finset.prod_const_one, stdMoment_zero, sigmaMean, Finset.sum_const, Finset.card_univ, Fintype.card_fin,
    nsmul_eq_mul]
  field_simp
  ring

/-- An even power of one variable: the sigma points have its mean for exponent 2, and for exponent 4 if `n + kappa = 3`. -/
theorem match_pure {kappa : ℝ} (hpos : 0 < (n : ℝ) + kappa) (d : Fin n → ℕ) (k : Fin n) (h : ∀ j ≠ k, d j = 0)
    (hd : d k = 2 ∨ (d k = 4 ∧ (n : ℝ) + kappa = 3)) :
    sigmaMean n kappa (fun w => ∏ i, w i ^ d i) = ∏ i, stdMoment (d i) := by
  have hr : ∏ i, stdMoment (d i) = stdMoment (d k) :=
    Finset.prod_eq_single k (fun j _ hj => by rw [h j hj, stdMoment_zero]) fun hk => absurd (Finset.mem_univ k) hk
  rw [hr]
  have hd0 : d k ≠ 0 := by omega
  have heven : Even (d k) := by rcases hd with hd | ⟨hd, -⟩ <;> rw [hd] <;> decide
  have hsq := Real.sq_sqrt hpos.le
  simp only [monomial_pure d k h]
  unfold sigmaMean
  dsimp only
  rw [Pi.zero_apply, zero_pow hd0, mul_zero, add_zero, Finset.sum_eq_single k]
  · rw [Pi.neg_apply, heven.neg_pow, Pi.single_eq_same]
    rcases hd with hd | ⟨hd, h3⟩
    · rw [hd, hsq, stdMoment_two]
      field_simp
      ring
    · rw [hd, stdMoment_four, show Real.sqrt (n + kappa) ^ 4 = (Real.sqrt (n + kappa) ^ 2) ^ 2 by ring, hsq, h3]
      norm_num
  · intro j _ hj
    rw [Pi.neg_apply, heven.neg_pow, Pi.single_eq_of_ne hj.symm, zero_pow hd0]
    ring
  · intro hk; exact absurd (Finset.mem_univ k) hk

/-! ### Polynomials -/

theorem deg_sum {q : MvPolynomial (Fin n) ℝ} {D : ℕ} (hq : q.totalDegree ≤ D) {d : Fin n →₀ ℕ} (hd : d ∈ q.support) :
    ∑ i, d i ≤ D := by
  have := (le_totalDegree hd).trans hq
  rwa [Finsupp.sum_fintype _ _ fun _ => rfl] at this

theorem sigmaMean_poly {kappa : ℝ} (q : MvPolynomial (Fin n) ℝ)
    (h : ∀ d ∈ q.support, sigmaMean n kappa (fun w => ∏ i, w i ^ d i) = ∏ i, stdMoment (d i)) :
    sigmaMean n kappa (fun w => eval w q) = ∫ w, eval w q ∂randn n := by
  simp only [eval_eq']
  rw [sigmaMean_sum, integral_finsetSum _ fun d _ => (monomial_integrable fun i => d i).const_mul _]
  refine Finset.sum_congr rfl fun d hd => ?_
  rw [h d hd, integral_const_mul, monomial_integral]

/-- The sigma points of the standard normal law are exact for polynomials of degree 3, … -/
theorem sigmaMean_cubic {kappa : ℝ} (hpos : 0 < (n : ℝ) + kappa) (q : MvPolynomial (Fin n) ℝ) (hq : q.totalDegree ≤ 3) :
    sigmaMean n kappa (fun w => eval w q) = ∫ w, eval w q ∂randn n := by
  refine sigmaMean_poly q fun d hd => ?_
  have hs := deg_sum hq hd
  by_cases hodd : ∃ k, Odd (d k)
  · obtain ⟨k, hk⟩ := hodd
    exact match_odd kappa _ k hk
  push Not at hodd
  by_cases h0 : ∀ i, d i = 0
  · exact match_one hpos _ h0
  push Not at h0
  obtain ⟨k, hk⟩ := h0
  have hk2 : 2 ≤ d k := by have := Nat.not_odd_iff_even.1 (hodd k); rcases this with ⟨r, hr⟩; omega
  have hle : ∀ j ≠ k, d j + d k ≤ 3 := by
    intro j hj
    have := Finset.sum_le_sum_of_subset (f := fun i => d i) (Finset.subset_univ {j, k})
    rw [Finset.sum_pair hj] at this
    omega
  refine match_pure hpos _ k (fun j hj => ?_) (Or.inl ?_)
  · have := Nat.not_odd_iff_even.1 (hodd j); rcases this with ⟨r, hr⟩; have := hle j hj; omega
  · have h1 := Finset.single_le_sum (f := fun i => d i) (fun i _ => Nat.zero_le _) (Finset.mem_univ k)
    have := Nat.not_odd_iff_even.1 (hodd k); rcases this with ⟨r, hr⟩; omega

/-- … and for degree 5 with one variable and `kappa = 2`. -/
theorem sigmaMean_quintic (q : MvPolynomial (Fin 1) ℝ) (hq : q.totalDegree ≤ 5) :
    sigmaMean 1 2 (fun w => eval w q) = ∫ w, eval w q ∂randn 1 := by
  refine sigmaMean_poly q fun d hd => ?_
  have hs := deg_sum hq hd
  rw [Fin.sum_univ_one] at hs
  have hsub : ∀ j : Fin 1, j = 0 := fun j => Subsingleton.elim _ _
  by_cases hodd : Odd (d 0)
  · exact match_odd 2 _ 0 hodd
  obtain ⟨r, hr⟩ := Nat.not_odd_iff_even.1 hodd
  have : d 0 = 0 ∨ d 0 = 2 ∨ d 0 = 4 := by omega
  rcases this with h | h | h
  · exact match_one (by norm_num) _ fun i => by rw [hsub i, h]
  · exact match_pure (by norm_num) _ 0 (fun j hj => absurd (hsub j) hj) (Or.inl h)
  · exact match_pure (by norm_num) _ 0 (fun j hj => absurd (hsub j) hj) (Or.inr ⟨h, by norm_num⟩)

/-- A polynomial of an affine function. -/
noncomputable def affineComp (m : Fin n → ℝ) (G : Matrix (Fin n) (Fin n) ℝ) (p : MvPolynomial (Fin n) ℝ) : MvPolynomial (Fin n) ℝ :=
  bind₁ (fun j => C (m j) + ∑ k, C (G j k) * X k) p

theorem affineComp_eval (m : Fin n → ℝ) (G : Matrix (Fin n) (Fin n) ℝ) (p : MvPolynomial (Fin n) ℝ) (w : Fin n → ℝ) :
    eval w (affineComp m G p) = eval (m + G.mulVec w) p := by
  have h := eval₂Hom_bind₁ (RingHom.id ℝ) w (fun j => C (m j) + ∑ k, C (G j k) * X k) p
  have h1 : ∀ (v : Fin n → ℝ) (q : MvPolynomial (Fin n) ℝ), eval₂Hom (RingHom.id ℝ) v q = eval v q := fun _ _ => rfl
  simp only [h1] at h
  rw [affineComp, h]
  congr 2
  funext j
  simp [Matrix.mulVec, dotProduct]

theorem affineComp_degree (m : Fin n → ℝ) (G : Matrix (Fin n) (Fin n) ℝ) (p : MvPolynomial (Fin n) ℝ) :
    (affineComp m G p).totalDegree ≤ p.totalDegree := by
  have hlin : ∀ j, (C (m j) + ∑ k, C (G j k) * X k : MvPolynomial (Fin n) ℝ).totalDegree ≤ 1 := by
    intro j
    refine (totalDegree_add _ _).trans (max_le (by simp) ?_)
    refine (totalDegree_finset_sum _ _).trans (Finset.sup_le fun k _ => ?_)
    refine (totalDegree_mul _ _).trans ?_
    simp
  conv_lhs => rw [affineComp, p.as_sum]
  rw [map_sum]
  refine (totalDegree_finset_sum _ _).trans (Finset.sup_le fun d hd => ?_)
  rw [bind₁_monomial]
  refine (totalDegree_mul _ _).trans ?_
  rw [totalDegree_C, zero_add]
  refine (totalDegree_finsetProd _ _).trans ?_
  refine le_trans (Finset.sum_le_sum fun i _ => ?_) (le_totalDegree hd)
  refine (totalDegree_pow _ _).trans ?_
  calc d i * _ ≤ d i * 1 := Nat.mul_le_mul_left _ (hlin i)
    _ = _ := by rw [mul_one]

end Ceacoest
