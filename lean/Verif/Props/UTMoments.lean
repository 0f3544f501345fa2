import Verif.Lemmas.UTMoments
import Verif.Lemmas.CholDiff
import Verif.Props.UT
import Mathlib.Topology.Algebra.MvPolynomial

/-! # C82: degrees of exactness of the unscented transform for normal inputs -/

namespace Ceacoest
open MeasureTheory ProbabilityTheory MvPolynomial Matrix WithLp Spec
variable {ni : Nat} {kind : SqrtKind (Fin ni)} {kappa : ℝ} {ut : UT ni} {o : Type} [Fintype o]

/-- Spec: expected value of a function of a normal vector with mean `m` and covariance `P`. -/
noncomputable def expect (m : Fin ni → ℝ) (P : Matrix (Fin ni) (Fin ni) ℝ) (F : (Fin ni → ℝ) → ℝ) : ℝ :=
  ∫ x, F x.ofLp ∂multivariateGaussian (toLp 2 m) P

/-- Spec: covariance of two functions of that vector. -/
noncomputable def expectCov (m : Fin ni → ℝ) (P : Matrix (Fin ni) (Fin ni) ℝ) (F G : (Fin ni → ℝ) → ℝ) : ℝ :=
  expect m P fun x => (F x - expect m P F) * (G x - expect m P G)

theorem gain_mul (hpos : 0 < (ni : ℝ) + kappa) {P S : Matrix (Fin ni) (Fin ni) ℝ} (hSS : Sᵀ * S = ((ni : ℝ) + kappa) • P) :
    ((Real.sqrt (ni + kappa))⁻¹ • Sᵀ) * ((Real.sqrt (ni + kappa))⁻¹ • Sᵀ)ᵀ = P := by
  rw [transpose_smul, transpose_transpose, Matrix.smul_mul, Matrix.mul_smul, hSS, smul_smul, smul_smul]
  have h := Real.mul_self_sqrt hpos.le
  have h0 : Real.sqrt (ni + kappa) ≠ 0 := (Real.sqrt_pos.2 hpos).ne'
  rw [show (Real.sqrt (ni + kappa))⁻¹ * (Real.sqrt (ni + kappa))⁻¹ * (ni + kappa) = 1 by
    rw [← mul_inv, h, inv_mul_cancel₀ hpos.ne']]
  rw [one_smul]

theorem expect_eq (m : Fin ni → ℝ) (G : Matrix (Fin ni) (Fin ni) ℝ) {F : (Fin ni → ℝ) → ℝ} (hF : Continuous F) :
    expect m (G * Gᵀ) F = ∫ w, F (m + G *ᵥ w) ∂randn ni := by
  unfold expect
  rw [← normal_law, integral_map (toLp_measurable m G).aemeasurable]
  exact (hF.comp (PiLp.continuous_ofLp 2 _)).aestronglyMeasurable

theorem sigma_eq (h : UT.init ni kind kappa = .ok ut) (hpos : 0 < (ni : ℝ) + kappa) (m : Fin ni → ℝ) (S : Matrix (Fin ni) (Fin ni) ℝ)
    (F : (Fin ni → ℝ) → ℝ) : ∑ k, ut.weights k * F (UT.spread ut.nsigma (fun k => S k) k + m) =
      sigmaMean ni kappa fun w => F (m + ((Real.sqrt (ni + kappa))⁻¹ • Sᵀ) *ᵥ w) := by
  obtain ⟨-, -, -, hs⟩ := ut_init_ok h
  have := hs (fun v : Fin ni → ℝ => F (v + m)) (fun k => S k)
  rw [this]
  unfold sigmaMean
  dsimp only
  have h0 : Real.sqrt (ni + kappa) ≠ 0 := (Real.sqrt_pos.2 hpos).ne'
  have hk : ∀ k, ((Real.sqrt (ni + kappa))⁻¹ • Sᵀ) *ᵥ (Pi.single k (Real.sqrt (ni + kappa))) = S k := by
    intro k
    funext j
    rw [mulVec_single, Pi.smul_apply]
    simp only [MulOpposite.smul_eq_mul_unop, MulOpposite.unop_op, col_apply, Matrix.smul_apply, transpose_apply, smul_eq_mul]
    field_simp
  simp only [mulVec_neg, hk, mulVec_zero, add_comm m]

/-- The weighted sigma points are exact for polynomials of degree `D`. -/
def ExactTo (ni : ℕ) (kappa : ℝ) (D : ℕ) : Prop :=
  ∀ q : MvPolynomial (Fin ni) ℝ, q.totalDegree ≤ D → sigmaMean ni kappa (fun w => eval w q) = ∫ w, eval w q ∂randn ni

theorem ut_poly {D : ℕ} (hD : ExactTo ni kappa D) (h : UT.init ni kind kappa = .ok ut) (hpos : 0 < (ni : ℝ) + kappa) (m : Fin ni → ℝ)
    {P S : Matrix (Fin ni) (Fin ni) ℝ} (hSS : Sᵀ * S = ((ni : ℝ) + kappa) • P) (q : MvPolynomial (Fin ni) ℝ) (hq : q.totalDegree ≤ D) :
    ∑ k, ut.weights k * eval (UT.spread ut.nsigma (fun k => S k) k + m) q = expect m P fun x => eval x q := by
  rw [sigma_eq h hpos m S fun x => eval x q]
  conv_rhs => rw [← gain_mul hpos hSS]
  rw [expect_eq m _ (MvPolynomial.continuous_eval q)]
  simp only [← affineComp_eval]
  exact hD _ ((affineComp_degree m _ q).trans hq)

theorem transform_poly (h : UT.init ni kind kappa = .ok ut) (i : Fin ni → ℝ) (P S : Matrix (Fin ni) (Fin ni) ℝ)
    (hS : ut.sqrt (((ni : ℝ) + kappa) • P) = .ok S) (p : o → MvPolynomial (Fin ni) ℝ) :
    ∃ d, ut.transform i P (fun x j => eval x (p j)) = .ok d ∧ (∀ k, d.idev k = UT.spread ut.nsigma (fun k => S k) k) ∧
      (∀ j, d.mean j = ∑ k, ut.weights k * eval (UT.spread ut.nsigma (fun k => S k) k + i) (p j)) ∧
      (∀ k j, d.odev k j = eval (UT.spread ut.nsigma (fun k => S k) k + i) (p j) - d.mean j) ∧
      ∀ a b, d.Po a b = ∑ k, d.odev k a * d.odev k b * ut.weights k := by
  obtain ⟨hne, hk, -, -⟩ := ut_init_ok h
  have he : ∃ d, ut.transform i P (fun x j => eval x (p j)) = .ok d := by
    unfold UT.transform UT.sigmaPoints
    rw [hk, hS]
    exact ⟨_, rfl⟩
  obtain ⟨d, hd⟩ := he
  refine ⟨d, hd, ?_⟩
  unfold UT.transform UT.sigmaPoints at hd
  rw [hk, hS] at hd
  obtain rfl := Except.ok.inj hd
  exact ⟨fun _ => rfl, fun _ => rfl, fun _ _ => rfl, fun _ _ => rfl⟩

section
variable {D : ℕ} (hD : ExactTo ni kappa D) (h : UT.init ni kind kappa = .ok ut) (hpos : 0 < (ni : ℝ) + kappa) (i : Fin ni → ℝ)
  (P S : Matrix (Fin ni) (Fin ni) ℝ) (hS : ut.sqrt (((ni : ℝ) + kappa) • P) = .ok S) (hSS : Sᵀ * S = ((ni : ℝ) + kappa) • P)
  (p : o → MvPolynomial (Fin ni) ℝ)
include hD h hpos hS hSS

theorem exact_all : ∃ d, ut.transform i P (fun x j => eval x (p j)) = .ok d ∧
    (∀ j, (p j).totalDegree ≤ D → d.mean j = expect i P fun x => eval x (p j)) ∧
    (∀ a b, (p a).totalDegree + (p b).totalDegree ≤ D →
      d.Po a b = expectCov i P (fun x => eval x (p a)) fun x => eval x (p b)) ∧
    ∀ a j, 1 + (p j).totalDegree ≤ D → ut.crosscov d a j = expectCov i P (fun x => x a) fun x => eval x (p j) := by
  obtain ⟨d, he, hi, hm, ho, hP⟩ := transform_poly h i P S hS p
  have hmean : ∀ j, (p j).totalDegree ≤ D → d.mean j = expect i P fun x => eval x (p j) := fun j hj => by
    rw [hm, ut_poly hD h hpos i hSS _ hj]
  refine ⟨d, he, hmean, fun a b hab => ?_, fun a j haj => ?_⟩
  · rw [hP]
    have h1 := ut_poly hD h hpos i hSS ((p a - C (d.mean a)) * (p b - C (d.mean b))) (by
      refine (totalDegree_mul _ _).trans (le_trans (add_le_add ?_ ?_) hab)
      · exact (totalDegree_sub_C_le _ _)
      · exact (totalDegree_sub_C_le _ _))
    unfold expectCov
    rw [← hmean a (by omega), ← hmean b (by omega)]
    simp only [map_mul, map_sub, eval_C] at h1
    rw [← h1]
    refine Finset.sum_congr rfl fun k _ => ?_
    rw [ho, ho]
    ring
  · have hX : (expect i P fun x => x a) = i a := by
      have h2 := ut_poly hD h hpos i hSS (X a) (by rw [totalDegree_X]; omega)
      simp only [eval_X] at h2
      rw [← h2]
      simp only [Pi.add_apply, mul_add]
      rw [Finset.sum_add_distrib, idev_mean h S a, ← Finset.sum_mul, weights_sum h]
      ring
    have h1 := ut_poly hD h hpos i hSS ((X a - C (i a)) * (p j - C (d.mean j))) (by
      refine (totalDegree_mul _ _).trans (le_trans (add_le_add ?_ (totalDegree_sub_C_le _ _)) haj)
      exact (totalDegree_sub_C_le _ _).trans (by rw [totalDegree_X]))
    unfold expectCov
    rw [← hmean j (by omega), hX]
    simp only [map_mul, map_sub, eval_C, eval_X] at h1
    rw [← h1]
    simp only [UT.crosscov, of_apply]
    refine Finset.sum_congr rfl fun k _ => ?_
    rw [ho, hi, Pi.add_apply]
    ring

end

/-- **C82.** For a normal input the transform has the exact mean of polynomials of degree at most 3, the exact cross
covariance with the input for degree at most 2, and the exact covariance for degree at most 1 (and whenever the two
degrees add up to at most 3). -/
theorem C82_exact (h : UT.init ni kind kappa = .ok ut) (hpos : 0 < (ni : ℝ) + kappa) (i : Fin ni → ℝ)
    (P S : Matrix (Fin ni) (Fin ni) ℝ) (hS : ut.sqrt (((ni : ℝ) + kappa) • P) = .ok S)
    (hSS : Sᵀ * S = ((ni : ℝ) + kappa) • P) (p : o → MvPolynomial (Fin ni) ℝ) :
    ∃ d, ut.transform i P (fun x j => eval x (p j)) = .ok d ∧
      (∀ j, (p j).totalDegree ≤ 3 → d.mean j = expect i P fun x => eval x (p j)) ∧
      (∀ a b, (p a).totalDegree + (p b).totalDegree ≤ 3 →
        d.Po a b = expectCov i P (fun x => eval x (p a)) fun x => eval x (p b)) ∧
      ∀ a j, (p j).totalDegree ≤ 2 → ut.crosscov d a j = expectCov i P (fun x => x a) fun x => eval x (p j) := by
  obtain ⟨d, he, h1, h2, h3⟩ := exact_all (fun q hq => sigmaMean_cubic hpos q hq) h hpos i P S hS hSS p
  exact ⟨d, he, h1, h2, fun a j hj => h3 a j (by omega)⟩

/-- **C82** (scalar input, `kappa = 2`). Then the mean is exact up to degree 5, the covariance up to degree 2 and the cross
covariance up to degree 4. -/
theorem C82_scalar {kind : SqrtKind (Fin 1)} {ut : UT 1} (h : UT.init 1 kind 2 = .ok ut) (i : Fin 1 → ℝ)
    (P S : Matrix (Fin 1) (Fin 1) ℝ) (hS : ut.sqrt ((((1 : ℕ) : ℝ) + 2) • P) = .ok S)
    (hSS : Sᵀ * S = (((1 : ℕ) : ℝ) + 2) • P) (p : o → MvPolynomial (Fin 1) ℝ) :
    ∃ d, ut.transform i P (fun x j => eval x (p j)) = .ok d ∧
      (∀ j, (p j).totalDegree ≤ 5 → d.mean j = expect i P fun x => eval x (p j)) ∧
      (∀ a b, (p a).totalDegree + (p b).totalDegree ≤ 5 →
        d.Po a b = expectCov i P (fun x => eval x (p a)) fun x => eval x (p b)) ∧
      ∀ a j, (p j).totalDegree ≤ 4 → ut.crosscov d a j = expectCov i P (fun x => x a) fun x => eval x (p j) := by
  obtain ⟨d, he, h1, h2, h3⟩ := exact_all (fun q hq => sigmaMean_quintic q hq) h (by norm_num) i P S hS hSS p
  exact ⟨d, he, h1, h2, fun a j hj => h3 a j (by omega)⟩

/-! ### The degrees are sharp -/

theorem sqrt_identity (h : UT.init ni .cholesky kappa = .ok ut) (hpos : 0 < (ni : ℝ) + kappa) :
    ut.sqrt (((ni : ℝ) + kappa) • (1 : Matrix (Fin ni) (Fin ni) ℝ)) = .ok (Real.sqrt (ni + kappa) • 1) ∧
      (Real.sqrt (ni + kappa) • (1 : Matrix (Fin ni) (Fin ni) ℝ))ᵀ * (Real.sqrt (ni + kappa) • 1) = ((ni : ℝ) + kappa) • 1 := by
  obtain ⟨-, -, hkind, -⟩ := ut_init_ok h
  have hsq := Real.mul_self_sqrt hpos.le
  have e : (Real.sqrt (ni + kappa) • (1 : Matrix (Fin ni) (Fin ni) ℝ))ᵀ * (Real.sqrt (ni + kappa) • 1) = ((ni : ℝ) + kappa) • 1 := by
    rw [transpose_smul, transpose_one, Matrix.smul_mul, Matrix.mul_smul, smul_smul, Matrix.one_mul, hsq]
  refine ⟨?_, e⟩
  unfold UT.sqrt
  rw [hkind]
  dsimp only
  have := cholU_of_isChol (Q := ((ni : ℝ) + kappa) • (1 : Matrix (Fin ni) (Fin ni) ℝ)) (S := Real.sqrt (ni + kappa) • 1) ?_
  · exact this
  · rw [lowerSym_of_symm (by rw [transpose_smul, transpose_one]), transpose_smul, transpose_one]
    refine ⟨fun i j hij => ?_, fun i => ?_, ?_⟩
    · rw [Matrix.smul_apply, one_apply_ne hij.ne, smul_zero]
    · rw [Matrix.smul_apply, one_apply_eq, smul_eq_mul, mul_one]
      exact Real.sqrt_pos.2 hpos
    · rw [← e, transpose_smul, transpose_one]

theorem monomial_both (h : UT.init ni .cholesky kappa = .ok ut) (hpos : 0 < (ni : ℝ) + kappa) (d : Fin ni → ℕ) :
    (∃ r, ut.transform 0 1 (fun x (_ : Unit) => eval x (∏ i, X i ^ d i)) = .ok r ∧
      r.mean () = sigmaMean ni kappa fun w => ∏ i, w i ^ d i) ∧
    (expect (ni := ni) 0 1 fun x => eval x (∏ i, X i ^ d i)) = ∏ i, stdMoment (d i) := by
  obtain ⟨hS, hSS⟩ := sqrt_identity h hpos
  obtain ⟨r, hr, -, hm, -⟩ := transform_poly h 0 1 _ hS fun _ : Unit => (∏ i, X i ^ d i : MvPolynomial (Fin ni) ℝ)
  refine ⟨⟨r, hr, ?_⟩, ?_⟩
  · rw [hm, sigma_eq h hpos 0 _ fun x => eval x (∏ i, X i ^ d i : MvPolynomial (Fin ni) ℝ)]
    have h0 : Real.sqrt (ni + kappa) ≠ 0 := (Real.sqrt_pos.2 hpos).ne'
    simp only [transpose_smul, transpose_one, smul_smul, inv_mul_cancel₀ h0, one_smul, one_mulVec, zero_add, map_prod, map_pow, eval_X]
  · have := expect_eq (ni := ni) 0 1 (MvPolynomial.continuous_eval (∏ i, X i ^ d i))
    rw [transpose_one, Matrix.one_mul] at this
    rw [this, ← monomial_integral]
    simp only [one_mulVec, zero_add, map_prod, map_pow, eval_X]

/-- **C82** (sharpness). With two inputs or more no `kappa` makes the mean exact for degree 4: the sigma points of the standard
normal law do not see `x₀² x₁²`. -/
theorem C82_not_quartic {n : ℕ} {ut : UT (n + 2)} (h : UT.init (n + 2) .cholesky kappa = .ok ut) (hpos : 0 < ((n + 2 : ℕ) : ℝ) + kappa) :
    ∃ p : MvPolynomial (Fin (n + 2)) ℝ, p.totalDegree ≤ 4 ∧
      (∃ r, ut.transform 0 1 (fun x (_ : Unit) => eval x p) = .ok r ∧ r.mean () = 0) ∧ (expect 0 1 fun x => eval x p) = 1 := by
  let d : Fin (n + 2) → ℕ := fun i => if i = 0 ∨ i = 1 then 2 else 0
  obtain ⟨⟨r, hr, hm⟩, he⟩ := monomial_both h hpos d
  have hd0 : d 0 = 2 := if_pos (Or.inl rfl)
  have hd1 : d 1 = 2 := if_pos (Or.inr rfl)
  have h01 : (0 : Fin (n + 2)) ≠ 1 := by simp
  refine ⟨∏ i, X i ^ d i, ?_, ⟨r, hr, ?_⟩, ?_⟩
  · refine (totalDegree_finsetProd _ _).trans ?_
    refine (Finset.sum_le_sum fun i _ => totalDegree_pow (X i) (d i)).trans ?_
    simp only [totalDegree_X, mul_one]
    rw [← Finset.sum_subset (Finset.subset_univ {(0 : Fin (n + 2)), 1}) (fun i _ hi => ?_), Finset.sum_pair h01, hd0, hd1]
    simp only [Finset.mem_insert, Finset.mem_singleton] at hi
    exact if_neg hi
  · rw [hm]
    unfold sigmaMean
    dsimp only
    have hs : ∀ (k : Fin (n + 2)) (a : ℝ), ∏ i, (Pi.single k a : Fin (n + 2) → ℝ) i ^ d i = 0 := by
      intro k a
      refine monomial_single d k a ?_
      by_cases hk : k = 0
      · exact ⟨1, by rw [hk]; exact h01.symm, by rw [hd1]; decide⟩
      · exact ⟨0, fun h => hk h.symm, by rw [hd0]; decide⟩
    have h0 : ∏ i, (0 : Fin (n + 2) → ℝ) i ^ d i = 0 :=
      Finset.prod_eq_zero (Finset.mem_univ 0) (by rw [hd0]; simp)
    simp only [← Pi.single_neg, hs, h0]
    simp
  · rw [he]
    refine Finset.prod_eq_one fun i _ => ?_
    by_cases hi : i = 0 ∨ i = 1
    · simp only [d, if_pos hi, stdMoment_two]
    · simp only [d, if_neg hi, stdMoment_zero]

/-- **C82** (sharpness). With one input the mean of `x⁴` under the standard normal law is 3, and `1 + kappa` over the sigma
points: exact only for `kappa = 2`. -/
theorem C82_scalar_quartic {ut : UT 1} (h : UT.init 1 .cholesky kappa = .ok ut) (hpos : 0 < ((1 : ℕ) : ℝ) + kappa) :
    (∃ r, ut.transform 0 1 (fun x (_ : Unit) => eval x (X 0 ^ 4)) = .ok r ∧ r.mean () = 1 + kappa) ∧
      (expect (ni := 1) 0 1 fun x => eval x (X 0 ^ 4)) = 3 := by
  obtain ⟨⟨r, hr, hm⟩, he⟩ := monomial_both h hpos fun _ => 4
  simp only [Fin.prod_univ_one] at hr hm he
  refine ⟨⟨r, hr, ?_⟩, he.trans stdMoment_four⟩
  rw [hm]
  have hsq := Real.sq_sqrt hpos.le
  unfold sigmaMean
  dsimp only
  rw [Fin.sum_univ_one, Pi.neg_apply, Pi.single_eq_same, Pi.zero_apply, Even.neg_pow (by decide),
    show Real.sqrt (((1 : ℕ) : ℝ) + kappa) ^ 4 = (Real.sqrt (((1 : ℕ) : ℝ) + kappa) ^ 2) ^ 2 by ring, hsq]
  field_simp
  push_cast
  ring

/-- The hypotheses hold for a correlated input of dimension 2 and `kappa = 1`, and a cubic function. -/
example (ut : UT 2) (h : UT.init 2 .cholesky 1 = .ok ut) :
    ∃ d, ut.transform ![1, -1] ((1 / 3 : ℝ) • !![4, 2; 2, 5]) (fun x (_ : Unit) => eval x (X 0 ^ 2 * X 1)) = .ok d ∧
      d.mean () = expect ![1, -1] ((1 / 3 : ℝ) • !![4, 2; 2, 5]) fun x => eval x (X 0 ^ 2 * X 1) := by
  obtain ⟨d, hd, hm, -⟩ := C82_exact h (by norm_num) ![1, -1] _ _ (sqrt_example ut h) mul_example
    fun _ : Unit => (X 0 ^ 2 * X 1 : MvPolynomial (Fin 2) ℝ)
  refine ⟨d, hd, hm () ?_⟩
  refine (totalDegree_mul _ _).trans ?_
  have := totalDegree_pow (X 0 : MvPolynomial (Fin 2) ℝ) 2
  rw [totalDegree_X] at this ⊢
  omega

example : ∃ ut, UT.init 1 .cholesky 2 = .ok ut ∧ ut.sqrt ((((1 : ℕ) : ℝ) + 2) • (1 : Matrix (Fin 1) (Fin 1) ℝ)) = .ok (Real.sqrt (((1 : ℕ) : ℝ) + 2) • 1) := by
  obtain ⟨ut, h, -⟩ := (C41_weights 1 .cholesky 2).1 (by norm_num)
  exact ⟨ut, h, (sqrt_identity h (by norm_num)).1⟩

end Ceacoest
