import Verif.Spec.Grad
import Mathlib.Analysis.Calculus.FDeriv.Mul
import Mathlib.Analysis.Calculus.FDeriv.Add
import Mathlib.Analysis.Calculus.FDeriv.Comp
import Mathlib.Analysis.SpecialFunctions.Log.Deriv
import Mathlib.LinearAlgebra.Matrix.NonsingularInverse
import Mathlib.LinearAlgebra.Matrix.Adjugate
import Mathlib.Tactic.Ring
import Mathlib.Tactic.FieldSimp
import Mathlib.Tactic.Linarith

/-! # Rules of differentiation for gradients -/

namespace Ceacoest.Spec
open Matrix Filter Topology
variable {p n m : Type} [Fintype p] [Fintype n] [Fintype m]

theorem lin_apply (g v : p → ℝ) : lin g v = ∑ a, g a * v a := by
  simp [lin, ContinuousLinearMap.sum_apply]

theorem lin_eq (f : (p → ℝ) →L[ℝ] ℝ) [DecidableEq p] : f = lin fun a => f (Pi.single a 1) := by
  ext v
  rw [lin_apply]
  conv_lhs => rw [pi_eq_sum_univ v]
  rw [map_sum]
  refine Finset.sum_congr rfl fun a _ => ?_
  rw [map_smul, smul_eq_mul, mul_comm]
  congr 2
  funext j
  rw [Pi.single_apply]
  exact if_congr eq_comm rfl rfl

theorem lin_injective {g g' : p → ℝ} (h : lin g = lin g') : g = g' := by
  classical
  funext a
  have := congrArg (fun f => f (Pi.single a 1)) h
  simpa [lin_apply, Pi.single_apply] using this

variable {F G : (p → ℝ) → ℝ} {g g' : p → ℝ} {q : p → ℝ}

theorem HasGrad.unique (h : HasGrad F g q) (h' : HasGrad F g' q) : g = g' := lin_injective (HasFDerivAt.unique h h')

theorem HasGrad.of_differentiableAt (h : DifferentiableAt ℝ F q) : ∃ g, HasGrad F g q := by
  classical
  exact ⟨_, by unfold HasGrad; rw [← lin_eq]; exact h.hasFDerivAt⟩

theorem HasGrad.differentiableAt (h : HasGrad F g q) : DifferentiableAt ℝ F q := HasFDerivAt.differentiableAt h

theorem HasGrad.continuousAt (h : HasGrad F g q) : ContinuousAt F q := HasFDerivAt.continuousAt h

theorem HasGrad.congr_grad (h : HasGrad F g q) (e : ∀ a, g' a = g a) : HasGrad F g' q := by
  have : g' = g := funext e
  rwa [this]

theorem HasGrad.congr (h : HasGrad F g q) (e : G =ᶠ[𝓝 q] F) : HasGrad G g q := HasFDerivAt.congr_of_eventuallyEq h e

theorem hasGrad_const (c : ℝ) : HasGrad (fun _ : p → ℝ => c) (fun _ => 0) q := by
  have : (lin fun _ : p => (0 : ℝ)) = 0 := by ext v; simp [lin_apply]
  unfold HasGrad
  rw [this]
  exact hasFDerivAt_const c q

theorem hasGrad_coord [DecidableEq p] (a : p) : HasGrad (fun q : p → ℝ => q a) (fun b => if b = a then 1 else 0) q := by
  have : (lin fun b => if b = a then (1 : ℝ) else 0) = ContinuousLinearMap.proj a := by ext v; simp [lin_apply]
  unfold HasGrad
  rw [this]
  exact (ContinuousLinearMap.proj (R := ℝ) (φ := fun _ : p => ℝ) a).hasFDerivAt

theorem HasGrad.add (h : HasGrad F g q) (h' : HasGrad G g' q) : HasGrad (fun q => F q + G q) (fun a => g a + g' a) q := by
  have : (lin fun a => g a + g' a) = lin g + lin g' := by
    ext v; simp [lin_apply, add_mul, Finset.sum_add_distrib]
  unfold HasGrad
  rw [this]
  exact HasFDerivAt.add h h'

theorem HasGrad.neg (h : HasGrad F g q) : HasGrad (fun q => -F q) (fun a => -g a) q := by
  have : (lin fun a => -g a) = -lin g := by ext v; simp [lin_apply]
  unfold HasGrad
  rw [this]
  exact HasFDerivAt.neg h

theorem HasGrad.sub (h : HasGrad F g q) (h' : HasGrad G g' q) : HasGrad (fun q => F q - G q) (fun a => g a - g' a) q := by
  have := h.add h'.neg
  simpa [sub_eq_add_neg] using this

theorem HasGrad.mul (h : HasGrad F g q) (h' : HasGrad G g' q) :
    HasGrad (fun q => F q * G q) (fun a => F q * g' a + g a * G q) q := by
  have : (lin fun a => F q * g' a + g a * G q) = F q • lin g' + G q • lin g := by
    ext v
    simp only [ContinuousLinearMap.add_apply, ContinuousLinearMap.smul_apply, lin_apply, smul_eq_mul, Finset.mul_sum, ← Finset.sum_add_distrib]
    exact Finset.sum_congr rfl fun a _ => by ring
  unfold HasGrad
  rw [this]
  exact HasFDerivAt.mul h h'

theorem HasGrad.const_mul (h : HasGrad F g q) (c : ℝ) : HasGrad (fun q => c * F q) (fun a => c * g a) q :=
  ((hasGrad_const c).mul h).congr_grad fun a => by ring

theorem HasGrad.mul_const (h : HasGrad F g q) (c : ℝ) : HasGrad (fun q => F q * c) (fun a => g a * c) q :=
  (h.mul (hasGrad_const c)).congr_grad fun a => by ring

theorem hasGrad_sum {s : Type} (S : Finset s) {F : s → (p → ℝ) → ℝ} {g : s → p → ℝ} (h : ∀ k ∈ S, HasGrad (F k) (g k) q) :
    HasGrad (fun q => ∑ k ∈ S, F k q) (fun a => ∑ k ∈ S, g k a) q := by
  have : (lin fun a => ∑ k ∈ S, g k a) = ∑ k ∈ S, lin (g k) := by
    ext v
    simp only [ContinuousLinearMap.sum_apply, lin_apply]
    rw [Finset.sum_comm]
    exact Finset.sum_congr rfl fun a _ => by rw [Finset.sum_mul]
  unfold HasGrad
  rw [this]
  exact HasFDerivAt.fun_sum h

theorem HasGrad.log (h : HasGrad F g q) (h0 : F q ≠ 0) : HasGrad (fun q => Real.log (F q)) (fun a => g a / F q) q := by
  have : (lin fun a => g a / F q) = (F q)⁻¹ • lin g := by
    ext v
    simp only [ContinuousLinearMap.smul_apply, lin_apply, smul_eq_mul, Finset.mul_sum]
    exact Finset.sum_congr rfl fun a _ => by ring
  unfold HasGrad
  rw [this]
  exact HasFDerivAt.log h h0

theorem HasGrad.inv (h : HasGrad F g q) (h0 : F q ≠ 0) : HasGrad (fun q => (F q)⁻¹) (fun a => -g a / F q ^ 2) q := by
  have : (lin fun a => -g a / F q ^ 2) = (-(F q ^ 2)⁻¹) • lin g := by
    ext v
    simp only [ContinuousLinearMap.smul_apply, lin_apply, smul_eq_mul, Finset.mul_sum]
    exact Finset.sum_congr rfl fun a _ => by ring
  unfold HasGrad
  rw [this]
  exact (hasDerivAt_inv h0).comp_hasFDerivAt q h

theorem HasGrad.div (h : HasGrad F g q) (h' : HasGrad G g' q) (h0 : G q ≠ 0) :
    HasGrad (fun q => F q / G q) (fun a => g a / G q - F q * g' a / G q ^ 2) q := by
  have := h.mul (h'.inv h0)
  refine (HasGrad.congr_grad this fun a => ?_)
  ring

/-- Chain rule. -/
theorem HasGrad₂.comp {F : (p → ℝ) → (n → ℝ) → ℝ} {gq : p → ℝ} {gx : n → ℝ} {X : (p → ℝ) → n → ℝ} {dX : p → n → ℝ}
    (h : HasGrad₂ F gq gx q (X q)) (hX : ∀ i, HasGrad (fun q => X q i) (fun a => dX a i) q) :
    HasGrad (fun q => F q (X q)) (fun a => gq a + ∑ i, gx i * dX a i) q := by
  have hX' : HasFDerivAt X (ContinuousLinearMap.pi fun i => lin fun a => dX a i) q := hasFDerivAt_pi.2 hX
  have h2 := HasFDerivAt.comp q (f := fun q => (q, X q)) (g := fun z : (p → ℝ) × (n → ℝ) => F z.1 z.2) h
    ((hasFDerivAt_id q).prodMk hX')
  have : (lin fun a => gq a + ∑ i, gx i * dX a i) =
      ((lin gq).coprod (lin gx)).comp ((ContinuousLinearMap.id ℝ (p → ℝ)).prod (ContinuousLinearMap.pi fun i => lin fun a => dX a i)) := by
    ext v
    simp only [ContinuousLinearMap.comp_apply, ContinuousLinearMap.prod_apply, ContinuousLinearMap.coprod_apply, lin_apply,
      ContinuousLinearMap.coe_id', id_eq, ContinuousLinearMap.coe_pi', add_mul, Finset.sum_add_distrib]
    congr 1
    simp only [Finset.sum_mul, Finset.mul_sum]
    rw [Finset.sum_comm]
    exact Finset.sum_congr rfl fun i _ => Finset.sum_congr rfl fun a _ => by ring
  unfold HasGrad
  rw [this]
  exact h2

/-- A function of the vector alone. -/
theorem HasGrad.comp {φ : (n → ℝ) → ℝ} {gx : n → ℝ} {X : (p → ℝ) → n → ℝ} {dX : p → n → ℝ}
    (h : HasGrad φ gx (X q)) (hX : ∀ i, HasGrad (fun q => X q i) (fun a => dX a i) q) :
    HasGrad (fun q => φ (X q)) (fun a => ∑ i, gx i * dX a i) q := by
  have hX' : HasFDerivAt X (ContinuousLinearMap.pi fun i => lin fun a => dX a i) q := hasFDerivAt_pi.2 hX
  have h2 := HasFDerivAt.comp q (g := φ) h hX'
  have : (lin fun a => ∑ i, gx i * dX a i) = (lin gx).comp (ContinuousLinearMap.pi fun i => lin fun a => dX a i) := by
    ext v
    simp only [ContinuousLinearMap.comp_apply, lin_apply, ContinuousLinearMap.coe_pi']
    simp only [Finset.sum_mul, Finset.mul_sum]
    rw [Finset.sum_comm]
    exact Finset.sum_congr rfl fun i _ => Finset.sum_congr rfl fun a _ => by ring
  unfold HasGrad
  rw [this]
  exact h2

/-! ### Inverse matrices -/

theorem differentiableAt_det [DecidableEq n] {M : (p → ℝ) → Matrix n n ℝ} (h : ∀ i j, DifferentiableAt ℝ (fun q => M q i j) q) :
    DifferentiableAt ℝ (fun q => (M q).det) q := by
  simp only [det_apply]
  refine DifferentiableAt.fun_sum fun σ _ => DifferentiableAt.const_smul ?_ _
  exact (HasFDerivAt.finsetProd (u := Finset.univ) (g := fun i q => M q (σ i) i) fun i _ => (h _ _).hasFDerivAt).differentiableAt

theorem differentiableAt_inv [DecidableEq n] {M : (p → ℝ) → Matrix n n ℝ} (h : ∀ i j, DifferentiableAt ℝ (fun q => M q i j) q)
    (h0 : (M q).det ≠ 0) (i j : n) : DifferentiableAt ℝ (fun q => (M q)⁻¹ i j) q := by
  have e : (fun q => (M q)⁻¹ i j) = fun q => (M q).det⁻¹ * (M q).adjugate i j := by
    funext q
    rw [inv_def, Ring.inverse_eq_inv', Matrix.smul_apply, smul_eq_mul]
  rw [e]
  refine ((differentiableAt_det h).inv h0).mul ?_
  simp only [adjugate_apply]
  refine differentiableAt_det fun k l => ?_
  simp only [updateRow_apply]
  split
  · exact differentiableAt_const _
  · exact h k l

/-- The entries of the inverse matrix. -/
theorem hasGrad_inv [DecidableEq n] {M : (p → ℝ) → Matrix n n ℝ} {dM : p → Matrix n n ℝ}
    (h : ∀ i j, HasGrad (fun q => M q i j) (fun a => dM a i j) q) (h0 : (M q).det ≠ 0) (i j : n) :
    HasGrad (fun q => (M q)⁻¹ i j) (fun a => -((M q)⁻¹ * dM a * (M q)⁻¹) i j) q := by
  have hd : ∀ i j, ∃ g, HasGrad (fun q => (M q)⁻¹ i j) g q := fun i j =>
    HasGrad.of_differentiableAt (differentiableAt_inv (fun i j => (h i j).differentiableAt) h0 i j)
  choose dN hN using hd
  have hne : ∀ᶠ q' in 𝓝 q, (M q').det ≠ 0 :=
    (differentiableAt_det fun i j => (h i j).differentiableAt).continuousAt.eventually_ne h0
  -- differentiate `M N = 1`
  have hid : ∀ i j a, ∑ k, (M q i k * dN k j a + dM a i k * (M q)⁻¹ k j) = 0 := by
    intro i j a
    have h1 : HasGrad (fun q => ∑ k, M q i k * (M q)⁻¹ k j) (fun a => ∑ k, (M q i k * dN k j a + dM a i k * (M q)⁻¹ k j)) q :=
      hasGrad_sum _ fun k _ => (h i k).mul (hN k j)
    have h2 : HasGrad (fun q => ∑ k, M q i k * (M q)⁻¹ k j) (fun _ => 0) q := by
      refine (hasGrad_const ((1 : Matrix n n ℝ) i j)).congr ?_
      filter_upwards [hne] with q' hq'
      rw [← mul_apply, mul_nonsing_inv _ (isUnit_iff_ne_zero.2 hq')]
    exact congrFun (h1.unique h2) a
  refine (hN i j).congr_grad fun a => ?_
  have hmat : M q * (of fun k j => dN k j a) = -(dM a * (M q)⁻¹) := by
    ext i j
    rw [mul_apply, Matrix.neg_apply, mul_apply]
    have := hid i j a
    rw [Finset.sum_add_distrib] at this
    simp only [of_apply]
    linarith
  have : (of fun k j => dN k j a) = -((M q)⁻¹ * dM a * (M q)⁻¹) := by
    have e := congrArg (fun A => (M q)⁻¹ * A) hmat
    rw [← Matrix.mul_assoc, nonsing_inv_mul _ (isUnit_iff_ne_zero.2 h0), Matrix.one_mul] at e
    rw [e, Matrix.mul_neg, Matrix.mul_assoc]
  have := congrFun (congrFun this i) j
  exact this.symm

theorem det_ne_zero_eventually [DecidableEq n] {M : (p → ℝ) → Matrix n n ℝ} {dM : p → Matrix n n ℝ}
    (h : ∀ i j, HasGrad (fun q => M q i j) (fun a => dM a i j) q) (h0 : (M q).det ≠ 0) : ∀ᶠ q' in 𝓝 q, (M q').det ≠ 0 :=
  (differentiableAt_det fun i j => (h i j).differentiableAt).continuousAt.eventually_ne h0

end Ceacoest.Spec
