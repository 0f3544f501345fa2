import Verif.Model.GenSDE
import Verif.Lemmas.NormalLaw
import Verif.Props.Stats
import Verif.Props.SymSDE

/-! # C77: what the densities and samplers of the generated models are -/

namespace Ceacoest.GenSDE
open Matrix Stats SymSDE Spec MeasureTheory ProbabilityTheory

variable {nx nw ny m : Nat}

theorem gauss_eq {n : Nat} (S : Matrix (Fin n) (Fin n) ℝ) (e : Fin n → ℝ) :
    gauss S e / Real.sqrt ((2 * Real.pi) ^ n) = gaussian S e := by
  unfold gauss gaussian
  rw [Fintype.card_fin, Real.sqrt_mul (by positivity), mul_inv]
  have : ∑ i, ∑ j, e i * S⁻¹ i j * e j = e ⬝ᵥ S⁻¹ *ᵥ e := by
    simp only [dotProduct, mulVec, Finset.mul_sum, mul_assoc]
  rw [this, show -(1 / 2) * (e ⬝ᵥ S⁻¹ *ᵥ e) = -(e ⬝ᵥ S⁻¹ *ᵥ e) / 2 by ring]
  ring

theorem pdf_density {n m : Nat} (f : Fin n → ℝ) (g : Matrix (Fin n) (Fin m) ℝ) (hS : (g * gᵀ).PosDef) (A : Set (Fin n → ℝ))
    (hA : MeasurableSet A) :
    randn m {w | f + g *ᵥ w ∈ A} = ∫⁻ z in A, ENNReal.ofReal (gauss (g * gᵀ) (fun i => z i - f i) / Real.sqrt ((2 * Real.pi) ^ n)) := by
  have h := congrArg (· A) (normal_density f g hS)
  rw [Measure.map_apply (affine_measurable f g) hA, withDensity_apply _ hA] at h
  refine h.trans ?_
  congr 1
  funext z
  rw [gauss_eq]
  rfl

/-- **C77** (transition).  Where the transition covariance is positive definite, `trans_pdf` is the density of the values
that `trans_rvs` draws, up to the constant `(2π)^(nx/2)` that the docstring announces as missing. -/
theorem C77_transition (d : DtModel nx m ny) (k : ℝ) (x : Fin nx → ℝ) (hQ : (d.g k x * (d.g k x)ᵀ).PosDef) :
    ∃ p : (Fin nx → ℝ) → ℝ, (∀ zs, transPdf d k x zs = .ok (zs.map p)) ∧
      IsDensityOf (Real.sqrt ((2 * Real.pi) ^ nx)) p (fun rnd => transRvs d k x rnd none) := by
  refine ⟨fun z => gauss (d.g k x * (d.g k x)ᵀ) fun i => z i - d.f k x i, fun zs => ?_, fun z => ?_, fun A hA => ?_⟩
  · unfold transPdf
    dsimp only
    rw [C55_unmasked _ (SymSDE.Q (d.g k x)) hQ, List.map_map]
    rfl
  · exact div_nonneg (Real.exp_pos _).le (Real.sqrt_nonneg _)
  · rw [← pdf_density _ _ hQ A hA]
    unfold probOf
    congr 1
    ext w
    constructor
    · rintro ⟨z, hz, h⟩
      have e := Except.ok.inj h
      subst e
      exact hz
    · intro h
      exact ⟨_, h, rfl⟩

/-- The values drawn always follow the normal law of mean `f` and covariance `Q`, also where `Q` is singular. -/
theorem C77_law (d : DtModel nx m ny) (k : ℝ) (x : Fin nx → ℝ) :
    ∃ z : (Fin m → ℝ) → Fin nx → ℝ, (∀ rnd, transRvs d k x rnd none = .ok (z rnd)) ∧
      (randn m).map (fun rnd => WithLp.toLp 2 (z rnd)) = multivariateGaussian (WithLp.toLp 2 (d.f k x)) (SymSDE.Q (d.g k x)) :=
  ⟨fun rnd => d.f k x + d.g k x *ᵥ rnd, fun _ => rfl, normal_law _ _⟩

/-- Where `Q` is singular there is no density, and `trans_pdf` raises LinAlgError. -/
theorem C77_singular (d : DtModel nx m ny) (k : ℝ) (x : Fin nx → ℝ) (hQ : ¬ (d.g k x * (d.g k x)ᵀ).PosDef) (z : Fin nx → ℝ)
    (zs : List (Fin nx → ℝ)) : transPdf d k x (z :: zs) = .error .linAlgError := by
  have hdet : (SymSDE.Q (d.g k x)).det = 0 := by
    by_contra h
    have hp := (C54_psd (d.g k x)).2
    exact hQ (hp.posDef_iff_isUnit.2 ((isUnit_iff_isUnit_det _).2 (isUnit_iff_ne_zero.2 h)))
  unfold transPdf
  dsimp only
  unfold Stats.pdf
  simp [pdfRow, solve, hdet, List.mapM_cons]

theorem gram_pd {n m : Nat} (g : Matrix (Fin n) (Fin m) ℝ) : (g * gᵀ).PosDef ↔ ∀ v, v ᵥ* g = 0 → v = 0 := by
  have hq : ∀ v, v ⬝ᵥ (g * gᵀ) *ᵥ v = (v ᵥ* g) ⬝ᵥ (v ᵥ* g) := by
    intro v
    rw [← mulVec_mulVec, dotProduct_mulVec, mulVec_transpose]
  constructor
  · intro h v hv
    by_contra h0
    have := h.dotProduct_mulVec_pos h0
    rw [star_trivial, hq, hv, dotProduct_zero] at this
    exact lt_irrefl _ this
  · intro h
    refine PosDef.of_dotProduct_mulVec_pos (C54_psd g).2.isHermitian fun v hv => ?_
    rw [star_trivial, hq]
    refine lt_of_le_of_ne ?_ fun h0 => hv (h v (dotProduct_self_eq_zero.1 h0.symm))
    exact Finset.sum_nonneg fun i _ => mul_self_nonneg _

/-- The Euler scheme has transition densities exactly where the rows of the noise gain are linearly independent … -/
theorem C77_euler (c : CtModel nx nw ny) (dt k : ℝ) (hdt : 0 < dt) (x : Fin nx → ℝ) :
    (SymSDE.Q ((euler c dt).g k x)).PosDef ↔ ∀ v, v ᵥ* c.g (k * dt) x = 0 → v = 0 := by
  have he : (euler c dt).g k x = Real.sqrt dt • c.g (k * dt) x := by
    ext i j
    simp [euler, eulerG, mul_comm]
  unfold SymSDE.Q
  rw [gram_pd, he]
  have : Real.sqrt dt ≠ 0 := (Real.sqrt_pos.2 hdt).ne'
  simp only [vecMul_smul, smul_eq_zero, this, false_or]

/-- … so never with fewer noises than states, as in mechanical systems driven by a random force. -/
theorem C77_euler_fewer_noises (c : CtModel nx nw ny) (dt k : ℝ) (x : Fin nx → ℝ) (hlt : nw < nx) (z : Fin nx → ℝ)
    (zs : List (Fin nx → ℝ)) : transPdf (euler c dt) k x (z :: zs) = .error .linAlgError := by
  refine C77_singular _ _ _ (fun h => ?_) _ _
  rw [gram_pd] at h
  have hinj : Function.Injective (vecMulLinear ((euler c dt).g k x)) := by
    rw [← LinearMap.ker_eq_bot, LinearMap.ker_eq_bot']
    exact fun v hv => h v hv
  have := LinearMap.finrank_le_finrank_of_injective hinj
  simp at this
  omega

/-- The order 1.5 scheme has them exactly where `g` and the derivative of the drift along `g` together span the state
space (the condition of Hörmander of the first order). -/
theorem C77_ito (c : CtModel nx nw ny) (hd : Derivs c) (dt k : ℝ) (hdt : 0 < dt) (x : Fin nx → ℝ) :
    (SymSDE.Q ((ito c dt).g k x)).PosDef ↔
      ∀ v, v ᵥ* c.g (k * dt) x = 0 → v ᵥ* (jacobian c.f (k * dt) x * c.g (k * dt) x) = 0 → v = 0 := by
  have hL : jacobian c.f (k * dt) x * c.g (k * dt) x = (c.df_dx (k * dt) x)ᵀ * c.g (k * dt) x := by rw [← jacobian_eq c hd]
  rw [hL]
  unfold SymSDE.Q
  rw [gram_pd]
  have h3 : dt ^ (3 / 2 : ℝ) ≠ 0 := (Real.rpow_pos_of_pos hdt _).ne'
  have h1 : dt ^ (1 / 2 : ℝ) ≠ 0 := (Real.rpow_pos_of_pos hdt _).ne'
  have h5 : Real.sqrt 3 ≠ 0 := by positivity
  have key : ∀ v, v ᵥ* (ito c dt).g k x = 0 ↔ v ᵥ* c.g (k * dt) x = 0 ∧ v ᵥ* ((c.df_dx (k * dt) x)ᵀ * c.g (k * dt) x) = 0 := by
    intro v
    set a := v ᵥ* c.g (k * dt) x with ha
    set b := v ᵥ* ((c.df_dx (k * dt) x)ᵀ * c.g (k * dt) x) with hb
    have e1 : ∀ j, (v ᵥ* (ito c dt).g k x) (Fin.castAdd nw j) = a j * dt ^ (1 / 2 : ℝ) + 1 / 2 * b j * dt ^ (3 / 2 : ℝ) := by
      intro j
      simp only [ha, hb, vecMul, dotProduct, ito, itoG, of_apply, Fin.append_left, mul_comm dt k, Finset.sum_mul, Finset.mul_sum,
        ← Finset.sum_add_distrib]
      exact Finset.sum_congr rfl fun i _ => by ring
    have e2 : ∀ j, (v ᵥ* (ito c dt).g k x) (Fin.natAdd nw j) = 1 / 2 * b j * dt ^ (3 / 2 : ℝ) / Real.sqrt 3 := by
      intro j
      simp only [hb, vecMul, dotProduct, ito, itoG, of_apply, Fin.append_right, mul_comm dt k, Finset.sum_mul, Finset.mul_sum,
        Finset.sum_div]
      exact Finset.sum_congr rfl fun i _ => by ring
    constructor
    · intro h
      have hb0 : b = 0 := by
        funext j
        have := congrFun h (Fin.natAdd nw j)
        rw [e2] at this
        simpa [h3, h5] using this
      refine ⟨?_, hb0⟩
      funext j
      have := congrFun h (Fin.castAdd nw j)
      rw [e1, hb0] at this
      simp only [Pi.zero_apply, mul_zero, zero_mul, add_zero] at this
      exact (mul_eq_zero.1 this).resolve_right h1
    · rintro ⟨h, h'⟩
      funext j
      refine Fin.addCases (fun j => ?_) (fun j => ?_) j
      · rw [e1, h, h']; simp
      · rw [e2, h']; simp
  constructor
  · exact fun h v h1 h2 => h v ((key v).2 ⟨h1, h2⟩)
  · exact fun h v hv => h v ((key v).1 hv).1 ((key v).1 hv).2

/-- **C77** (measurement).  For a positive definite `R` and `y` without masked entries, `meas_pdf` is, up to the constant
`(2π)^(ny/2)`, the density of `h + r v` for every square root `r` of `R` and standard normal `v`; a fully masked batch has
density one. -/
theorem C77_measurement (d : DtModel nx m ny) (k : ℝ) (x : Fin nx → ℝ) (hR : d.R.PosDef) :
    (∃ p : (Fin ny → ℝ) → ℝ, (∀ ys : List (Fin ny → ℝ), measPdf d k x false (ys.map fun y => (y, fun _ => false)) = .ok (ys.map p)) ∧
      ∀ (q : Nat) (r : Matrix (Fin ny) (Fin q) ℝ), r * rᵀ = d.R →
        IsDensityOf (Real.sqrt ((2 * Real.pi) ^ ny)) p fun v => (.ok (d.h k x + r *ᵥ v) : Py _)) ∧
      ∀ ys : List (Fin ny → ℝ), measPdf d k x true (ys.map fun y => (y, fun _ => true)) = .ok (ys.map fun _ => 1) := by
  refine ⟨⟨fun y => gauss d.R fun i => y i - d.h k x i, fun ys => ?_, fun q r hr => ⟨fun z => ?_, fun A hA => ?_⟩⟩, fun ys => ?_⟩
  · unfold measPdf
    dsimp only
    rw [C55_unmasked _ _ hR, List.map_map, List.map_map]
    rfl
  · exact div_nonneg (Real.exp_pos _).le (Real.sqrt_nonneg _)
  · have := pdf_density (d.h k x) r (hr ▸ hR) A hA
    rw [hr] at this
    rw [← this]
    unfold probOf
    congr 1
    ext w
    constructor
    · rintro ⟨z, hz, h⟩
      have e := Except.ok.inj h
      subst e
      exact hz
    · intro h
      exact ⟨_, h, rfl⟩
  · unfold measPdf
    dsimp only
    unfold Stats.pdf
    rw [if_pos]
    · rw [List.map_map, List.map_map]
      rfl
    · simp

/-- **C77** (time). Sample `k` of a discretised model is taken at time `k dt`, by the measurement function and with the covariance of the continuous model. -/
theorem C77_time (c : CtModel nx nw ny) (dt k : ℝ) (x : Fin nx → ℝ) :
    (euler c dt).h k x = c.h (k * dt) x ∧ (ito c dt).h k x = c.h (k * dt) x ∧ (euler c dt).R = c.R ∧ (ito c dt).R = c.R := ⟨rfl, rfl, rfl, rfl⟩

/-- `multivariate_normal_rvs` raises TypeError whatever it is given: it subscripts the integer `std.size`. -/
theorem C77_rvs_raises {n : Nat} (mean : Fin n → ℝ) (u : Matrix (Fin n) (Fin n) ℝ) (s : Fin n → ℝ) (rnd : Nat → Fin n → ℝ) :
    multivariateNormalRvs mean u s rnd = .error .typeError := rfl

/-- The Duffing oscillator with a random force: no densities with the Euler scheme, … -/
example (dt k : ℝ) (x z : Fin 2 → ℝ) : transPdf (euler duffing dt) k x [z] = .error .linAlgError :=
  C77_euler_fewer_noises _ _ _ _ (by norm_num) _ _

/-- … densities everywhere with the scheme of order 1.5. -/
example (dt k : ℝ) (hdt : 0 < dt) (x : Fin 2 → ℝ) :
    ∃ p : (Fin 2 → ℝ) → ℝ, (∀ zs, transPdf (ito duffing dt) k x zs = .ok (zs.map p)) ∧
      IsDensityOf (Real.sqrt ((2 * Real.pi) ^ 2)) p (fun rnd => transRvs (ito duffing dt) k x rnd none) := by
  refine C77_transition _ k x ((C77_ito duffing duffing_derivs dt k hdt x).2 fun v h1 h2 => ?_)
  rw [jacobian_eq duffing duffing_derivs] at h2
  have a := congrFun h1 0
  have b := congrFun h2 0
  simp [duffing, vecMul, dotProduct, Fin.sum_univ_two, Matrix.mul_apply] at a b
  funext i
  fin_cases i
  · exact b
  · exact a

end Ceacoest.GenSDE
