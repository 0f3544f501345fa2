import Verif.Lemmas.Noise
import Mathlib.Analysis.InnerProductSpace.PiL2

/-!
# C74: the noise coordinates and the tube log-density

The full claim would be: the coordinates `wc` lose nothing, that is, no noise path with the same increments `J w` (hence the same defects)
has a larger tube log-density than `JT_range @ wc`. It holds for order 2 (`C74_order2_partial`) and fails for every larger order
(`C74_loss`): `JT_range` spans the noise that is orthogonal to the kernel of `J` in the plain inner product, but the tube
log-density weighs noise with `K`. For order 3 the loss is computed exactly (`C74_order3`).

The log-density of a noise path `w` itself is `tubeL` with the identity in place of `JT_range`.
-/

namespace Ceacoest
open Polynomial Spec Matrix RK

variable {m nx nu np nw r : Nat} {col : Collocation ℝ}

theorem tube_energy (K : Fin (m + 1) → ℝ) (V : Matrix (Fin (m + 1)) (Fin r) ℝ) (useOm : Bool)
    (dfdx : (Fin nx → ℝ) → (Fin nu → ℝ) → (Fin np → ℝ) → Matrix (Fin nx) (Fin nx) ℝ) (xp : Matrix (Fin (m + 1)) (Fin nx) ℝ)
    (up : Matrix (Fin (m + 1)) (Fin nu) ℝ) (p : Fin np → ℝ) (h : ℝ) (wc : Matrix (Fin r) (Fin nw) ℝ) :
    SymJme.tubeL K V useOm dfdx xp up p h wc = -(h / 2) * ∑ j, energy K (fun i => (V * wc) i j) -
      if useOm then h / 2 * ∑ i, K i * SymJme.tailTrace nw (dfdx (xp i) (up i) p) else 0 := by
  rw [tubeL_eq]
  congr 2
  unfold energy
  rw [Finset.sum_comm]
  exact Finset.sum_congr rfl fun i _ => Finset.mul_sum ..

theorem mulVec_col {a b c : Nat} (J : Matrix (Fin a) (Fin b) ℝ) (w : Matrix (Fin b) (Fin c) ℝ) (j : Fin c) :
    (J *ᵥ fun i => w i j) = fun k => (J * w) k j := rfl

/-- **C74.** Among the noise paths with the same increments there is exactly one with the greatest tube log-density: the samples of a polynomial
of degree at most the order minus two. Its log-density is computed without quadrature error. -/
theorem C74_best (hm : 1 ≤ m) (hcol : lglCollocation (m + 1 : Nat) = .ok col) (useOm : Bool)
    (dfdx : (Fin nx → ℝ) → (Fin nu → ℝ) → (Fin np → ℝ) → Matrix (Fin nx) (Fin nx) ℝ) (xp : Matrix (Fin (m + 1)) (Fin nx) ℝ)
    (up : Matrix (Fin (m + 1)) (Fin nu) ℝ) (p : Fin np → ℝ) (h : ℝ) (hh : 0 < h) (w : Matrix (Fin (m + 1)) (Fin nw) ℝ) :
    ∃ q : Fin nw → ℝ[X], (∀ j, (q j).natDegree ≤ m - 1) ∧ ∃ b : Matrix (Fin (m + 1)) (Fin nw) ℝ,
      (∀ i j, b i j = (q j).eval (col.points.getD i 0)) ∧ col.Jm m * b = col.Jm m * w ∧
      SymJme.tubeL (col.Kv m) 1 false dfdx xp up p h b = -(h / 2) * ∑ j, integral (q j ^ 2) 0 1 ∧
      ∀ w', col.Jm m * w' = col.Jm m * w →
        SymJme.tubeL (col.Kv m) 1 useOm dfdx xp up p h w' ≤ SymJme.tubeL (col.Kv m) 1 useOm dfdx xp up p h b ∧
        (SymJme.tubeL (col.Kv m) 1 useOm dfdx xp up p h w' = SymJme.tubeL (col.Kv m) 1 useOm dfdx xp up p h b → w' = b) := by
  have hc := lgl_colOK hm (by push_cast; rfl) hcol
  choose q hq hJ using fun j => hc.exists_poly fun i => w i j
  refine ⟨q, fun j => by have := hq j; omega, of fun i j => (q j).eval (col.points.getD i 0), fun i j => rfl, ?_, ?_, fun w' hw' => ?_⟩
  · ext k j
    exact congrFun (hJ j) k
  · rw [tube_energy, Matrix.one_mul, if_neg (by decide), sub_zero]
    congr 1
    refine Finset.sum_congr rfl fun j _ => ?_
    rw [← hc.K (q j ^ 2) (natDegree_pow_le.trans (by have := hq j; omega))]
    exact Finset.sum_congr rfl fun i _ => by rw [eval_pow]; rfl
  · have key : ∀ j, energy (col.Kv m) (fun i => w' i j) = energy (col.Kv m) (fun i => (q j).eval (col.points.getD i 0)) +
        energy (col.Kv m) fun i => w' i j - (q j).eval (col.points.getD i 0) := fun j =>
      hc.pythagoras (hq j) (by rw [hJ j]; funext k; exact congrFun (congrFun hw' k) j)
    have hsum := Finset.sum_congr (s₁ := Finset.univ) rfl fun j _ => key j
    rw [Finset.sum_add_distrib] at hsum
    have hnn : ∀ j ∈ (Finset.univ : Finset (Fin nw)), 0 ≤ energy (col.Kv m) fun i => w' i j - (q j).eval (col.points.getD i 0) :=
      fun j _ => energy_nonneg hc.Kpos _
    have h0 := Finset.sum_nonneg hnn
    rw [tube_energy, tube_energy, Matrix.one_mul, Matrix.one_mul, hsum]
    change _ * (_ + _) - _ ≤ _ * ∑ j, energy (col.Kv m) (fun i => (q j).eval (col.points.getD i 0)) - _ ∧ (_ * (_ + _) - _ =
      _ * ∑ j, energy (col.Kv m) (fun i => (q j).eval (col.points.getD i 0)) - _ → _)
    refine ⟨by nlinarith, fun he => ?_⟩
    have hz : ∑ j, (energy (col.Kv m) fun i => w' i j - (q j).eval (col.points.getD i 0)) = 0 := by
      have : h / 2 * ∑ j, (energy (col.Kv m) fun i => w' i j - (q j).eval (col.points.getD i 0)) = 0 := by linarith
      rcases mul_eq_zero.1 this with h1 | h1
      · linarith
      · exact h1
    ext i j
    have := energy_eq_zero hc.Kpos ((Finset.sum_eq_zero_iff_of_nonneg hnn).1 hz j (Finset.mem_univ j))
    exact sub_eq_zero.1 (congrFun this i)

theorem orth_kernel {k n : Nat} {J : Matrix (Fin k) (Fin n) ℝ} {V : Matrix (Fin n) (Fin r) ℝ} (hV : IsOrth Jᵀ V) {e : Fin n → ℝ}
    (he : J *ᵥ e = 0) (wc : Matrix (Fin r) (Fin nw) ℝ) (j : Fin nw) : ∑ i, e i * (V * wc) i j = 0 := by
  have hr : V *ᵥ (fun l => wc l j) ∈ LinearMap.range Jᵀ.mulVecLin := by
    rw [← hV.span]
    exact ⟨_, rfl⟩
  obtain ⟨y, hy⟩ := hr
  have h1 : ∀ i, (V * wc) i j = (Jᵀ *ᵥ y) i := fun i => (congrFun hy i).symm
  simp only [h1]
  change e ⬝ᵥ Jᵀ *ᵥ y = 0
  rw [dotProduct_mulVec, vecMul_transpose, he, zero_dotProduct]

theorem natDegree_derivative_C_mul (c : ℝ) (n : Nat) : (derivative (C c * X ^ (n + 1))).natDegree ≤ n := by
  have := natDegree_C_mul_X_pow_le c (n + 1)
  exact (natDegree_derivative_le _).trans (by omega)

theorem sum3 (f : Fin (2 + 1) → ℝ) : ∑ i, f i = f 0 + f 1 + f 2 := Fin.sum_univ_three f

/-- The method of order 2. -/
theorem order2 (hc : ColOK col 1) : col.Jm 1 0 0 = 1 / 2 ∧ col.Jm 1 0 1 = 1 / 2 := by
  have h0 := hc.J (derivative X) (by simp) 0
  have h1 := hc.J (derivative (C (1 / 2) * X ^ 2)) (natDegree_derivative_C_mul _ 1) 0
  rw [integral_derivative, Fin.sum_univ_two] at h0 h1
  have hp0 : col.points.getD ((0 : Fin 1) : Nat) 0 = 0 := hc.first
  have hp1 : col.points.getD ((0 : Fin 1) + 1 : Nat) 0 = 1 := hc.last
  have hq0 : col.points.getD ((0 : Fin 2) : Nat) 0 = 0 := hc.first
  have hq1 : col.points.getD ((1 : Fin 2) : Nat) 0 = 1 := hc.last
  rw [hp0, hp1, hq0, hq1] at h0 h1
  simp at h0 h1
  constructor <;> linarith

/-- The method of order 3. -/
theorem order3 (hc : ColOK col 2) : col.points.getD 1 0 = 1 / 2 ∧ (col.Kv 2 0 = 1 / 6 ∧ col.Kv 2 1 = 2 / 3 ∧ col.Kv 2 2 = 1 / 6) ∧
    (col.Jm 2 0 0 = 5 / 24 ∧ col.Jm 2 0 1 = 1 / 3 ∧ col.Jm 2 0 2 = -1 / 24) ∧
    col.Jm 2 1 0 = -1 / 24 ∧ col.Jm 2 1 1 = 1 / 3 ∧ col.Jm 2 1 2 = 5 / 24 := by
  have k0 := hc.K (derivative X) (by simp)
  have k1 := hc.K (derivative (C (1 / 2) * X ^ 2)) ((natDegree_derivative_C_mul _ 1).trans (by norm_num))
  have k2 := hc.K (derivative (C (1 / 3) * X ^ 3)) ((natDegree_derivative_C_mul _ 2).trans (by norm_num))
  have k3 := hc.K (derivative (C (1 / 4) * X ^ 4)) ((natDegree_derivative_C_mul _ 3).trans (by norm_num))
  have j0 := fun k => hc.J (derivative X) (by simp) k
  have j1 := fun k => hc.J (derivative (C (1 / 2) * X ^ 2)) ((natDegree_derivative_C_mul _ 1).trans (by norm_num)) k
  have j2 := fun k => hc.J (derivative (C (1 / 3) * X ^ 3)) ((natDegree_derivative_C_mul _ 2).trans (by norm_num)) k
  simp only [integral_derivative, sum3] at k0 k1 k2 k3 j0 j1 j2
  have hq0 : col.points.getD ((0 : Fin (2 + 1)) : Nat) 0 = 0 := hc.first
  have hq1 : col.points.getD ((1 : Fin (2 + 1)) : Nat) 0 = col.points.getD 1 0 := rfl
  have hq2 : col.points.getD ((2 : Fin (2 + 1)) : Nat) 0 = 1 := hc.last
  rw [hq0, hq1, hq2] at k0 k1 k2 k3
  simp only [hq0, hq1, hq2] at j0 j1 j2
  have ht : col.points.getD 1 0 = 1 / 2 := by
    generalize col.points.getD 1 0 = t at k0 k1 k2 k3
    simp at k0 k1 k2 k3
    have h1 : col.Kv 2 1 * (t - t ^ 2) = 1 / 6 := by linarith
    have h2 : col.Kv 2 1 * (t - t ^ 2) * t = 1 / 12 := by
      have : col.Kv 2 1 * (t ^ 2 - t ^ 3) = 1 / 12 := by linarith
      linarith
    rw [h1] at h2
    linarith
  have a0 := j0 0
  have a1 := j1 0
  have a2 := j2 0
  have b0 := j0 1
  have b1 := j1 1
  have b2 := j2 1
  have hp0 : col.points.getD ((0 : Fin 2) : Nat) 0 = 0 := hc.first
  have hp1 : col.points.getD ((0 : Fin 2) + 1 : Nat) 0 = col.points.getD 1 0 := rfl
  have hp2 : col.points.getD ((1 : Fin 2) : Nat) 0 = col.points.getD 1 0 := rfl
  have hp3 : col.points.getD ((1 : Fin 2) + 1 : Nat) 0 = 1 := hc.last
  rw [hp0, hp1] at a0 a1 a2
  rw [hp2, hp3] at b0 b1 b2
  rw [ht] at k0 k1 k2 a0 a1 a2 b0 b1 b2
  refine ⟨ht, ?_⟩
  simp at k0 k1 k2 a0 a1 a2 b0 b1 b2
  refine ⟨⟨?_, ?_, ?_⟩, ⟨?_, ?_, ?_⟩, ?_, ?_, ?_⟩ <;> linarith

/-- Samples without increments at order 3. -/
theorem order3_kernel (hc : ColOK col 2) (e : Fin (2 + 1) → ℝ) : col.Jm 2 *ᵥ e = 0 ↔ e 1 = -(1 / 2) * e 0 ∧ e 2 = e 0 := by
  obtain ⟨-, -, ⟨a0, a1, a2⟩, b0, b1, b2⟩ := order3 hc
  have h : col.Jm 2 *ᵥ e = 0 ↔ 5 / 24 * e 0 + 1 / 3 * e 1 + -1 / 24 * e 2 = 0 ∧ -1 / 24 * e 0 + 1 / 3 * e 1 + 5 / 24 * e 2 = 0 := by
    rw [funext_iff, Fin.forall_fin_two]
    simp only [mulVec, dotProduct, sum3, a0, a1, a2, b0, b1, b2, Pi.zero_apply]
  rw [h]
  constructor
  · rintro ⟨h1, h2⟩
    constructor <;> linarith
  · rintro ⟨h1, h2⟩
    rw [h1, h2]
    constructor <;> ring

/-- **C74, order 2.** Here the coordinates lose nothing: no noise path with the same increments has a larger tube log-density. The full claim, the
same for every order, is false (`C74_loss`). -/
theorem C74_order2_partial (hcol : lglCollocation 2 = .ok col) (V : Matrix (Fin 2) (Fin r) ℝ) (hV : IsOrth (col.Jm 1)ᵀ V) (useOm : Bool)
    (dfdx : (Fin nx → ℝ) → (Fin nu → ℝ) → (Fin np → ℝ) → Matrix (Fin nx) (Fin nx) ℝ) (xp : Matrix (Fin 2) (Fin nx) ℝ)
    (up : Matrix (Fin 2) (Fin nu) ℝ) (p : Fin np → ℝ) (h : ℝ) (hh : 0 < h) (wc : Matrix (Fin r) (Fin nw) ℝ) (w' : Matrix (Fin 2) (Fin nw) ℝ)
    (hw' : col.Jm 1 * w' = col.Jm 1 * (V * wc)) :
    SymJme.tubeL (col.Kv 1) 1 useOm dfdx xp up p h w' ≤ SymJme.tubeL (col.Kv 1) V useOm dfdx xp up p h wc := by
  have hc := lgl_colOK (le_refl 1) (by norm_num) hcol
  obtain ⟨j0, j1⟩ := order2 hc
  obtain ⟨q, hq, b, hb, hJ, -, hbest⟩ := C74_best (le_refl 1) hcol useOm dfdx xp up p h hh (V * wc)
  have he : col.Jm 1 *ᵥ ![1, -1] = 0 := by
    funext k
    fin_cases k
    simp [mulVec, dotProduct, j0, j1]
  have : b = V * wc := by
    ext i j
    have h1 := congrFun (congrFun hJ 0) j
    rw [mul_apply, mul_apply, Fin.sum_univ_two, Fin.sum_univ_two, j0, j1] at h1
    have h2 := orth_kernel hV he wc j
    rw [Fin.sum_univ_two] at h2
    simp at h2
    have h3 : b 0 j = b 1 j := by
      rw [hb, hb, eq_C_of_natDegree_le_zero (hq j), eval_C, eval_C]
    fin_cases i
    · change b 0 j = (V * wc) 0 j
      linarith
    · change b 1 j = (V * wc) 1 j
      linarith
  have := (hbest w' hw').1
  rw [tube_energy _ V, ← ‹b = V * wc›]
  rwa [tube_energy _ _ _ _ _ _ _ _ b, Matrix.one_mul] at this

/-- **C74, order 3.** The loss: the log-density of the coordinates is the greatest one for their increments minus a ninth of the piece length times the
squared means of the noise. -/
theorem C74_order3 (hcol : lglCollocation 3 = .ok col) (V : Matrix (Fin (2 + 1)) (Fin r) ℝ) (hV : IsOrth (col.Jm 2)ᵀ V) (useOm : Bool)
    (dfdx : (Fin nx → ℝ) → (Fin nu → ℝ) → (Fin np → ℝ) → Matrix (Fin nx) (Fin nx) ℝ) (xp : Matrix (Fin (2 + 1)) (Fin nx) ℝ)
    (up : Matrix (Fin (2 + 1)) (Fin nu) ℝ) (p : Fin np → ℝ) (h : ℝ) (hh : 0 < h) (wc : Matrix (Fin r) (Fin nw) ℝ) :
    ∃ b : Matrix (Fin (2 + 1)) (Fin nw) ℝ, col.Jm 2 * b = col.Jm 2 * (V * wc) ∧
      (∀ w', col.Jm 2 * w' = col.Jm 2 * (V * wc) →
        SymJme.tubeL (col.Kv 2) 1 useOm dfdx xp up p h w' ≤ SymJme.tubeL (col.Kv 2) 1 useOm dfdx xp up p h b) ∧
      SymJme.tubeL (col.Kv 2) V useOm dfdx xp up p h wc =
        SymJme.tubeL (col.Kv 2) 1 useOm dfdx xp up p h b - h / 9 * ∑ j, (∑ i, col.Kv 2 i * (V * wc) i j) ^ 2 := by
  have hc := lgl_colOK (m := 2) (by norm_num) (by norm_num) hcol
  obtain ⟨ht, ⟨k0, k1, k2⟩, -⟩ := order3 hc
  obtain ⟨q, hq, b, hb, hJ, -, hbest⟩ := C74_best (m := 2) (by norm_num) hcol useOm dfdx xp up p h hh (V * wc)
  refine ⟨b, hJ, fun w' hw' => (hbest w' hw').1, ?_⟩
  have he : col.Jm 2 *ᵥ ![1, -(1 / 2), 1] = 0 := (order3_kernel hc _).2 (by simp)
  have key : ∀ j, energy (col.Kv 2) (fun i => (V * wc) i j) = energy (col.Kv 2) (fun i => b i j) +
      2 / 9 * (∑ i, col.Kv 2 i * (V * wc) i j) ^ 2 := by
    intro j
    have h1 : col.Jm 2 *ᵥ (fun i => (V * wc) i j - b i j) = 0 := by
      funext k
      have := congrFun (congrFun hJ k) j
      rw [mul_apply, mul_apply] at this
      simp only [mulVec, dotProduct, mul_sub, Finset.sum_sub_distrib, Pi.zero_apply]
      linarith
    obtain ⟨h2, h3⟩ := (order3_kernel hc _).1 h1
    have h4 := orth_kernel hV he wc j
    have h5 := hc.orth he (q := q j) (by have := hq j; omega)
    simp only [← hb] at h5
    simp only [sum3, k0, k1, k2] at h4 h5 ⊢
    simp at h4 h5
    simp only [energy, sum3, k0, k1, k2]
    generalize (V * wc) 0 j = w0 at *
    generalize (V * wc) 1 j = w1 at *
    generalize (V * wc) 2 j = w2 at *
    have e0 : b 0 j = w0 + w1 / 2 := by linarith
    have e1 : b 1 j = w1 - w1 / 4 := by linarith
    have e2 : b 2 j = w2 + w1 / 2 := by linarith
    have e3 : w0 = w1 / 2 - w2 := by linarith
    rw [e0, e1, e2, e3]
    ring
  rw [tube_energy, tube_energy, Matrix.one_mul, Finset.sum_congr rfl fun j _ => key j, Finset.sum_add_distrib, ← Finset.mul_sum]
  ring

/-- Constant noise at order 3: its coordinates are charged 11/9 of its energy, on every mesh. -/
theorem C74_constant (hcol : lglCollocation 3 = .ok col) (V : Matrix (Fin (2 + 1)) (Fin r) ℝ) (hV : IsOrth (col.Jm 2)ᵀ V)
    (dfdx : (Fin nx → ℝ) → (Fin nu → ℝ) → (Fin np → ℝ) → Matrix (Fin nx) (Fin nx) ℝ) (xp : Matrix (Fin (2 + 1)) (Fin nx) ℝ)
    (up : Matrix (Fin (2 + 1)) (Fin nu) ℝ) (p : Fin np → ℝ) (h : ℝ) (c : Fin nw → ℝ) (wc : Matrix (Fin r) (Fin nw) ℝ)
    (hwc : col.Jm 2 * (V * wc) = col.Jm 2 * of fun _ j => c j) :
    SymJme.tubeL (col.Kv 2) (1 : Matrix (Fin (2 + 1)) (Fin (2 + 1)) ℝ) false dfdx xp up p h (of fun _ j => c j) = -(h / 2) * ∑ j, c j ^ 2 ∧
    SymJme.tubeL (col.Kv 2) V false dfdx xp up p h wc = -(h / 2) * (11 / 9 * ∑ j, c j ^ 2) := by
  have hc := lgl_colOK (m := 2) (by norm_num) (by norm_num) hcol
  obtain ⟨ht, ⟨k0, k1, k2⟩, -⟩ := order3 hc
  have he : col.Jm 2 *ᵥ ![1, -(1 / 2), 1] = 0 := (order3_kernel hc _).2 (by simp)
  rw [tube_energy, tube_energy, Matrix.one_mul, if_neg (by decide), sub_zero, sub_zero, Finset.mul_sum (a := (11 / 9 : ℝ))]
  constructor
  · congr 1
    refine Finset.sum_congr rfl fun j _ => ?_
    simp only [energy, sum3, k0, k1, k2, of_apply]
    ring
  · congr 1
    refine Finset.sum_congr rfl fun j _ => ?_
    have h1 : col.Jm 2 *ᵥ (fun i => (V * wc) i j - c j) = 0 := by
      funext k
      have := congrFun (congrFun hwc k) j
      rw [mul_apply, mul_apply] at this
      simp only [mulVec, dotProduct, mul_sub, Finset.sum_sub_distrib, Pi.zero_apply]
      simp only [of_apply] at this
      linarith
    obtain ⟨h2, h3⟩ := (order3_kernel hc _).1 h1
    have h4 := orth_kernel hV he wc j
    simp only [sum3] at h4
    simp at h4
    simp only [energy, sum3, k0, k1, k2]
    generalize (V * wc) 0 j = w0 at *
    generalize (V * wc) 1 j = w1 at *
    generalize (V * wc) 2 j = w2 at *
    have e0 : w0 = c j / 3 := by linarith
    have e1 : w1 = 4 / 3 * c j := by linarith
    have e2 : w2 = c j / 3 := by linarith
    rw [e0, e1, e2]
    ring

/-- **C74, the loss.** For every order from 3 on there are noise coordinates whose log-density is below that of another noise path with the same
increments. -/
theorem C74_loss (hm : 2 ≤ m) (hcol : lglCollocation (m + 1 : Nat) = .ok col) (V : Matrix (Fin (m + 1)) (Fin r) ℝ)
    (hV : IsOrth (col.Jm m)ᵀ V) (useOm : Bool)
    (dfdx : (Fin nx → ℝ) → (Fin nu → ℝ) → (Fin np → ℝ) → Matrix (Fin nx) (Fin nx) ℝ) (xp : Matrix (Fin (m + 1)) (Fin nx) ℝ)
    (up : Matrix (Fin (m + 1)) (Fin nu) ℝ) (p : Fin np → ℝ) (h : ℝ) (hh : 0 < h) :
    ∃ (wc : Matrix (Fin r) (Fin 1) ℝ) (w : Matrix (Fin (m + 1)) (Fin 1) ℝ), col.Jm m * w = col.Jm m * (V * wc) ∧
      SymJme.tubeL (col.Kv m) V useOm dfdx xp up p h wc < SymJme.tubeL (col.Kv m) 1 useOm dfdx xp up p h w := by
  by_contra hno
  push Not at hno
  have hc := lgl_colOK (show 1 ≤ m by omega) (by push_cast; rfl) hcol
  obtain ⟨e, he, hne, huniq⟩ := hc.kernel_spec
  have h1 : ∀ wc : Matrix (Fin r) (Fin 1) ℝ, ∑ i, col.Kv m i * ((V * wc) i 0 * e i) = 0 := by
    intro wc
    obtain ⟨q, hq, b, hb, hJ, -, hbest⟩ := C74_best (by omega) hcol useOm dfdx xp up p h hh (V * wc)
    have h2 := hno wc b hJ
    obtain ⟨h3, h4⟩ := hbest (V * wc) rfl
    have h5 : SymJme.tubeL (col.Kv m) 1 useOm dfdx xp up p h (V * wc) = SymJme.tubeL (col.Kv m) V useOm dfdx xp up p h wc := by
      rw [tube_energy, tube_energy, Matrix.one_mul]
    have h6 := h4 (le_antisymm h3 (h2.trans h5.ge))
    rw [h6]
    simp only [hb]
    exact hc.orth he (by have := hq 0; omega)
  have h2 : col.Jm m *ᵥ (fun i => col.Kv m i * e i) = 0 := by
    funext k
    have hr : (col.Jm m)ᵀ *ᵥ Pi.single k 1 ∈ LinearMap.range V.mulVecLin := by
      rw [hV.span]
      exact ⟨_, rfl⟩
    obtain ⟨y, hy⟩ := hr
    have h3 := h1 (of fun l _ => y l)
    have h4 : ∀ i, (V * of fun l (_ : Fin 1) => y l) i 0 = col.Jm m k i := fun i => by
      have := congrFun hy i
      rw [mulVec_single_one] at this
      exact this
    simp only [h4] at h3
    rw [Pi.zero_apply, ← h3]
    change ∑ i, col.Jm m k i * (col.Kv m i * e i) = _
    exact Finset.sum_congr rfl fun i _ => mul_left_comm ..
  obtain ⟨c, hcc⟩ := huniq _ h2
  have h3 : ∀ i, col.Kv m i = c := fun i => mul_right_cancel₀ (hne i) (hcc i)
  have h4 := hc.K (derivative X) (by simp)
  rw [integral_derivative] at h4
  simp [h3] at h4
  have h5 := first_weight (show 1 ≤ m by omega) (by push_cast; rfl) hcol
  rw [h3] at h5
  have hm' : (2 : ℝ) ≤ m := by exact_mod_cast hm
  rw [h5] at h4
  field_simp at h4
  linarith

theorem exists_orthonormal {n : Nat} (S : Submodule ℝ (EuclideanSpace ℝ (Fin n))) : ∃ (r : Nat) (V : Matrix (Fin n) (Fin r) ℝ),
    Vᵀ * V = 1 ∧ ∀ v, v ∈ LinearMap.range V.mulVecLin ↔ WithLp.toLp 2 v ∈ S := by
  obtain ⟨b⟩ : Nonempty (OrthonormalBasis (Fin (Module.finrank ℝ S)) ℝ S) := ⟨stdOrthonormalBasis ℝ S⟩
  have happ : ∀ (y : Fin (Module.finrank ℝ S) → ℝ) (i : Fin n),
      ((of fun i j => (b j : EuclideanSpace ℝ (Fin n)) i : Matrix (Fin n) _ ℝ) *ᵥ y) i =
        ((∑ j, y j • b j : S) : EuclideanSpace ℝ (Fin n)) i := fun y i => by
    simp [mulVec, dotProduct, mul_comm]
  refine ⟨_, of fun i j => (b j : EuclideanSpace ℝ (Fin n)) i, ?_, fun v => ⟨?_, fun hv => ?_⟩⟩
  · ext i j
    have := (orthonormal_iff_ite.1 b.orthonormal) i j
    rw [mul_apply, one_apply, ← this, Submodule.coe_inner, PiLp.inner_apply]
    exact Finset.sum_congr rfl fun k _ => mul_comm ..
  · rintro ⟨y, rfl⟩
    have : WithLp.toLp 2 ((of fun i j => (b j : EuclideanSpace ℝ (Fin n)) i : Matrix (Fin n) _ ℝ).mulVecLin y) =
        ((∑ j, y j • b j : S) : EuclideanSpace ℝ (Fin n)) := by
      ext i
      exact happ y i
    rw [this]
    exact Subtype.coe_prop _
  · refine ⟨fun j => b.repr ⟨_, hv⟩ j, ?_⟩
    funext i
    refine (happ _ i).trans ?_
    rw [b.sum_repr]

/-- Every matrix has an orthonormal basis of its range, so the hypothesis on `V` can be met for every method. -/
theorem exists_isOrth {n k : Nat} (A : Matrix (Fin n) (Fin k) ℝ) : ∃ (r : Nat) (V : Matrix (Fin n) (Fin r) ℝ), IsOrth A V := by
  obtain ⟨r, V, h1, h2⟩ := exists_orthonormal ((LinearMap.range A.mulVecLin).comap (WithLp.linearEquiv 2 ℝ (Fin n → ℝ)).toLinearMap)
  refine ⟨r, V, h1, ?_⟩
  ext v
  exact h2 v

/-- The hypotheses at order 3 can be met: the method exists, `JT_range` exists, and the constant noise 1 has coordinates. It costs 11/9. -/
example : ∃ col : Collocation ℝ, lglCollocation 3 = .ok col ∧ ∃ (r : Nat) (V : Matrix (Fin (2 + 1)) (Fin r) ℝ), IsOrth (col.Jm 2)ᵀ V ∧
    ∃ wc : Matrix (Fin r) (Fin 1) ℝ, SymJme.tubeL (nx := 0) (nu := 0) (np := 0) (col.Kv 2) V false (fun _ _ _ => 0) 0 0 0 2 wc = -(11 / 9) := by
  obtain ⟨col, hcol, -⟩ := C25_exact 3 (by norm_num)
  obtain ⟨r, V, hV⟩ := exists_isOrth (col.Jm 2)ᵀ
  refine ⟨col, hcol, r, V, hV, Vᵀ * (of fun _ _ => 1 : Matrix (Fin (2 + 1)) (Fin 1) ℝ), ?_⟩
  rw [(C74_constant hcol V hV _ _ _ _ _ (fun _ => 1) _ ?_).2]
  · simp
  · rw [← Matrix.mul_assoc V, ← Matrix.mul_assoc, orth_proj _ _ hV]

/-- The loss at order 5. -/
example : ∃ col : Collocation ℝ, lglCollocation 5 = .ok col ∧ ∃ (r : Nat) (V : Matrix (Fin 5) (Fin r) ℝ), IsOrth (col.Jm 4)ᵀ V ∧
    ∃ (wc : Matrix (Fin r) (Fin 1) ℝ) (w : Matrix (Fin 5) (Fin 1) ℝ), col.Jm 4 * w = col.Jm 4 * (V * wc) ∧
      SymJme.tubeL (nx := 0) (nu := 0) (np := 0) (col.Kv 4) V true (fun _ _ _ => 0) 0 0 0 1 wc <
        SymJme.tubeL (nx := 0) (nu := 0) (np := 0) (col.Kv 4) 1 true (fun _ _ _ => 0) 0 0 0 1 w := by
  obtain ⟨col, hcol, -⟩ := C25_exact 5 (by norm_num)
  obtain ⟨r, V, hV⟩ := exists_isOrth (col.Jm 4)ᵀ
  exact ⟨col, hcol, r, V, hV, C74_loss (by norm_num) hcol V hV true _ _ _ _ 1 one_pos⟩

end Ceacoest
