import Verif.Model.ExampleFilter
import Verif.Spec.ExampleFilter
import Verif.Props.ExampleSim
import Verif.Props.KalmanSmooth
import Mathlib.Tactic.FinCases
import Mathlib.Tactic.LinearCombination

/-! # C111: the script of `examples/duffing.py` runs to its end, whatever the random numbers -/

namespace Ceacoest
open Matrix Spec

section
variable {nx : Nat} {o p : Type} [Fintype o] [LinearOrder o]

/-- **C111** (smoothing). For any model, with positive definite `Q` and `R`, transforms with Cholesky factors and `kappa` not negative: the unscented filter and smoother return. -/
theorem C111_ukf_returns {put cut : UT nx} {kappa kappa' : ℝ} (hput : UT.init nx .cholesky kappa = .ok put) (hcut : UT.init nx .cholesky kappa' = .ok cut) (hk : 0 ≤ kappa)
    (hk' : 0 ≤ kappa') (M : KModel nx o p) (hQ : ∀ k x, (M.Q k x).PosDef) (hR : M.R.PosDef) (y : List (MaskedRow o)) (s : UKF nx cut.nsigma put.nsigma o p) (hs : s.Px.PosDef) :
    (∃ ms s', (UKF.cls put cut M).filter y s = .ok (ms, s') ∧ s'.Px.PosDef) ∧ (y ≠ [] → ∃ sm s', (UKF.cls put cut M).smooth y s = .ok (sm, s')) := by
  have hpos : 0 < (nx : ℝ) + kappa := lt_of_le_of_ne (by positivity) (Ne.symm (ut_init_ok hput).1)
  obtain ⟨ms, prs, s', h1, h3, h2⟩ := scheduleWith_returns (c₁ := (UKF.cls put cut M).correct) (p₁ := (UKF.cls put cut M).predict)
    (x₁ := (UKF.cls put cut M).predictionCrosscov) (fun s : UKF nx cut.nsigma put.nsigma o p => s.Px.PosDef)
    (by
      intro y s hs
      obtain ⟨s', h, h', -⟩ := C36_ukf_returns put cut .cholesky .cholesky kappa kappa' hput hcut hk hk' M (fun k x => ⟨hQ k x, hQ k x⟩) hR [some y] s ⟨hs, hs⟩
      obtain ⟨⟨m, s₁⟩, e, h⟩ := py_bind_eq_ok h
      obtain rfl : s₁ = s' := Except.ok.inj h
      exact ⟨m, s₁, e, h'⟩)
    (fun m => m.2.PosDef)
    (by
      intro s hs
      obtain ⟨d, hd⟩ := transform_of hput hpos s.x (M.f s.k) (show RootDom .cholesky s.Px from hs)
      have hPo := ukf_Po_psd hput hk hd
      exact ⟨_, _, _, ukf_predict_of s hd, PosDef.posSemidef_add hPo (hQ _ _), PosDef.posSemidef_add hPo (hQ _ _), rfl⟩) y hs
  refine ⟨⟨ms, s', ?_, h3⟩, fun hy => ?_⟩
  · rw [filter_eq]
    exact (scheduleWith_schedule h1).1
  · obtain ⟨sm, h⟩ := smooth_of (UKF.cls put cut M) hy h1 fun pr hpr => (h2 pr hpr).det_pos.ne'
    exact ⟨sm, s', h⟩

end

namespace Sim
open SymSDE

variable {p : Type} (gamma omega alpha beta delta g2 std dt : ℝ)

/-- The index set of the loop. -/
theorem ndindex_two : ndindex4 2 1 =
    [(0, 0, 0, 0), (0, 0, 0, 1), (0, 0, 1, 0), (0, 0, 1, 1), (1, 0, 0, 0), (1, 0, 0, 1), (1, 0, 1, 0), (1, 0, 1, 1)] := by decide

/-- The state transition function in closed form. -/
theorem duffing_itoF (k : ℝ) (x : Fin 2 → ℝ) : itoF (duffing gamma omega alpha beta delta g2 std) dt k x =
    ![x 0 + dt * x 1 + dt ^ 2 / 2 * (-delta * x 1 - beta * x 0 - alpha * x 0 ^ 3 + gamma * Real.sin (dt * k * omega)),
      x 1 + dt * (-delta * x 1 - beta * x 0 - alpha * x 0 ^ 3 + gamma * Real.sin (dt * k * omega)) +
        dt ^ 2 / 2 * (gamma * (omega * Real.cos (dt * k * omega)) + (-beta - alpha * (3 * x 0 ^ 2)) * x 1 -
          delta * (-delta * x 1 - beta * x 0 - alpha * x 0 ^ 3 + gamma * Real.sin (dt * k * omega)))] := by
  funext i
  fin_cases i <;>
    simp [itoF, duffing, Ex.duffingF, ndindex_two, l0fStep, mulVec, dotProduct, Fin.sum_univ_two, Function.update, vecHead, vecTail] <;> ring

theorem cubic (a b c d x : ℝ) : HasDerivAt (fun s => a + b * s + c * s ^ 2 + d * s ^ 3) (b + c * (2 * x) + d * (3 * x ^ 2)) x := by
  have h := (((hasDerivAt_const x a).add ((hasDerivAt_id' x).const_mul b)).add ((hasDerivAt_pow 2 x).const_mul c)).add ((hasDerivAt_pow 3 x).const_mul d)
  exact h.congr_deriv (by norm_num)

/-- **C111** (derivatives). The functions of the discretised model: `df_dx` and `dh_dx` are the derivatives of `f` and `h`. -/
theorem C111_derivatives (rest : KModel 2 (Fin 1) p) (k : ℤ) (x : Fin 2 → ℝ) (i : Fin 2) :
    (∀ j, HasDerivAt (fun s => (duffingK gamma omega alpha beta delta g2 std dt rest).f k (Function.update x i s) j)
      ((duffingK gamma omega alpha beta delta g2 std dt rest).df_dx k x i j) (x i)) ∧
    ∀ j, HasDerivAt (fun s => (duffingK gamma omega alpha beta delta g2 std dt rest).h k (Function.update x i s) j)
      ((duffingK gamma omega alpha beta delta g2 std dt rest).dh_dx k x i j) (x i) := by
  refine ⟨fun j => ?_, fun j => ?_⟩
  · simp only [duffingK, duffing_itoF]
    generalize Real.sin (dt * (k : ℝ) * omega) = S
    generalize Real.cos (dt * (k : ℝ) * omega) = C
    fin_cases i <;> fin_cases j
    · refine ((cubic (dt * x 1 + dt ^ 2 / 2 * (-delta * x 1 + gamma * S)) (1 - dt ^ 2 / 2 * beta) 0 (-(dt ^ 2 / 2 * alpha)) (x 0)).congr_of_eventuallyEq
        (Filter.Eventually.of_forall fun s => ?_)).congr_deriv ?_
      · simp [Function.update]; ring
      · simp [duffingDfdx]; ring
    · refine ((cubic (x 1 + dt * (-delta * x 1 + gamma * S) + dt ^ 2 / 2 * (gamma * (omega * C) - beta * x 1 - delta * (-delta * x 1 + gamma * S)))
        (-(dt * beta) + dt ^ 2 / 2 * (delta * beta)) (-(dt ^ 2 / 2 * (3 * alpha * x 1))) (-(dt * alpha) + dt ^ 2 / 2 * (delta * alpha)) (x 0)).congr_of_eventuallyEq
        (Filter.Eventually.of_forall fun s => ?_)).congr_deriv ?_
      · simp [Function.update]; ring
      · simp [duffingDfdx]; ring
    · refine ((cubic (x 0 + dt ^ 2 / 2 * (-beta * x 0 - alpha * x 0 ^ 3 + gamma * S)) (dt - dt ^ 2 / 2 * delta) 0 0 (x 1)).congr_of_eventuallyEq
        (Filter.Eventually.of_forall fun s => ?_)).congr_deriv ?_
      · simp [Function.update]; ring
      · simp [duffingDfdx]
    · refine ((cubic (dt * (-beta * x 0 - alpha * x 0 ^ 3 + gamma * S) + dt ^ 2 / 2 * (gamma * (omega * C) - delta * (-beta * x 0 - alpha * x 0 ^ 3 + gamma * S)))
        (1 - dt * delta + dt ^ 2 / 2 * (-beta - alpha * (3 * x 0 ^ 2) + delta ^ 2)) 0 0 (x 1)).congr_of_eventuallyEq
        (Filter.Eventually.of_forall fun s => ?_)).congr_deriv ?_
      · simp [Function.update]; ring
      · simp [duffingDfdx]
  · obtain rfl : j = 0 := Subsingleton.elim _ _
    fin_cases i
    · exact (hasDerivAt_id' (x 0)).congr_of_eventuallyEq (Filter.Eventually.of_forall fun s => by simp [duffingK, SymSDE.h, duffing])
    · simpa [duffingK, SymSDE.h, duffing] using hasDerivAt_const (x 1) (x 0)

/-- The transition covariance in closed form. -/
theorem duffing_Q (hdt : 0 ≤ dt) (k : ℝ) (x : Fin 2 → ℝ) : Q (itoG (duffing gamma omega alpha beta delta g2 std) dt k x) =
    g2 ^ 2 • !![dt ^ 3 / 3, dt ^ 2 / 2 - delta * dt ^ 3 / 3; dt ^ 2 / 2 - delta * dt ^ 3 / 3, dt - delta * dt ^ 2 + delta ^ 2 * dt ^ 3 / 3] := by
  have h := C54_ito_cov (duffing gamma omega alpha beta delta g2 std) (C104_duffing gamma omega alpha beta delta g2 std) dt k hdt x
  rw [jacobian_eq _ (C104_duffing gamma omega alpha beta delta g2 std)] at h
  have hL : ((duffing gamma omega alpha beta delta g2 std).df_dx (k * dt) x)ᵀ * (duffing gamma omega alpha beta delta g2 std).g (k * dt) x = !![g2; -delta * g2] := by
    ext i j
    fin_cases i <;> fin_cases j <;> simp [duffing, Matrix.mul_apply, Fin.sum_univ_two]
  dsimp only at h
  rw [hL, show (duffing gamma omega alpha beta delta g2 std).g (k * dt) x = !![0; g2] from rfl] at h
  rw [h]
  ext i j
  fin_cases i <;> fin_cases j <;> simp [Matrix.mul_apply, vecMul, dotProduct] <;> ring

theorem two_posDef {a b c : ℝ} (ha : 0 < a) (h : 0 < a * c - b * b) : (!![a, b; b, c] : Matrix (Fin 2) (Fin 2) ℝ).PosDef := by
  refine PosDef.of_dotProduct_mulVec_pos (by ext i j; fin_cases i <;> fin_cases j <;> rfl) fun v hv => ?_
  have e : star v ⬝ᵥ (!![a, b; b, c] *ᵥ v) = (a * (a * v 0 + b * v 1) ^ 2 + a * ((a * c - b * b) * v 1 ^ 2)) / a ^ 2 := by
    rw [eq_div_iff (by positivity)]
    simp [dotProduct, mulVec, Fin.sum_univ_two]
    ring
  rw [e]
  refine div_pos ?_ (by positivity)
  by_cases h1 : v 1 = 0
  · have h0 : v 0 ≠ 0 := fun h0 => hv (by ext i; fin_cases i <;> assumption)
    rw [h1]
    have : 0 < v 0 ^ 2 := by positivity
    have : 0 < a * (a * v 0) ^ 2 := by positivity
    simpa using this
  · have : 0 < v 1 ^ 2 := by positivity
    positivity

/-- **C111** (noise). The transition covariance of the discretised model is positive definite if and only if there is noise and the time step is not zero. -/
theorem C111_definite (hdt : 0 ≤ dt) (rest : KModel 2 (Fin 1) p) (k : ℤ) (x : Fin 2 → ℝ) :
    ((duffingK gamma omega alpha beta delta g2 std dt rest).Q k x).PosDef ↔ g2 ≠ 0 ∧ dt ≠ 0 := by
  have e : (duffingK gamma omega alpha beta delta g2 std dt rest).Q k x = _ := duffing_Q gamma omega alpha beta delta g2 std dt hdt k x
  rw [e]
  constructor
  · intro h
    have hd := h.det_pos
    rw [smul_of, det_fin_two] at hd
    simp at hd
    constructor <;> rintro rfl <;> simp at hd
  · rintro ⟨h1, h2⟩
    have h0 : 0 < dt := lt_of_le_of_ne hdt h2.symm
    have hg : 0 < g2 ^ 2 := by positivity
    refine PosDef.smul (two_posDef (by positivity) ?_) hg
    have : 0 < dt ^ 4 / 12 := by positivity
    nlinarith

theorem R_posDef (hstd : std ≠ 0) : (duffing gamma omega alpha beta delta g2 std).R.PosDef := by
  have e : (duffing gamma omega alpha beta delta g2 std).R = diagonal fun _ => std ^ 2 := by
    ext i j
    fin_cases i; fin_cases j
    rfl
  rw [e]
  exact PosDef.diagonal fun _ => by positivity

/-- **C111** (filters). With noise in states and measurements and a positive time step: whatever the measurements and whatever of them is masked, both filters and both smoothers
of the Duffing oscillator return; the smoothed covariances are positive semidefinite and not larger than the filtered ones. -/
theorem C111_filters (hg : g2 ≠ 0) (hstd : std ≠ 0) (hdt : 0 < dt) (rest : KModel 2 (Fin 1) p) {put cut : UT 2} {kappa kappa' : ℝ}
    (hput : UT.init 2 .cholesky kappa = .ok put) (hcut : UT.init 2 .cholesky kappa' = .ok cut) (hk : 0 ≤ kappa) (hk' : 0 ≤ kappa')
    (y : List (MaskedRow (Fin 1))) (hy : y ≠ []) (s : EKF 2 (Fin 1) p) (t : UKF 2 cut.nsigma put.nsigma (Fin 1) p) (hs : s.Px.PosSemidef) (ht : t.Px.PosDef) :
    let M := duffingK gamma omega alpha beta delta g2 std dt rest
    ∃ ef es uf us s' t', (EKF.cls M).filter y s = .ok (ef, s') ∧ (EKF.cls M).smooth y s = .ok (es, s') ∧ (UKF.cls put cut M).filter y t = .ok (uf, t') ∧
      (UKF.cls put cut M).smooth y t = .ok (us, t') ∧ Smoothed y.length ef es ∧ Smoothed y.length uf us := by
  intro M
  have hQ : ∀ k x, (M.Q k x).PosDef := fun k x => (C111_definite gamma omega alpha beta delta g2 std dt hdt.le rest k x).2 ⟨hg, hdt.ne'⟩
  have hR : M.R.PosDef := R_posDef gamma omega alpha beta delta g2 std hstd
  obtain ⟨es, s', h1, -⟩ := C40_ekf_returns M hQ hR y hy s hs
  obtain ⟨ef, prs, h2, -⟩ := C40_smooth _ _ _ _ _ h1
  obtain ⟨-, h3⟩ := C111_ukf_returns hput hcut hk hk' M hQ hR y t ht
  obtain ⟨us, t', h3⟩ := h3 hy
  obtain ⟨uf, prs', h4, -⟩ := C40_smooth _ _ _ _ _ h3
  refine ⟨ef, es, uf, us, s', t', h2, h1, h4, h3, ?_, ?_⟩
  · obtain ⟨a, b, c⟩ := C89_ekf M (fun k x => (hQ k x).posSemidef) hR.posSemidef y s s' s' hs ef es h2 h1
    exact ⟨a, b, fun k m mk g1 g2 => ⟨(c k m mk g1 g2).1, (c k m mk g1 g2).2.1⟩⟩
  · obtain ⟨a, b, c⟩ := C89_ukf put cut .cholesky .cholesky kappa kappa' hput hcut hk hk' trivial trivial M (fun k x => (hQ k x).posSemidef) hR.posSemidef y t t' t' ht.posSemidef uf us h4 h3
    exact ⟨a, b, fun k m mk g1 g2 => ⟨(c k m mk g1 g2).1, (c k m mk g1 g2).2.1⟩⟩

/-- **C111.** The script returns, whatever the random numbers: with noise, with outputs at each `m`-th step of the simulation, with an end after the first output, and with a positive
definite initial covariance, there are as many filtered and smoothed moments as outputs, and those are the outputs of a simulation of the discretised model. -/
theorem C111_script (hg : g2 ≠ 0) (hstd : std ≠ 0) (tf : ℝ) (m : Nat) (hm : 1 ≤ m) (hdt : 0 < dt) (htf : dt ≤ tf) (rest : KModel 2 (Fin 1) (Fin 0))
    (x0 : Fin 2 → ℝ) (Px0 : Matrix (Fin 2) (Fin 2) ℝ) (hP : Px0.PosDef) (xdraw : Fin 2 → ℝ) (w : Nat → Fin (1 + 1) → ℝ) (v : Nat → Fin 1 → ℝ) :
    ∃ d e, duffingMain gamma omega alpha beta delta g2 std tf dt (m * dt) rest x0 Px0 xdraw w v = .ok (d, e) ∧
      IsSimulation (duffing gamma omega alpha beta delta g2 std) dt xdraw w d.xsim ∧
      (∀ (j : Nat) y, d.y[j]? = some y → ∃ x, d.xsim[j * m]? = some x ∧ y 0 = x 0 + v j 0) ∧
      Smoothed (⌊tf / (m * dt)⌋₊ + 1) e.ef e.es ∧ Smoothed (⌊tf / (m * dt)⌋₊ + 1) e.uf e.us := by
  obtain ⟨d, h1, h2, -, -, -, h6, h7, h8⟩ := C104_sim (duffing gamma omega alpha beta delta g2 std) tf dt m hdt hm htf xdraw w v (fun _ _ _ => rfl)
  have hme : 0 < m * dt := mul_pos (by exact_mod_cast hm) hdt
  obtain ⟨ut, hut⟩ : ∃ ut, UT.init 2 .cholesky (0 : ℝ) = .ok ut := by
    unfold UT.init
    rw [if_neg (by norm_num)]
    exact ⟨_, rfl⟩
  have hne : (d.y.map fun r => (⟨r, fun _ => false⟩ : MaskedRow (Fin 1))) ≠ [] := by
    intro h
    have := congrArg List.length h
    rw [List.length_map, h7, h6] at this
    simp at this
  obtain ⟨ef, es, uf, us, s', t', e1, e2, e3, e4, e5, e6⟩ := C111_filters gamma omega alpha beta delta g2 std (m * dt) hg hstd hme rest hut hut le_rfl le_rfl _ hne
    ⟨startAttrs x0 Px0, none, .never⟩ ⟨startAttrs x0 Px0, none, .never⟩ hP.posSemidef hP
  refine ⟨d, ⟨ef, es, uf, us⟩, ?_, h2, fun j y hy => ?_, ?_, ?_⟩
  · unfold duffingMain
    simp only [h1, e1, e2, e3, e4, hut, py_bind_ok]
    rfl
  · have hj : j < d.test.length := by rw [← h7]; exact (List.getElem?_eq_some_iff.1 hy).1
    obtain ⟨-, -, x, g3, g4⟩ := h8 j _ y (List.getElem?_eq_getElem hj) hy
    exact ⟨x, g3, by rw [g4]; rfl⟩
  · rwa [List.length_map, h7, h6] at e5
  · rwa [List.length_map, h7, h6] at e6

/-- With the numbers of the script there are 301 outputs. -/
example (rest : KModel 2 (Fin 1) (Fin 0)) (xdraw : Fin 2 → ℝ) (w : Nat → Fin (1 + 1) → ℝ) (v : Nat → Fin 1 → ℝ) :
    ∃ d e, duffingMain 0.3 1 1 (-1) 0.2 0.1 0.1 30 0.005 0.1 rest ![-1, 1] (diagonal fun _ => 0.1 ^ 2) xdraw w v = .ok (d, e) ∧
      Smoothed 301 e.ef e.es ∧ Smoothed 301 e.uf e.us := by
  obtain ⟨d, e, h1, -, -, h2, h3⟩ := C111_script 0.3 1 1 (-1) 0.2 0.1 0.1 0.005 (by norm_num) (by norm_num) 30 20 (by norm_num) (by norm_num) (by norm_num) rest ![-1, 1]
    (diagonal fun _ => 0.1 ^ 2) (PosDef.diagonal fun _ => by norm_num) xdraw w v
  have hn : ⌊(30 : ℝ) / ((20 : ℕ) * 0.005)⌋₊ = 300 := by
    rw [Nat.floor_eq_iff (by norm_num)]
    norm_num
  rw [hn] at h2 h3
  rw [show ((20 : ℕ) : ℝ) * 0.005 = 0.1 by norm_num] at h1
  exact ⟨d, e, h1, h2, h3⟩

/-- **C111** (start). The filters start at sample zero with the given state and covariance and no likelihood. -/
theorem C111_start (x0 : Fin 2 → ℝ) (Px0 : Matrix (Fin 2) (Fin 2) ℝ) : (startAttrs x0 Px0).x = x0 ∧ (startAttrs x0 Px0).Px = Px0 ∧ (startAttrs x0 Px0).k = 0 ∧ (startAttrs x0 Px0).L = 0 :=
  ⟨rfl, rfl, rfl, rfl⟩

end Sim
end Ceacoest
