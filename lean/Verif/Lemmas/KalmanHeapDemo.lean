import Verif.Lemmas.KalmanHeap
import Verif.Lemmas.KalmanGrad
import Mathlib.Tactic.FieldSimp
import Mathlib.Tactic.LinearCombination

/-! # The gradient of one sample of a scalar filter, in numbers: `x` has variance 1, `y = x + v` with variance 3 of `v` -/

namespace Ceacoest.KHeap
open Matrix

/-- Two sigma points. -/
noncomputable def ut2 : UT 1 := ⟨0, 2, fun _ => 1 / 2, .cholesky⟩

theorem ut2_init : UT.init 1 .cholesky (0 : ℝ) = .ok ut2 := by
  have key : ∀ (n : Nat) (w : Fin n → ℝ), n = 2 → (∀ k, w k = 1 / 2) → (⟨0, n, w, .cholesky⟩ : UT 1) = ut2 := by
    rintro n w rfl h
    rw [show w = fun _ => 1 / 2 from funext h]
    rfl
  unfold UT.init
  rw [if_neg (by norm_num)]
  simp only [py_pure]
  refine congrArg Except.ok (key _ _ (by norm_num) fun k => ?_)
  norm_num

/-- The state does not move; it is measured with variance 3. -/
noncomputable def walk : KModel 1 (Fin 1) (Fin 1) where
  f _ x := x
  h _ x _ := x 0
  Q _ _ := 1
  R := of fun _ _ => 3
  df_dx _ _ _ _ := 1
  dh_dx _ _ _ _ := 1
  df_dq _ _ _ _ := 0
  dh_dq _ _ _ _ := 0
  dQ_dq _ _ _ := 0
  dQ_dx _ _ _ := 0
  dR_dq _ := 0
  d2f_dq2 _ _ _ _ _ := 0
  d2f_dx2 _ _ _ _ _ := 0
  d2f_dx_dq _ _ _ _ _ := 0
  d2h_dq2 _ _ _ _ _ := 0
  d2h_dx2 _ _ _ _ _ := 0
  d2h_dx_dq _ _ _ _ _ := 0
  d2Q_dq2 _ _ _ _ := 0
  d2Q_dx2 _ _ _ _ := 0
  d2Q_dx_dq _ _ _ _ := 0
  d2R_dq2 _ _ := 0

/-- A measurement. -/
def one (v : ℝ) : MaskedRow (Fin 1) := ⟨fun _ => v, fun _ => false⟩

instance (v : ℝ) : Unique (one v).Active := ⟨⟨⟨0, rfl⟩⟩, fun ⟨j, _⟩ => Subtype.ext (Subsingleton.elim _ _)⟩

section
variable {a : Type} [Fintype a] [LinearOrder a] [Unique a]

theorem isChol_scalar {r : ℝ} (hr : 0 < r) : IsChol (of fun (_ _ : a) => r ^ 2) (of fun (_ _ : a) => r)ᵀ where
  lower i j h := absurd (Subsingleton.elim i j) h.ne
  pos i := hr
  eq := by
    ext i j
    simp [mul_apply, Fintype.sum_unique, sq]

theorem cholU_scalar {r : ℝ} (hr : 0 < r) : cholU (of fun (_ _ : a) => r ^ 2) = .ok (of fun _ _ => r) := by
  refine cholU_of_isChol ?_
  have : lowerSym (of fun (_ _ : a) => r ^ 2) = of fun _ _ => r ^ 2 := by
    ext i j; simp [lowerSym]
  rw [this]
  exact isChol_scalar hr

theorem cholDiff_zero {p : Type} {r : ℝ} (hr : 0 < r) (dQ : p → Matrix a a ℝ) (h : ∀ b, dQ b = 0) :
    ∃ c, cholDiff (of fun (_ _ : a) => r) dQ = .ok c ∧ c.dS = 0 := by
  rw [cholDiff_ok (isChol_scalar hr)]
  refine ⟨_, rfl, ?_⟩
  funext b
  dsimp only
  rw [h b]
  ext i j
  simp [fromTril]

theorem transform_scalar (x : ℝ) : ut2.transform (fun _ => x) 1 (fun z (_ : a) => z 0) =
    .ok ⟨of fun _ _ => 1, ![fun _ => 1 + x, fun _ => -1 + x], ![fun _ => 1, fun _ => -1], ![fun _ => 1, fun _ => -1], fun _ => x, of fun _ _ => 1⟩ := by
  unfold UT.transform UT.sigmaPoints UT.sqrt ut2
  dsimp only
  have h : (((1 : ℕ) : ℝ) + 0) • (1 : Matrix (Fin 1) (Fin 1) ℝ) = of fun _ _ => (1 : ℝ) ^ 2 := by
    ext i j
    fin_cases i; fin_cases j
    simp
  rw [h, cholU_scalar one_pos]
  simp only [py_bind_ok, py_pure]
  congr 2
  · funext k i
    fin_cases k <;> simp [UT.spread]
  · funext k i
    fin_cases k <;> simp [UT.spread]
  · funext k i
    fin_cases k <;> simp [UT.spread, Fin.sum_univ_two] <;> ring
  · funext i
    simp [UT.spread, Fin.sum_univ_two]
    ring
  · ext i j
    simp [UT.spread, Fin.sum_univ_two]
    ring

theorem core_scalar (x v : ℝ) : ∃ (m : Moments 1) (d : UCorr 1 ut2.nsigma (Fin 1) a),
    UKF.core ut2 (fun _ => x) 1 (fun _ => v) (fun z (_ : a) => z 0) (of fun _ _ => 3) = .ok (m, d) ∧
      d.ut = ⟨of fun _ _ => 1, ![fun _ => 1 + x, fun _ => -1 + x], ![fun _ => 1, fun _ => -1], ![fun _ => 1, fun _ => -1], fun _ => x, of fun _ _ => 1⟩ ∧
      d.e = (fun _ => v - x) ∧ d.PyI = (of fun _ _ => 1 / 4) ∧ d.K = (of fun _ _ => 1 / 4) ∧ d.Pxh = (of fun _ _ => 1) ∧ d.PyC = (of fun _ _ => 2) := by
  unfold UKF.core
  rw [transform_scalar]
  simp only [py_bind_ok]
  have h : (of fun (_ _ : a) => (1 : ℝ)) + (of fun (_ _ : a) => (3 : ℝ)) = of fun _ _ => (2 : ℝ) ^ 2 := by
    ext i j
    norm_num
  rw [h, cholU_scalar two_pos]
  simp only [py_bind_ok]
  have hdet : (of fun (_ _ : a) => (2 : ℝ)).det = 2 := by
    rw [det_unique]; rfl
  have hinv : (of fun (_ _ : a) => (2 : ℝ))⁻¹ = of fun _ _ => 1 / 2 := by
    refine inv_eq_right_inv ?_
    ext i j
    rw [Subsingleton.elim i j]
    simp [mul_apply, Fintype.sum_unique]
  unfold npInv
  rw [if_neg (by rw [hdet]; norm_num), hinv]
  simp only [py_bind_ok, py_pure]
  have hc : ut2.crosscov (o := a) ⟨of fun _ _ => 1, ![fun _ => 1 + x, fun _ => -1 + x], ![fun _ => 1, fun _ => -1], ![fun _ => 1, fun _ => -1], fun _ => x, of fun _ _ => 1⟩
      = of fun _ _ => 1 := by
    ext i j
    unfold UT.crosscov
    rw [of_apply]
    refine (Fin.sum_univ_two (M := ℝ) _).trans ?_
    simp [Fin.sum_univ_two, ut2]
    norm_num
  refine ⟨_, _, rfl, rfl, rfl, ?_, ?_, hc, rfl⟩
  · ext i j
    simp [Fintype.sum_unique]
    norm_num
  · rw [hc]
    ext i j
    simp [Fintype.sum_unique]
    norm_num

theorem coreDiff_scalar (x v c : ℝ) {d : UCorr 1 ut2.nsigma (Fin 1) a}
    (hut : d.ut = ⟨of fun _ _ => 1, ![fun _ => 1 + x, fun _ => -1 + x], ![fun _ => 1, fun _ => -1], ![fun _ => 1, fun _ => -1], fun _ => x, of fun _ _ => 1⟩)
    (he : d.e = (fun _ => v - x)) (hI : d.PyI = (of fun _ _ => 1 / 4)) (hK : d.K = (of fun _ _ => 1 / 4)) (hx : d.Pxh = (of fun _ _ => 1)) :
    ∃ k, UKF.coreDiff ut2 d (fun _ _ _ => 0) (fun _ _ _ => 1) (fun _ => 0) (fun _ _ => c) 0 = .ok (k, (fun _ _ => c * (3 / 4)), 0) ∧
      k.de_dq = (fun _ _ => -c) ∧ k.dPyI_dq = 0 ∧ k.dPy_dq = 0 := by
  have ht : ut2.transform (fun _ => x) 1 (fun z (_ : a) => z 0) = .ok d.ut := by rw [hut]; exact transform_scalar x
  obtain ⟨k, dx', dP', hk⟩ := coreDiff_of rfl ht (fun _ (_ : Fin 1) _ => 0) (fun _ _ _ => 1) (fun _ => 0) (fun _ _ => c) 0
  have S := coreDiff_spec hk
  have D := diff_spec S.ut
  obtain ⟨ch, h1, h2⟩ := cholDiff_zero (a := Fin 1) one_pos (fun b : Fin 1 => (((1 : ℕ) : ℝ) + ut2.kappa) • (0 : Fin 1 → Matrix (Fin 1) (Fin 1) ℝ) b) (fun b => by simp)
  have hS : d.ut.S = of fun _ _ => 1 := by rw [hut]
  have hch : k.ut.chol = ch := by
    have := D.chol.2
    rw [hS, h1] at this
    exact (Except.ok.inj this).symm
  have hdi : k.ut.didev = 0 := by
    rw [D.didev, hch, h2]
    funext i j l
    unfold UT.spread
    split
    · rfl
    · split
      · exact neg_zero
      · rfl
  have hds : ∀ i b j, k.ut.disigma i b j = c := by
    intro i b j
    rw [D.disigma, hdi]
    exact zero_add _
  have hdo : k.ut.do_dq = fun _ _ => c := by
    funext b j
    rw [D.do_dq]
    simp only [hds]
    refine (Fin.sum_univ_two (M := ℝ) _).trans ?_
    simp [ut2]
    ring
  have hdd : k.ut.dodev = 0 := by
    funext i b j
    rw [D.dodev, hdo]
    simp [hds]
  have hdP : k.dPy_dq = 0 := by
    funext b
    rw [S.dPy]
    ext i j
    simp [D.dPo, hdd]
  have hdI : k.dPyI_dq = 0 := by
    funext b
    rw [S.dPyI, hdP]
    simp
  have hde : k.de_dq = fun _ _ => -c := by
    funext b
    rw [S.de, hdo]
    rfl
  have hdx : k.dPxh_dq = 0 := by
    rw [S.dPxh]
    funext b
    ext i j
    simp [UT.crosscovDiff, hdi, hdd]
  have hdK : k.dK_dq = 0 := by
    funext b
    rw [S.dK, hdI, hdx]
    simp
  refine ⟨k, ?_, hde, hdI, hdP⟩
  rw [hk]
  have e1 : dx' = fun _ _ => c * (3 / 4) := by
    funext b i
    rw [S.dx', hdK, hde, hK]
    simp [mulVec, dotProduct, Fintype.sum_unique]
    ring
  have e2 : dP' = 0 := by
    funext b
    rw [S.dP', hdK, hdP]
    simp
  rw [e1, e2]

end

/-- A filter with mean 0, variance 1, the derivative `c` of the mean and the derivative `g` of the likelihood. -/
noncomputable def start (c g : ℝ) : UKF 1 ut2.nsigma ut2.nsigma (Fin 1) (Fin 1) :=
  { x := fun _ => 0, Px := 1, k := 0, L := 0, dL_dq := fun _ => g, d2L_dq2 := 0, dx_dq := fun _ _ => c, dPx_dq := 0, d2x_dq2 := 0, d2Px_dq2 := 0 }

theorem runs_two {nx : Nat} {o p : Type} [LinearOrder o] [Fintype o] {put cut : UT nx} {model : KModel nx o p} {c d : Call o}
    {s s₁ s₂ : UKF nx cut.nsigma put.nsigma o p} (h1 : c.run put cut model s = .ok s₁) (h2 : d.run put cut model s₁ = .ok s₂) :
    runs put cut model [c, d] s = .ok s₂ := by
  rw [runs_cons, h1]
  change runs put cut model [d] s₁ = _
  rw [runs_cons, h2]
  rfl

/-- The gradient of one sample. -/
theorem gradient_scalar (v c g : ℝ) : ∃ s₁ s, runs ut2 ut2 walk [.correct (one v), .correctionDiff] (start c g) = .ok s₁ ∧
    runs ut2 ut2 walk [.updateLikelihood, .likelihoodDiff] s₁ = .ok s ∧
    (s₁.dx_dq = fun _ _ => c * (3 / 4)) ∧ s₁.dPx_dq = 0 ∧ s.dL_dq = fun _ => g + c * v / 4 := by
  obtain ⟨m, d, hd, hut, he, hI, hK, hx, hC⟩ := core_scalar (a := (one v).Active) 0 v
  obtain ⟨k, hk, hde, hdI, hdP⟩ := coreDiff_scalar 0 v c hut he hI hK hx
  obtain ⟨ch, hch, hc0⟩ := cholDiff_zero (a := (one v).Active) two_pos k.dPy_dq (fun b => congrFun hdP b)
  have h1 : Call.run ut2 ut2 walk (.correct (one v)) (start c g) = .ok { start c g with x := m.1, Px := m.2, last := .data (one v) d } := by
    change (UKF.correct ut2 walk (one v) (start c g)).bind _ = _
    unfold UKF.correct
    rw [if_neg (fun h => by cases h 0)]
    have hd' : UKF.core (p := Fin 1) ut2 (start c g).x (start c g).Px (fun j : (one v).Active => (one v).data j.1) (fun x j => walk.h (start c g).k x j.1)
      (of fun i j => walk.R i.1 j.1) = .ok (m, d) := hd
    exact (congrArg (fun r => Except.bind (Except.bind r _) _) hd').trans rfl
  have h2 : Call.run ut2 ut2 walk .correctionDiff { start c g with x := m.1, Px := m.2, last := .data (one v) d } =
      .ok { start c g with x := m.1, Px := m.2, dx_dq := fun _ _ => c * (3 / 4), dPx_dq := 0, last := .data (one v) { d with diff := some k } } := by
    change (UKF.coreDiff ut2 d _ _ _ _ _).bind _ = _
    have hk' : UKF.coreDiff ut2 d (fun x a j => walk.dh_dq (start c g).k x a j.1) (fun x i j => walk.dh_dx (start c g).k x i j.1)
      (fun a => of fun i j => walk.dR_dq a i.1 j.1) (start c g).dx_dq (start c g).dPx_dq = .ok (k, (fun _ _ => c * (3 / 4)), 0) := hk
    exact (congrArg (fun r => Except.bind r _) hk').trans rfl
  have h3 : Call.run ut2 ut2 walk .updateLikelihood { start c g with x := m.1, Px := m.2, dx_dq := fun _ _ => c * (3 / 4), dPx_dq := 0, last := .data (one v) { d with diff := some k } } =
      .ok { start c g with x := m.1, Px := m.2, dx_dq := fun _ _ => c * (3 / 4), dPx_dq := 0, L := 0 - 0.5 * ∑ i, ∑ j, d.e i * d.PyI i j * d.e j - ∑ k, Real.log (d.PyC k k), last := .data (one v) { d with diff := some k, PyCD := some fun k => d.PyC k k } } := rfl
  have hch' : cholDiff d.PyC k.dPy_dq = .ok ch := by rw [hC]; exact hch
  have h4 : Call.run ut2 ut2 walk .likelihoodDiff { start c g with x := m.1, Px := m.2, dx_dq := fun _ _ => c * (3 / 4), dPx_dq := 0, L := 0 - 0.5 * ∑ i, ∑ j, d.e i * d.PyI i j * d.e j - ∑ k, Real.log (d.PyC k k), last := .data (one v) { d with diff := some k, PyCD := some fun k => d.PyC k k } } =
      .ok { start c g with x := m.1, Px := m.2, dx_dq := fun _ _ => c * (3 / 4), dPx_dq := 0, L := 0 - 0.5 * ∑ i, ∑ j, d.e i * d.PyI i j * d.e j - ∑ k, Real.log (d.PyC k k), dL_dq := fun a => g - ∑ k, ch.dS a k k / d.PyC k k - ∑ i, ∑ j, k.de_dq a i * d.PyI i j * d.e j - 0.5 * ∑ i, ∑ j, d.e i * k.dPyI_dq a i j * d.e j, last := .data (one v) { d with diff := some k, PyCD := some fun k => d.PyC k k, chol := some ch } } := by
    unfold Call.run UKF.likelihoodDiff
    dsimp only
    rw [hch']
    rfl
  refine ⟨_, _, runs_two h1 h2, runs_two h3 h4, rfl, rfl, ?_⟩
  · funext b
    dsimp only
    rw [hc0, hde, hI, he, hdI]
    simp [Fintype.sum_unique]
    ring

end Ceacoest.KHeap
