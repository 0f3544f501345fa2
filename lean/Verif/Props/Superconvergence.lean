import Verif.Lemmas.Superconvergence
import Verif.Props.ConvergenceOEM
import Verif.Props.ExamplesEstimation

/-! # C86: for linear systems, the states at the ends of the pieces have errors of the order `2 N`, with `N + 1` points in each piece -/

namespace Ceacoest
open Polynomial Spec RK
variable {X : Type}

/-- **C86.** An optimal control model, linear in its states, with inputs that are polynomials of degree at most `N + 1` on each piece: at the ends of the pieces, the states of a
decision vector without defects differ from those of the process by at most `meshError`, of the order `h ^ (2 N)`. -/
theorem C86_oc {A : SymArith X} {ev : X → Env → ℝ} (hA : ArithOK A ev) (U : OCUser X) (F : OCFunctions) {xn un pn : List String} {ng nh N : Nat}
    (hU : OCDenotes ev U F xn.length un.length pn.length ng nh) (hN : (N : Int) + 1 = U.order) (hN1 : 1 ≤ N) {vars : Dict String SymVar}
    (hv : ColVars vars xn un pn) {decision : List String}
    (hd : DecisionOK vars ["x", "u", "p", "xp", "up", "xe"] ["piece_len"] decision) {iter : String → List String} (hi : OrdersOK iter ocWrt) :
    ∃ c, symocInit A U iter vars decision = .ok c ∧ ∀ codegen : SymFn X → List (NDArray ℝ) → NDArray ℝ,
      (∀ name g, Dict.get? c.model.funcs name = some g → CodegenOK ev (shapeOf c.vars) codegen g) →
      ∃ m, symocGen codegen U c = .ok m ∧ ∀ (t : NDArray ℝ) (P : Nat), 1 ≤ P → t.shape = [P + 1] → t.WF → t.data.Pairwise (· < ·) →
      ∃ q, ocProblem m t = .ok q ∧ ∀ z v p, Process F t.data P xn.length un.length pn.length z v p →
        ∀ (S : Nat → Nat → ℝ) (a e0 B h : ℝ), 0 ≤ a → 0 ≤ e0 → 0 ≤ B → RowSums S xn.length a → LinearOn F.f t.data P xn.length (N + 1) S v p →
          (∀ i < P, t.data.getD (i + 1) 0 - t.data.getD i 0 ≤ h) → h * a ≤ 1 / 3 →
          (∀ i < P, ∀ j < xn.length, ∀ s ∈ pieceOf t.data i,
            |iteratedDerivWithin (N + 1) (fun s => (F.f (z s) (v s) p).getD j 0) (pieceOf t.data i) s| ≤ B) →
        ∀ d cv : List ℝ, d.length = q.prob.ndec → q.prob.constr d = .ok cv → (∀ k < P * (N * xn.length), cv.getD k 0 = 0) →
          (∀ i < P, ∀ l ≤ N, ocU P N xn.length un.length d (i * N + l) = v (pointTime t.data c.col.points i l)) →
          ocP P N xn.length un.length pn.length d = p →
          (∀ j < xn.length, |(ocX xn.length d 0).getD j 0 - (z (t.data.getD 0 0)).getD j 0| ≤ e0) →
          ∀ i ≤ P, ∀ j < xn.length,
            |(ocX xn.length d (i * N)).getD j 0 - (z (t.data.getD i 0)).getD j 0| ≤ meshError a B e0 h N t.data (t.data.getD i 0) := by
  obtain ⟨c, h1, h2, h3⟩ := C70_oc hA U F hU hN hN1 hv hd hi
  refine ⟨c, h1, fun codegen hcg => ?_⟩
  obtain ⟨m, s, g1, -, -, -, -, -, h4⟩ := h3 codegen hcg
  refine ⟨m, g1, fun t P hP hs hw hinc => ?_⟩
  obtain ⟨q, q1, q2, q3⟩ := h4 t P hP hs hw hinc
  have hl : t.data.length = P + 1 := by rw [hw, hs]; simp
  have ht := pairwise_getD hl hinc
  obtain ⟨hpo, hK⟩ := lgl_points_ok hN1 hN h2
  refine ⟨q, q1, fun z v p hpr S a e0 B h ha he0 hB0 hS hlin hh hsmall hB d cv hdl hcv hzero hu hp he => ?_⟩
  obtain rfl := Except.ok.inj ((q3 d hdl).2.1.symm.trans hcv)
  rw [oc_defects hl, hp] at hzero
  refine mesh_error hpo hK ht (x := ocX xn.length d) (fun r => ocX_length ..) (f := F.f) (v := v) (p := p) (fun i hi => ?_) ha hS hlin hpr.lenx
    hpr.ode hh hsmall hB0 hB he he0
  have := hzero i hi
  rwa [defects_rows (rhs' := fun l => F.f (ocX xn.length d (i * N + l)) (v (pointTime t.data c.col.points i l)) p) (fun l hl => by rw [hu i hi l hl])
    fun l _ => rfl] at this

/-- **C86** for output error models. The measurements are at the ends of the pieces, so that the error of the log-likelihood is of the order `h ^ (2 N)` too. -/
theorem C86_oem {A : SymArith X} {ev : X → Env → ℝ} (hA : ArithOK A ev) (U : OEMUser X) (F : OEMFunctions) {xn un pn yn : List String} {N : Nat}
    (hU : OEMDenotes ev U F xn.length un.length pn.length yn.length) (hN : (N : Int) + 1 = U.order) (hN1 : 1 ≤ N) {vars : Dict String SymVar}
    (hv : ColVars vars xn un pn) (hy : Dict.get? vars "y" = some (.vec yn)) {decision : List String}
    (hd : DecisionOK vars ["x", "p", "xp"] ["y", "u", "up", "piece_len"] decision) {iter : String → List String} (hi : OrdersOK iter oemWrt) :
    ∃ c, symoemInit A U.order (oemMethods A U) iter vars decision = .ok c ∧ ∀ codegen : SymFn X → List (NDArray ℝ) → NDArray ℝ,
      (∀ name g, Dict.get? c.model.funcs name = some g → CodegenOK ev (shapeOf c.vars) codegen g) →
      ∃ m, symoemGen codegen U.order c = .ok m ∧
      ∀ (t : NDArray ℝ) (y : MaskedArray) (u : UArg) (ua : NDArray ℝ) (P : Nat), OEMInput m t y P → InputsOK m t u ua →
      ∃ q rows, oemProblem ColProblem.initVars m t y u = .ok q ∧ MeasuredRows y.mask (P + 1) yn.length rows ∧
        ∀ d cv : List ℝ, d.length = q.prob.ndec → q.prob.constr d = .ok cv → (∀ a ∈ cv, a = 0) →
        ∀ p, rowAt d ((P * N + 1) * xn.length) pn.length 0 = p → ∀ z v : ℝ → List ℝ, (∀ s, (z s).length = xn.length) →
          (∀ i < P, ∀ s ∈ pieceOf t.data i, ∀ j < xn.length,
            HasDerivWithinAt (fun s => (z s).getD j 0) ((F.f (z s) (v s) p).getD j 0) (pieceOf t.data i) s) →
          (∀ i < P, ∀ l ≤ N, v (pointTime t.data c.col.points i l) = rowAt ua.data 0 un.length (i * N + l)) →
        ∀ (S : Nat → Nat → ℝ) (a e0 B h : ℝ), 0 ≤ a → 0 ≤ e0 → 0 ≤ B → RowSums S xn.length a → LinearOn F.f t.data P xn.length (N + 1) S v p →
          (∀ i < P, t.data.getD (i + 1) 0 - t.data.getD i 0 ≤ h) → h * a ≤ 1 / 3 →
          (∀ i < P, ∀ j < xn.length, ∀ s ∈ pieceOf t.data i,
            |iteratedDerivWithin (N + 1) (fun s => (F.f (z s) (v s) p).getD j 0) (pieceOf t.data i) s| ≤ B) →
          (∀ j < xn.length, |(rowAt d 0 xn.length 0).getD j 0 - (z (t.data.getD 0 0)).getD j 0| ≤ e0) →
          (∀ k ≤ P, ∀ j < xn.length,
            |(rowAt d 0 xn.length (k * N)).getD j 0 - (z (t.data.getD k 0)).getD j 0| ≤ meshError a B e0 h N t.data (t.data.getD k 0)) ∧
          ∀ (T : Set (List ℝ)) (LL : ℝ),
            (∀ k ∈ rows, LipschitzOn (fun x => [F.L (rowAt y.arr.data 0 yn.length k) x (rowAt ua.data 0 un.length (k * N)) p]) T xn.length 1 LL) →
            (∀ k ∈ rows, rowAt d 0 xn.length (k * N) ∈ T ∧ z (t.data.getD k 0) ∈ T) →
            ∃ cost, q.prob.obj d = .ok cost ∧
              |cost - (rows.map fun k => F.L (rowAt y.arr.data 0 yn.length k) (z (t.data.getD k 0)) (rowAt ua.data 0 un.length (k * N)) p).sum| ≤
                (rows.map fun k => LL * meshError a B e0 h N t.data (t.data.getD k 0)).sum := by
  obtain ⟨c, h1, h2, h3⟩ := C70_oem hA U F hU hN hN1 hv hy hd hi
  refine ⟨c, h1, fun codegen hcg => ?_⟩
  obtain ⟨m, s, g1, -, -, -, -, -, h4⟩ := h3 codegen hcg
  refine ⟨m, g1, fun t y u ua P hin hua => ?_⟩
  obtain ⟨q, rows, q1, qr, q2, q3⟩ := h4 t y u ua P hin hua
  have hl : t.data.length = P + 1 := by rw [hin.twf, hin.tshape]; simp
  have ht := pairwise_getD hl hin.tinc
  obtain ⟨hpo, hK⟩ := lgl_points_ok hN1 hN h2
  refine ⟨q, rows, q1, qr, fun d cv hdl hcv hzero p hp z v hzl hode hvu S a e0 B h ha he0 hB0 hS hlin hh hsmall hB he => ?_⟩
  obtain rfl := Except.ok.inj ((q3 d hdl).2.1.symm.trans hcv)
  rw [oem_defects hl, hp] at hzero
  have herr := mesh_error hpo hK ht (x := rowAt d 0 xn.length) (fun r => rowAt_length ..) (f := F.f) (v := v) (p := p) (fun i hi => by
    have := hzero i hi
    rwa [defects_rows (rhs' := fun l => F.f (rowAt d 0 xn.length (i * N + l)) (v (pointTime t.data c.col.points i l)) p)
      (fun l hl => by rw [hvu i hi l hl]) fun l _ => rfl] at this) ha hS hlin hzl hode hh hsmall hB0 hB he he0
  refine ⟨herr, fun T LL hLL hT => ⟨_, (q3 d hdl).1, ?_⟩⟩
  rw [hp, logLikelihood]
  have hkP : ∀ k ∈ rows, k ≤ P := fun k hk => by have := ((qr.2 k).1 hk).1; omega
  have hrow : ∀ k ∈ rows, |F.L (rowAt y.arr.data 0 yn.length k) (rowAt d 0 xn.length (k * N)) (rowAt ua.data 0 un.length (k * N)) p -
      F.L (rowAt y.arr.data 0 yn.length k) (z (t.data.getD k 0)) (rowAt ua.data 0 un.length (k * N)) p| ≤
      LL * meshError a B e0 h N t.data (t.data.getD k 0) := fun k hk =>
    hLL k hk _ (hT k hk).1 _ (hT k hk).2 _ (herr k (hkP k hk)) 0 (by omega)
  clear * - hrow
  induction rows with
  | nil => simp
  | cons k rows ih =>
    simp only [List.map_cons, List.sum_cons]
    have h1 := hrow k (by simp)
    have h2 := ih fun k hk => hrow k (by simp [hk])
    rw [abs_le] at *
    constructor <;> linarith [h1.1, h1.2, h2.1, h2.2]

/-! ### The ATTAS short period -/

namespace Attas

/-- The matrix of the short period, for the states (pitch rate, angle of attack). -/
def stateMatrix (p : List ℝ) (j k : Nat) : ℝ :=
  if j = 0 then (if k = 0 then p.getD 6 0 else p.getD 5 0) else if k = 0 then p.getD 2 0 + 1 else p.getD 1 0

theorem linear {t : List ℝ} {P : Nat} {de : ℝ → ℝ} (hde : PiecewisePoly t P 3 de) (p : List ℝ) :
    LinearOn functions.f t P 2 3 (stateMatrix p) (fun s => [de s]) p := by
  intro i hi
  obtain ⟨b, hb, hbe⟩ := hde i hi
  refine ⟨fun j => if j = 0 then C (p.getD 4 0) + C (p.getD 7 0) * b else C (p.getD 0 0) + C (p.getD 3 0) * b, fun j hj => ⟨?_, fun s hs x hx => ?_⟩⟩
  · dsimp only
    split_ifs <;>
    · refine (natDegree_add_le _ _).trans (max_le (by simp) ?_)
      exact (natDegree_C_mul_le _ _).trans hb
  · rw [Finset.sum_range_succ, Finset.sum_range_one]
    obtain rfl | rfl : j = 0 ∨ j = 1 := by omega
    · simp [functions, stateMatrix, hbe s hs]
      ring
    · simp [functions, stateMatrix, hbe s hs]
      ring

end Attas

open Attas in
/-- **C86.** The ATTAS example, with an elevator that is a polynomial of degree at most 3 on each piece: a decision vector without defects has, at the times of the measurements, the
pitch rate and the angle of attack of the short period with its parameters, with an error of the order `h ^ 4`. -/
theorem C86_attas {iter : String → List String} (hi : OrdersOK iter oemWrt) :
    ∃ c, symoemInit SExpr.arith 3 (oemMethods SExpr.arith attas) iter attasVars [] = .ok c ∧
      ∃ m, symoemGen (exprCode (shapeOf c.vars)) 3 c = .ok m ∧ m.collocationOrder = 3 ∧ m.nu = 1 ∧ m.ny = 2 ∧
      ∀ (t : NDArray ℝ) (y : MaskedArray) (u : UArg) (ua : NDArray ℝ) (P : Nat), OEMInput m t y P → InputsOK m t u ua →
      ∃ q, oemProblem ColProblem.initVars m t y u = .ok q ∧
        ∀ d cv : List ℝ, d.length = q.prob.ndec → q.prob.constr d = .ok cv → (∀ a ∈ cv, a = 0) →
        ∀ p : Nat → ℝ, (∀ i < 10, p i = d.getD ((P * 2 + 1) * 2 + i) 0) →
        ∀ pitch alpha de : ℝ → ℝ, PiecewisePoly t.data P 3 de → (∀ i < P, ∀ l ≤ 2, de (pointTime t.data c.col.points i l) = ua.data.getD (i * 2 + l) 0) →
          (∀ i < P, ∀ s ∈ pieceOf t.data i,
            HasDerivWithinAt pitch (p 4 + p 5 * alpha s + p 6 * pitch s + p 7 * de s) (pieceOf t.data i) s ∧
            HasDerivWithinAt alpha (p 0 + p 1 * alpha s + (p 2 + 1) * pitch s + p 3 * de s) (pieceOf t.data i) s) →
          pitch (t.data.getD 0 0) = d.getD 0 0 → alpha (t.data.getD 0 0) = d.getD 1 0 →
        ∀ a B h : ℝ, |p 6| + |p 5| ≤ a → |p 2 + 1| + |p 1| ≤ a → 0 ≤ B →
          (∀ i < P, t.data.getD (i + 1) 0 - t.data.getD i 0 ≤ h) → h * a ≤ 1 / 3 →
          (∀ i < P, ∀ s ∈ pieceOf t.data i,
            |iteratedDerivWithin 3 (fun s => p 4 + p 5 * alpha s + p 6 * pitch s + p 7 * de s) (pieceOf t.data i) s| ≤ B ∧
            |iteratedDerivWithin 3 (fun s => p 0 + p 1 * alpha s + (p 2 + 1) * pitch s + p 3 * de s) (pieceOf t.data i) s| ≤ B) →
          ∀ k ≤ P, |d.getD (k * 4) 0 - pitch (t.data.getD k 0)| ≤
              Real.exp (2 * a * (t.data.getD k 0 - t.data.getD 0 0)) * (t.data.getD k 0 - t.data.getD 0 0) * (B * a / 192) * h ^ 4 ∧
            |d.getD (k * 4 + 1) 0 - alpha (t.data.getD k 0)| ≤
              Real.exp (2 * a * (t.data.getD k 0 - t.data.getD 0 0)) * (t.data.getD k 0 - t.data.getD 0 0) * (B * a / 192) * h ^ 4 := by
  have hdec : DecisionOK attasVars ["x", "p", "xp"] ["y", "u", "up", "piece_len"] [] := by unfold DecisionOK; decide
  obtain ⟨c, h1, -, m, h3, m1, -, m3, -, m5, -⟩ := C70_oem_expr_at attas definedOn functions (xn := ["q", "alpha"]) (un := ["de"]) (pn := pn)
    (yn := ["q_meas", "alpha_meas"]) (N := 2) denotes rfl (by decide) vars_ok rfl hdec hi
  obtain ⟨c', k1, k2⟩ := C86_oem arith_ok attas functions (xn := ["q", "alpha"]) (un := ["de"]) (pn := pn)
    (yn := ["q_meas", "alpha_meas"]) (N := 2) denotes rfl (by decide) vars_ok rfl hdec hi
  obtain rfl : c = c' := Except.ok.inj (h1.symm.trans k1)
  obtain ⟨m', k3, k4⟩ := k2 (exprCode (shapeOf c.vars)) fun _ g _ => C66_expr_code _ g
  obtain rfl : m = m' := Except.ok.inj (h3.symm.trans k3)
  refine ⟨c, h1, m, h3, m1, m3, m5, fun t y u ua P hin hu => ?_⟩
  obtain ⟨q, rows, q1, -, q3⟩ := k4 t y u ua P hin hu
  refine ⟨q, q1, fun d cv hdl hcv hzero p hp pitch alpha de hde hua hode hp0 ha0 a B h ha ha' hB hh hsmall hder k hk => ?_⟩
  have hpr : ∀ i < 10, (rowAt d ((P * 2 + 1) * 2) 10 0).getD i 0 = p i := fun i hi => by
    rw [hp i hi, rowAt_getD hi]
    congr 1
    omega
  have ef0 : ∀ s, (functions.f [pitch s, alpha s] [de s] (rowAt d ((P * 2 + 1) * 2) 10 0)).getD 0 0 = p 4 + p 5 * alpha s + p 6 * pitch s + p 7 * de s := fun s => by
    rw [← hpr 4 (by decide), ← hpr 5 (by decide), ← hpr 6 (by decide), ← hpr 7 (by decide)]; rfl
  have ef1 : ∀ s, (functions.f [pitch s, alpha s] [de s] (rowAt d ((P * 2 + 1) * 2) 10 0)).getD 1 0 = p 0 + p 1 * alpha s + (p 2 + 1) * pitch s + p 3 * de s := fun s => by
    rw [← hpr 0 (by decide), ← hpr 1 (by decide), ← hpr 2 (by decide), ← hpr 3 (by decide)]; rfl
  have hsum : RowSums (stateMatrix (rowAt d ((P * 2 + 1) * 2) 10 0)) 2 a := by
    intro j hj
    rw [Finset.sum_range_succ, Finset.sum_range_one]
    obtain rfl | rfl : j = 0 ∨ j = 1 := by omega
    · simp only [stateMatrix, if_true, one_ne_zero, if_false]
      rwa [hpr 6 (by decide), hpr 5 (by decide)]
    · simp only [stateMatrix, if_true, one_ne_zero, if_false]
      rwa [hpr 2 (by decide), hpr 1 (by decide)]
  have ha00 : 0 ≤ a := le_trans (by positivity) ha
  have hmain := (q3 d cv hdl hcv hzero _ rfl (fun s => [pitch s, alpha s]) (fun s => [de s]) (fun _ => rfl) (fun i hi s hs j hj => by
      rcases (show j = 0 ∨ j = 1 from by have : j < 2 := hj; omega) with rfl | rfl
      · exact (hode i hi s hs).1.congr_deriv (ef0 s).symm
      · exact (hode i hi s hs).2.congr_deriv (ef1 s).symm)
    (fun i hi l hl => by
      rw [hua i hi l hl]
      change _ = [_]
      simp)
    (stateMatrix (rowAt d ((P * 2 + 1) * 2) 10 0)) a 0 B h ha00 le_rfl hB hsum (linear hde _) hh hsmall (fun i hi j hj s hs => by
      rcases (show j = 0 ∨ j = 1 from by have : j < 2 := hj; omega) with rfl | rfl
      · have h := (hder i hi s hs).1
        rw [← funext ef0] at h
        exact h
      · have h := (hder i hi s hs).2
        rw [← funext ef1] at h
        exact h)
    (fun j hj => by
      rcases (show j = 0 ∨ j = 1 from by have : j < 2 := hj; omega) with rfl | rfl
      · change |d.getD (0 + (0 * 2 + 0)) 0 - pitch _| ≤ 0
        rw [hp0]; simp
      · change |d.getD (0 + (0 * 2 + 1)) 0 - alpha _| ≤ 0
        rw [ha0]; simp)).1 k hk
  have e : meshError a B 0 h 2 t.data (t.data.getD k 0) =
      Real.exp (2 * a * (t.data.getD k 0 - t.data.getD 0 0)) * (t.data.getD k 0 - t.data.getD 0 0) * (B * a / 192) * h ^ 4 := by
    rw [meshError]
    norm_num [Nat.factorial]
    ring
  rw [← e]
  have m0 := hmain 0 (by decide)
  have m1 := hmain 1 (by decide)
  change |(rowAt d 0 2 (k * 2)).getD 0 0 - _| ≤ _ at m0
  change |(rowAt d 0 2 (k * 2)).getD 1 0 - _| ≤ _ at m1
  rw [rowAt_getD (by decide)] at m0 m1
  rw [show 0 + (k * 2 * 2 + 0) = k * 4 by omega] at m0
  rw [show 0 + (k * 2 * 2 + 1) = k * 4 + 1 by omega] at m1
  exact ⟨m0, m1⟩

/-! ### An example: a mass on a spring -/

namespace Spring
open SExpr

/-- The state is (position, speed), the input is a force. -/
noncomputable def user : OCUser SExpr where
  order := 3
  f x u _ := [x.getD 1 (const 0), add (mul (const (-1)) (x.getD 0 (const 0))) (u.getD 0 (const 0))]
  L _ u _ := mul (u.getD 0 (const 0)) (u.getD 0 (const 0))
  M _ _ := const 0
  g _ _ _ := []
  h xe _ := [xe.getD 0 (const 0)]

noncomputable def functions : OCFunctions where
  f x u _ := [x.getD 1 0, -x.getD 0 0 + u.getD 0 0]
  L _ u _ := u.getD 0 0 ^ 2
  M _ _ := 0
  g _ _ _ := []
  h xe _ := [xe.getD 0 0]

theorem denotes : OCDenotes ev user functions 2 1 0 0 1 where
  lenf := fun _ _ _ _ _ _ => rfl
  leng := fun _ _ _ _ _ _ => rfl
  lenh := fun _ _ _ _ => rfl
  f := fun x u p env _ _ _ => by
    simp only [user, functions, List.map_cons, List.map_nil, ev, Pendulum.getD_map_ev]
    congr 2; ring
  L := fun x u p env _ _ _ => by simp only [user, functions, ev, Pendulum.getD_map_ev]; ring
  M := fun xe p env _ _ => rfl
  g := fun x u p env _ _ _ => rfl
  h := fun xe p env _ _ => by simp only [user, functions, List.map_cons, List.map_nil, Pendulum.getD_map_ev]

def vars : Dict String SymVar := [("x", .vec ["pos", "speed"]), ("u", .vec ["force"]), ("p", .vec [])]

theorem vars_ok : ColVars vars ["pos", "speed"] ["force"] [] where
  keys := by decide
  x := rfl
  u := Or.inl rfl
  p := Or.inl rfl
  pieceLen := fun v h => by cases h

/-- A free oscillation. -/
noncomputable def wave (s : ℝ) : List ℝ := [Real.sin s, Real.cos s]

theorem wave_rhs (s : ℝ) : functions.f (wave s) [0] [] = [Real.cos s, -Real.sin s] := by
  simp [functions, wave]

theorem wave_process (t : List ℝ) (P : Nat) : Process functions t P 2 1 0 wave (fun _ => [0]) [] where
  lenx := fun _ => rfl
  lenu := fun _ => rfl
  lenp := rfl
  cont := fun j hj => by
    rcases (show j = 0 ∨ j = 1 by omega) with rfl | rfl
    · exact Real.continuous_sin
    · exact Real.continuous_cos
  ode := fun i _ s _ j hj => by
    rw [wave_rhs]
    rcases (show j = 0 ∨ j = 1 by omega) with rfl | rfl
    · exact (Real.hasDerivAt_sin s).hasDerivWithinAt
    · exact (Real.hasDerivAt_cos s).hasDerivWithinAt

def stateMatrix (j k : Nat) : ℝ := if j = 0 then (if k = 0 then 0 else 1) else if k = 0 then -1 else 0

theorem linear (t : List ℝ) (P : Nat) : LinearOn functions.f t P 2 3 stateMatrix (fun _ => [0]) [] := by
  intro i _
  refine ⟨fun _ => 0, fun j hj => ⟨by simp, fun s _ x hx => ?_⟩⟩
  rw [Finset.sum_range_succ, Finset.sum_range_one]
  obtain rfl | rfl : j = 0 ∨ j = 1 := by omega
  · simp [functions, stateMatrix]
  · simp [functions, stateMatrix]

theorem rowSums : RowSums stateMatrix 2 1 := by
  intro j hj
  rw [Finset.sum_range_succ, Finset.sum_range_one]
  obtain rfl | rfl : j = 0 ∨ j = 1 := by omega
  · simp [stateMatrix]
  · simp [stateMatrix]

theorem lipschitz : LipschitzOn (functions.f · [0] []) {x | x.length = 2} 2 2 1 := by
  intro x _ x' _ E hE j hj
  have h0 := hE 0 (by omega)
  have h1 := hE 1 (by omega)
  rw [one_mul]
  obtain rfl | rfl : j = 0 ∨ j = 1 := by omega
  · exact h1
  · show |(-x.getD 0 0 + 0) - (-x'.getD 0 0 + 0)| ≤ E
    rw [abs_le] at *
    constructor <;> linarith [h0.1, h0.2]

/-- For all meshes of `[0, 1]` with pieces no longer than `h`, for small `h`, the program has a unique point without defects with the initial state of the oscillation and no force. At
the ends of the pieces, it differs from the oscillation by at most `exp 2 / 192 * h ^ 4`, with three points in each piece. -/
example : ∃ c, symocInit SExpr.arith user Pendulum.iter vars ["xe"] = .ok c ∧ ∃ m, symocGen (exprCode (shapeOf c.vars)) user c = .ok m ∧
    ∃ h0 : ℝ, 0 < h0 ∧ ∀ (h : ℝ) (t : NDArray ℝ) (P : Nat), h ≤ h0 → 1 ≤ P → t.shape = [P + 1] → t.WF → t.data.Pairwise (· < ·) →
      t.data.getD 0 0 = 0 → t.data.getD P 0 = 1 → (∀ i < P, t.data.getD (i + 1) 0 - t.data.getD i 0 ≤ h) →
      ∃ q, ocProblem m t = .ok q ∧
        ∃! d : List ℝ, (d.length = q.prob.ndec ∧ ocX 2 d 0 = [0, 1] ∧ (∀ r ≤ P * 2, ocU P 2 2 1 d r = [0]) ∧ ocP P 2 2 1 0 d = [] ∧
          ∃ cv, q.prob.constr d = .ok cv ∧ ∀ k < P * (2 * 2), cv.getD k 0 = 0) ∧
          ∀ i ≤ P, ∀ j < 2, |(ocX 2 d (i * 2)).getD j 0 - (wave (t.data.getD i 0)).getD j 0| ≤ Real.exp 2 / 192 * h ^ 4 := by
  obtain ⟨c, h1, h2⟩ := C76_exists arith_ok user functions (xn := ["pos", "speed"]) (un := ["force"]) (pn := []) (N := 2)
    denotes rfl (by decide) vars_ok (decision := ["xe"]) (by unfold DecisionOK; decide) Pendulum.iter_ok
  obtain ⟨c', h1', h2'⟩ := C86_oc arith_ok user functions (xn := ["pos", "speed"]) (un := ["force"]) (pn := []) (N := 2)
    denotes rfl (by decide) vars_ok (decision := ["xe"]) (by unfold DecisionOK; decide) Pendulum.iter_ok
  obtain rfl : c = c' := Except.ok.inj (h1.symm.trans h1')
  obtain ⟨m, h3, h4⟩ := h2 (exprCode (shapeOf c.vars)) fun _ g _ => C66_expr_code _ g
  obtain ⟨m', h3', h4'⟩ := h2' (exprCode (shapeOf c.vars)) fun _ g _ => C66_expr_code _ g
  obtain rfl : m = m' := Except.ok.inj (h3.symm.trans h3')
  have hJ := jnorm_nonneg c.col.J 2
  refine ⟨c, h1, m, h3, min (1 / 3) (1 / (2 * (jnorm c.col.J 2 + 1))), by positivity, fun h t P hh hP hs hw hinc ht0 htP hth => ?_⟩
  obtain ⟨q, q1, q2⟩ := h4 t P hP hs hw hinc
  obtain ⟨q', q1', q2'⟩ := h4' t P hP hs hw hinc
  obtain rfl : q = q' := Except.ok.inj (q1.symm.trans q1')
  have hl : t.data.length = P + 1 := by rw [hw, hs]; simp
  have ht := pairwise_getD hl hinc
  have hh0 : 0 ≤ h := by linarith [hth 0 (by omega), ht 0 (by omega)]
  have hq : h * jnorm c.col.J 2 * 1 ≤ 1 / 2 := by
    have := mul_le_mul_of_nonneg_right (hh.trans (min_le_right _ _)) (show 0 ≤ 2 * (jnorm c.col.J 2 + 1) by positivity)
    rw [div_mul_cancel₀ _ (by positivity)] at this
    linarith
  obtain ⟨d, ⟨d1, d2, d3, d4, cv, d5, d6⟩, hu⟩ := q2 [0, 1] [] (fun _ => [0]) 1 rfl rfl (fun _ => rfl) (by norm_num) (fun r _ => lipschitz)
    (fun i hi => le_trans (by gcongr; exact hth i hi) hq)
  refine ⟨q, q1, d, ⟨⟨d1, d2, d3, d4, cv, d5, d6⟩, fun i hi j hj => ?_⟩, fun d' hd' => hu d' hd'.1⟩
  have d2' : ocX 2 d 0 = [0, 1] := d2
  have hle : ∀ i < P, ∀ l ≤ 2, i * 2 + l ≤ P * 2 := fun i hi l hl => by omega
  refine (q2' wave (fun _ => [0]) [] (wave_process _ _) stateMatrix 1 0 1 h (by norm_num) le_rfl (by norm_num) rowSums (linear _ _) hth
    (by rw [mul_one]; exact hh.trans (min_le_left _ _)) (fun i hi j hj s hs => ?_) d cv d1 d5 d6 (fun i hi l hl => d3 _ (hle i hi l hl)) d4
    (fun j hj => ?_) i hi j hj).trans ?_
  · simp only [wave_rhs]
    have hlt := ht i hi
    rcases (show j = 0 ∨ j = 1 from by have : j < 2 := hj; omega) with rfl | rfl
    · show |iteratedDerivWithin 3 Real.cos _ s| ≤ 1
      rw [pieceOf, iteratedDerivWithin_eq_iteratedDeriv (uniqueDiffOn_Icc hlt) Real.contDiff_cos.contDiffAt hs]
      exact Real.abs_iteratedDeriv_cos_le_one 3 s
    · show |iteratedDerivWithin 3 (fun s => -Real.sin s) _ s| ≤ 1
      rw [pieceOf, iteratedDerivWithin_eq_iteratedDeriv (uniqueDiffOn_Icc hlt) Real.contDiff_sin.neg.contDiffAt hs, iteratedDeriv_fun_neg, abs_neg]
      exact Real.abs_iteratedDeriv_sin_le_one 3 s
  · show |(ocX 2 d 0).getD j 0 - (wave (t.data.getD 0 0)).getD j 0| ≤ 0
    rw [d2', ht0, wave, Real.sin_zero, Real.cos_zero, sub_self, abs_zero]
  · have hmono : ∀ i ≤ P, t.data.getD i 0 ≤ 1 ∧ 0 ≤ t.data.getD i 0 := by
      intro i hi
      have hm : ∀ a b, a ≤ b → b ≤ P → t.data.getD a 0 ≤ t.data.getD b 0 := fun a b hab => by
        induction b, hab using Nat.le_induction with
        | base => intro _; exact le_rfl
        | succ b hb ih => intro hb'; exact (ih (by omega)).trans (ht b hb').le
      exact ⟨(hm i P hi le_rfl).trans_eq htP, ht0.symm.trans_le (hm 0 i (Nat.zero_le _) hi)⟩
    obtain ⟨b1, b2⟩ := hmono i hi
    rw [meshError, ht0]
    norm_num [Nat.factorial]
    have hp := pow_nonneg hh0 4
    have he : Real.exp (2 * t.data[i]?.getD 0) ≤ Real.exp 2 := Real.exp_le_exp.2 (by rw [List.getD_eq_getElem?_getD] at b1; linarith)
    rw [List.getD_eq_getElem?_getD] at b1 b2
    calc _ ≤ Real.exp 2 * (1 * (1 / 12 * (h / 2) ^ 4)) := by gcongr
      _ = _ := by ring

end Spring

end Ceacoest
