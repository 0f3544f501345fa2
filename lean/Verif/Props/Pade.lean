import Verif.Lemmas.Pade
import Verif.Props.Superconvergence

/-! # C87: for linear systems, a piece of the transcription is a diagonal Padé approximant of the exponential function -/

namespace Ceacoest
open Polynomial Spec RK Matrix
variable {X : Type}

/-- **C87.** An optimal control model, linear in its states: for two decision vectors without defects, with the same inputs and parameters, the difference of the states at the end of a
piece of length `h` is the diagonal Padé approximant of `exp (h A)` of the order `N` times the difference at its start. No step size is too long for that. -/
theorem C87_difference {A : SymArith X} {ev : X → Env → ℝ} (hA : ArithOK A ev) (U : OCUser X) (F : OCFunctions) {xn un pn : List String} {ng nh N : Nat}
    (hU : OCDenotes ev U F xn.length un.length pn.length ng nh) (hN : (N : Int) + 1 = U.order) (hN1 : 1 ≤ N) {vars : Dict String SymVar}
    (hv : ColVars vars xn un pn) {decision : List String}
    (hd : DecisionOK vars ["x", "u", "p", "xp", "up", "xe"] ["piece_len"] decision) {iter : String → List String} (hi : OrdersOK iter ocWrt) :
    ∃ c, symocInit A U iter vars decision = .ok c ∧ ∀ codegen : SymFn X → List (NDArray ℝ) → NDArray ℝ,
      (∀ name g, Dict.get? c.model.funcs name = some g → CodegenOK ev (shapeOf c.vars) codegen g) →
      ∃ m, symocGen codegen U c = .ok m ∧ ∀ (t : NDArray ℝ) (P : Nat), 1 ≤ P → t.shape = [P + 1] → t.WF → t.data.Pairwise (· < ·) →
      ∃ q, ocProblem m t = .ok q ∧ ∀ d d' cv cv' : List ℝ, d.length = q.prob.ndec → q.prob.constr d = .ok cv → (∀ k < P * (N * xn.length), cv.getD k 0 = 0) →
        d'.length = q.prob.ndec → q.prob.constr d' = .ok cv' → (∀ k < P * (N * xn.length), cv'.getD k 0 = 0) →
        (∀ r ≤ P * N, ocU P N xn.length un.length d r = ocU P N xn.length un.length d' r) →
        ocP P N xn.length un.length pn.length d = ocP P N xn.length un.length pn.length d' →
        ∀ S : Matrix (Fin xn.length) (Fin xn.length) ℝ,
          (∀ r ≤ P * N, ∀ x x' : List ℝ, x.length = xn.length → x'.length = xn.length →
            toVec xn.length (F.f x (ocU P N xn.length un.length d r) (ocP P N xn.length un.length pn.length d)) -
              toVec xn.length (F.f x' (ocU P N xn.length un.length d r) (ocP P N xn.length un.length pn.length d)) =
              S *ᵥ (toVec xn.length x - toVec xn.length x')) →
          ∀ i < P, padeNum N (-((t.data.getD (i + 1) 0 - t.data.getD i 0) • S)) *ᵥ
              (toVec xn.length (ocX xn.length d ((i + 1) * N)) - toVec xn.length (ocX xn.length d' ((i + 1) * N))) =
            padeNum N ((t.data.getD (i + 1) 0 - t.data.getD i 0) • S) *ᵥ
              (toVec xn.length (ocX xn.length d (i * N)) - toVec xn.length (ocX xn.length d' (i * N))) := by
  obtain ⟨c, h1, h2, h3⟩ := C70_oc hA U F hU hN hN1 hv hd hi
  refine ⟨c, h1, fun codegen hcg => ?_⟩
  obtain ⟨m, s, g1, -, -, -, -, -, h4⟩ := h3 codegen hcg
  refine ⟨m, g1, fun t P hP hs hw hinc => ?_⟩
  obtain ⟨q, q1, q2, q3⟩ := h4 t P hP hs hw hinc
  have hl : t.data.length = P + 1 := by rw [hw, hs]; simp
  have ht := pairwise_getD hl hinc
  obtain ⟨hpo, hK⟩ := lgl_points_ok hN1 hN h2
  refine ⟨q, q1, fun d d' cv cv' hdl hcv hzero hdl' hcv' hzero' hu hp S hS i hi => ?_⟩
  obtain rfl := Except.ok.inj ((q3 d hdl).2.1.symm.trans hcv)
  obtain rfl := Except.ok.inj ((q3 d' hdl').2.1.symm.trans hcv')
  rw [oc_defects hl] at hzero hzero'
  have hle : ∀ l ≤ N, i * N + l ≤ P * N := fun l hl => by
    have : (i + 1) * N ≤ P * N := Nat.mul_le_mul_right _ hi
    rw [Nat.add_mul] at this
    omega
  have := piece_pade_defects hpo hK (sub_pos.2 (ht i hi)) (A := S) (hzero i hi) (hzero' i hi) fun l hl => by
    rw [← hu _ (hle l hl), ← hp]
    exact hS _ (hle l hl) _ _ (ocX_length ..) (ocX_length ..)
  rwa [Nat.add_mul, Nat.one_mul]

/-- **C87** for homogeneous systems. -/
theorem C87_oc {A : SymArith X} {ev : X → Env → ℝ} (hA : ArithOK A ev) (U : OCUser X) (F : OCFunctions) {xn un pn : List String} {ng nh N : Nat}
    (hU : OCDenotes ev U F xn.length un.length pn.length ng nh) (hN : (N : Int) + 1 = U.order) (hN1 : 1 ≤ N) {vars : Dict String SymVar}
    (hv : ColVars vars xn un pn) {decision : List String}
    (hd : DecisionOK vars ["x", "u", "p", "xp", "up", "xe"] ["piece_len"] decision) {iter : String → List String} (hi : OrdersOK iter ocWrt) :
    ∃ c, symocInit A U iter vars decision = .ok c ∧ ∀ codegen : SymFn X → List (NDArray ℝ) → NDArray ℝ,
      (∀ name g, Dict.get? c.model.funcs name = some g → CodegenOK ev (shapeOf c.vars) codegen g) →
      ∃ m, symocGen codegen U c = .ok m ∧ ∀ (t : NDArray ℝ) (P : Nat), 1 ≤ P → t.shape = [P + 1] → t.WF → t.data.Pairwise (· < ·) →
      ∃ q, ocProblem m t = .ok q ∧ ∀ d cv : List ℝ, d.length = q.prob.ndec → q.prob.constr d = .ok cv → (∀ k < P * (N * xn.length), cv.getD k 0 = 0) →
        ∀ S : Matrix (Fin xn.length) (Fin xn.length) ℝ,
          (∀ r ≤ P * N, ∀ x : List ℝ, x.length = xn.length →
            toVec xn.length (F.f x (ocU P N xn.length un.length d r) (ocP P N xn.length un.length pn.length d)) = S *ᵥ toVec xn.length x) →
          ∀ i < P, padeNum N (-((t.data.getD (i + 1) 0 - t.data.getD i 0) • S)) *ᵥ toVec xn.length (ocX xn.length d ((i + 1) * N)) =
            padeNum N ((t.data.getD (i + 1) 0 - t.data.getD i 0) • S) *ᵥ toVec xn.length (ocX xn.length d (i * N)) := by
  obtain ⟨c, h1, h2, h3⟩ := C70_oc hA U F hU hN hN1 hv hd hi
  refine ⟨c, h1, fun codegen hcg => ?_⟩
  obtain ⟨m, s, g1, -, -, -, -, -, h4⟩ := h3 codegen hcg
  refine ⟨m, g1, fun t P hP hs hw hinc => ?_⟩
  obtain ⟨q, q1, q2, q3⟩ := h4 t P hP hs hw hinc
  have hl : t.data.length = P + 1 := by rw [hw, hs]; simp
  have ht := pairwise_getD hl hinc
  obtain ⟨hpo, hK⟩ := lgl_points_ok hN1 hN h2
  refine ⟨q, q1, fun d cv hdl hcv hzero S hS i hi => ?_⟩
  obtain rfl := Except.ok.inj ((q3 d hdl).2.1.symm.trans hcv)
  rw [oc_defects hl] at hzero
  have hle : ∀ l ≤ N, i * N + l ≤ P * N := fun l hl => by
    have : (i + 1) * N ≤ P * N := Nat.mul_le_mul_right _ hi
    rw [Nat.add_mul] at this
    omega
  have := piece_pade hpo hK (sub_pos.2 (ht i hi)) (A := S) (x := fun l => toVec xn.length (ocX xn.length d (i * N + l)))
    (rhs := fun l => toVec xn.length (F.f (ocX xn.length d (i * N + l)) (ocU P N xn.length un.length d (i * N + l)) (ocP P N xn.length un.length pn.length d)))
    (fun j k hk => by
      have := defects_zero_iff.1 (hzero i hi) j j.2 k hk
      simp only [Nat.zero_add] at this
      exact this) fun l hl => hS _ (hle l hl) _ (ocX_length ..)
  rwa [Nat.add_mul, Nat.one_mul]

/-- **C87.** A quadratic form `x · H x` that is constant along the solutions of a homogeneous linear system (`H A + Aᵀ H = 0`) has exactly the same value at the ends of all pieces,
for pieces of any length for which the denominator of the approximant is invertible, in particular for pieces no longer than a third of the reciprocal of the norm of `A`. -/
theorem C87_invariant {A : SymArith X} {ev : X → Env → ℝ} (hA : ArithOK A ev) (U : OCUser X) (F : OCFunctions) {xn un pn : List String} {ng nh N : Nat}
    (hU : OCDenotes ev U F xn.length un.length pn.length ng nh) (hN : (N : Int) + 1 = U.order) (hN1 : 1 ≤ N) {vars : Dict String SymVar}
    (hv : ColVars vars xn un pn) {decision : List String}
    (hd : DecisionOK vars ["x", "u", "p", "xp", "up", "xe"] ["piece_len"] decision) {iter : String → List String} (hi : OrdersOK iter ocWrt) :
    ∃ c, symocInit A U iter vars decision = .ok c ∧ ∀ codegen : SymFn X → List (NDArray ℝ) → NDArray ℝ,
      (∀ name g, Dict.get? c.model.funcs name = some g → CodegenOK ev (shapeOf c.vars) codegen g) →
      ∃ m, symocGen codegen U c = .ok m ∧ ∀ (t : NDArray ℝ) (P : Nat), 1 ≤ P → t.shape = [P + 1] → t.WF → t.data.Pairwise (· < ·) →
      ∃ q, ocProblem m t = .ok q ∧ ∀ d cv : List ℝ, d.length = q.prob.ndec → q.prob.constr d = .ok cv → (∀ k < P * (N * xn.length), cv.getD k 0 = 0) →
        ∀ S H : Matrix (Fin xn.length) (Fin xn.length) ℝ,
          (∀ r ≤ P * N, ∀ x : List ℝ, x.length = xn.length →
            toVec xn.length (F.f x (ocU P N xn.length un.length d r) (ocP P N xn.length un.length pn.length d)) = S *ᵥ toVec xn.length x) →
          H * S + Sᵀ * H = 0 →
          (∀ i < P, IsUnit (padeNum N (-((t.data.getD (i + 1) 0 - t.data.getD i 0) • S))) ∨
            ∃ a, (∀ v, ‖S *ᵥ v‖ ≤ a * ‖v‖) ∧ (t.data.getD (i + 1) 0 - t.data.getD i 0) * a ≤ 1 / 3) →
          ∀ i ≤ P, toVec xn.length (ocX xn.length d (i * N)) ⬝ᵥ H *ᵥ toVec xn.length (ocX xn.length d (i * N)) =
            toVec xn.length (ocX xn.length d 0) ⬝ᵥ H *ᵥ toVec xn.length (ocX xn.length d 0) := by
  obtain ⟨c, h1, h3⟩ := C87_oc hA U F hU hN hN1 hv hd hi
  refine ⟨c, h1, fun codegen hcg => ?_⟩
  obtain ⟨m, g1, h4⟩ := h3 codegen hcg
  refine ⟨m, g1, fun t P hP hs hw hinc => ?_⟩
  obtain ⟨q, q1, q2⟩ := h4 t P hP hs hw hinc
  have hl : t.data.length = P + 1 := by rw [hw, hs]; simp
  have ht := pairwise_getD hl hinc
  refine ⟨q, q1, fun d cv hdl hcv hzero S H hS hH hunit => ?_⟩
  intro i
  induction i with
  | zero => intro _; rw [Nat.zero_mul]
  | succ i ih =>
    intro hi
    rw [← ih (by omega)]
    set len := t.data.getD (i + 1) 0 - t.data.getD i 0 with hlen
    have hlen0 : 0 < len := sub_pos.2 (ht i hi)
    refine pade_invariant (N := N) (M := len • S) ?_ ?_ (q2 d cv hdl hcv hzero S hS i hi)
    · rw [mul_smul_comm, eq_neg_of_add_eq_zero_left hH, transpose_smul, smul_mul_assoc, smul_neg]
    · rcases hunit i hi with h | ⟨a, ha, hs⟩
      · exact h
      · rcases Nat.eq_zero_or_pos xn.length with h0 | h0
        · rw [isUnit_iff_isUnit_det]
          have : IsEmpty (Fin xn.length) := by rw [h0]; infer_instance
          rw [det_isEmpty]
          exact isUnit_one
        · have ha0 : 0 ≤ a := by
            have h1 := ha (fun _ => 1)
            have : Nonempty (Fin xn.length) := ⟨⟨0, h0⟩⟩
            rw [pi_norm_const, norm_one, mul_one] at h1
            exact (norm_nonneg _).trans h1
          refine padeNum_unit (μ := len * a) (by positivity) (fun v => ?_) hs
          rw [neg_mulVec, norm_neg, smul_mulVec, norm_smul, Real.norm_of_nonneg hlen0.le, mul_assoc]
          exact mul_le_mul_of_nonneg_left (ha v) hlen0.le

/-- **C87** for output error models: two decision vectors without defects, with the same parameters. -/
theorem C87_oem {A : SymArith X} {ev : X → Env → ℝ} (hA : ArithOK A ev) (U : OEMUser X) (F : OEMFunctions) {xn un pn yn : List String} {N : Nat}
    (hU : OEMDenotes ev U F xn.length un.length pn.length yn.length) (hN : (N : Int) + 1 = U.order) (hN1 : 1 ≤ N) {vars : Dict String SymVar}
    (hv : ColVars vars xn un pn) (hy : Dict.get? vars "y" = some (.vec yn)) {decision : List String}
    (hd : DecisionOK vars ["x", "p", "xp"] ["y", "u", "up", "piece_len"] decision) {iter : String → List String} (hi : OrdersOK iter oemWrt) :
    ∃ c, symoemInit A U.order (oemMethods A U) iter vars decision = .ok c ∧ ∀ codegen : SymFn X → List (NDArray ℝ) → NDArray ℝ,
      (∀ name g, Dict.get? c.model.funcs name = some g → CodegenOK ev (shapeOf c.vars) codegen g) →
      ∃ m, symoemGen codegen U.order c = .ok m ∧
      ∀ (t : NDArray ℝ) (y : MaskedArray) (u : UArg) (ua : NDArray ℝ) (P : Nat), OEMInput m t y P → InputsOK m t u ua →
      ∃ q, oemProblem ColProblem.initVars m t y u = .ok q ∧
        ∀ d d' cv cv' : List ℝ, d.length = q.prob.ndec → q.prob.constr d = .ok cv → (∀ a ∈ cv, a = 0) →
        d'.length = q.prob.ndec → q.prob.constr d' = .ok cv' → (∀ a ∈ cv', a = 0) →
        ∀ p, rowAt d ((P * N + 1) * xn.length) pn.length 0 = p → rowAt d' ((P * N + 1) * xn.length) pn.length 0 = p →
        ∀ S : Matrix (Fin xn.length) (Fin xn.length) ℝ,
          (∀ r ≤ P * N, ∀ x x' : List ℝ, x.length = xn.length → x'.length = xn.length →
            toVec xn.length (F.f x (rowAt ua.data 0 un.length r) p) - toVec xn.length (F.f x' (rowAt ua.data 0 un.length r) p) =
              S *ᵥ (toVec xn.length x - toVec xn.length x')) →
          ∀ i < P, padeNum N (-((t.data.getD (i + 1) 0 - t.data.getD i 0) • S)) *ᵥ
              (toVec xn.length (rowAt d 0 xn.length ((i + 1) * N)) - toVec xn.length (rowAt d' 0 xn.length ((i + 1) * N))) =
            padeNum N ((t.data.getD (i + 1) 0 - t.data.getD i 0) • S) *ᵥ
              (toVec xn.length (rowAt d 0 xn.length (i * N)) - toVec xn.length (rowAt d' 0 xn.length (i * N))) := by
  obtain ⟨c, h1, h2, h3⟩ := C70_oem hA U F hU hN hN1 hv hy hd hi
  refine ⟨c, h1, fun codegen hcg => ?_⟩
  obtain ⟨m, s, g1, -, -, -, -, -, h4⟩ := h3 codegen hcg
  refine ⟨m, g1, fun t y u ua P hin hua => ?_⟩
  obtain ⟨q, rows, q1, qr, q2, q3⟩ := h4 t y u ua P hin hua
  have hl : t.data.length = P + 1 := by rw [hin.twf, hin.tshape]; simp
  have ht := pairwise_getD hl hin.tinc
  obtain ⟨hpo, hK⟩ := lgl_points_ok hN1 hN h2
  refine ⟨q, q1, fun d d' cv cv' hdl hcv hzero hdl' hcv' hzero' p hp hp' S hS i hi => ?_⟩
  obtain rfl := Except.ok.inj ((q3 d hdl).2.1.symm.trans hcv)
  obtain rfl := Except.ok.inj ((q3 d' hdl').2.1.symm.trans hcv')
  rw [oem_defects hl, hp] at hzero
  rw [oem_defects hl, hp'] at hzero'
  have hle : ∀ l ≤ N, i * N + l ≤ P * N := fun l hl => by
    have : (i + 1) * N ≤ P * N := Nat.mul_le_mul_right _ hi
    rw [Nat.add_mul] at this
    omega
  have := piece_pade_defects hpo hK (sub_pos.2 (ht i hi)) (A := S) (hzero i hi) (hzero' i hi) fun l hl =>
    hS _ (hle l hl) _ _ (rowAt_length ..) (rowAt_length ..)
  rwa [Nat.add_mul, Nat.one_mul]

/-! ### An example: a mass on a spring -/

namespace Spring

theorem matrix_rhs (x : List ℝ) : toVec 2 (functions.f x [0] []) = (!![0, 1; -1, 0] : Matrix (Fin 2) (Fin 2) ℝ) *ᵥ toVec 2 x := by
  funext j
  fin_cases j <;> simp [functions, toVec, mulVec, dotProduct, Fin.sum_univ_two]

/-- Free oscillations keep their energy: with pieces no longer than a third, every decision vector without defects and without force has the same value of
`position ^ 2 + speed ^ 2` at the ends of all pieces. -/
example : ∃ c, symocInit SExpr.arith user Pendulum.iter vars ["xe"] = .ok c ∧ ∃ m, symocGen (exprCode (shapeOf c.vars)) user c = .ok m ∧
    ∀ (t : NDArray ℝ) (P : Nat), 1 ≤ P → t.shape = [P + 1] → t.WF → t.data.Pairwise (· < ·) → (∀ i < P, t.data.getD (i + 1) 0 - t.data.getD i 0 ≤ 1 / 3) →
      ∃ q, ocProblem m t = .ok q ∧ ∀ d cv : List ℝ, d.length = q.prob.ndec → (∀ r ≤ P * 2, ocU P 2 2 1 d r = [0]) →
        q.prob.constr d = .ok cv → (∀ k < P * (2 * 2), cv.getD k 0 = 0) →
        ∀ i ≤ P, (ocX 2 d (i * 2)).getD 0 0 ^ 2 + (ocX 2 d (i * 2)).getD 1 0 ^ 2 = (ocX 2 d 0).getD 0 0 ^ 2 + (ocX 2 d 0).getD 1 0 ^ 2 := by
  obtain ⟨c, h1, h2⟩ := C87_invariant arith_ok user functions (xn := ["pos", "speed"]) (un := ["force"]) (pn := []) (N := 2)
    denotes rfl (by decide) vars_ok (decision := ["xe"]) (by unfold DecisionOK; decide) Pendulum.iter_ok
  obtain ⟨m, h3, h4⟩ := h2 (exprCode (shapeOf c.vars)) fun _ g _ => C66_expr_code _ g
  refine ⟨c, h1, m, h3, fun t P hP hs hw hinc hlen => ?_⟩
  obtain ⟨q, q1, q2⟩ := h4 t P hP hs hw hinc
  refine ⟨q, q1, fun d cv hd hu hcv hz i hi => ?_⟩
  have := q2 d cv hd hcv hz (!![0, 1; -1, 0] : Matrix (Fin 2) (Fin 2) ℝ) (1 : Matrix (Fin 2) (Fin 2) ℝ) (fun r hr x _ => ?_) ?_ (fun i hi => Or.inr ⟨1, fun v => ?_, ?_⟩) i hi
  · have e : ∀ w : Fin 2 → ℝ, w ⬝ᵥ (1 : Matrix (Fin 2) (Fin 2) ℝ) *ᵥ w = w 0 ^ 2 + w 1 ^ 2 := fun w => by
      rw [one_mulVec, dotProduct, Fin.sum_univ_two]; ring
    exact (e _).symm.trans (this.trans (e _))
  · have e := hu r hr
    change toVec 2 (functions.f x (ocU P 2 2 1 d r) _) = _
    rw [e]
    exact matrix_rhs x
  · ext i j
    fin_cases i <;> fin_cases j <;> simp [Matrix.mul_apply, Fin.sum_univ_two]
  · change ‖(!![0, 1; -1, 0] : Matrix (Fin 2) (Fin 2) ℝ) *ᵥ (v : Fin 2 → ℝ)‖ ≤ 1 * ‖(v : Fin 2 → ℝ)‖
    rw [one_mul]
    refine (pi_norm_le_iff_of_nonneg (norm_nonneg _)).2 fun j => ?_
    have h0 := norm_le_pi_norm (v : Fin 2 → ℝ) 0
    have h1 := norm_le_pi_norm (v : Fin 2 → ℝ) 1
    fin_cases j
    · simpa [mulVec, dotProduct, Fin.sum_univ_two] using h1
    · simpa [mulVec, dotProduct, Fin.sum_univ_two] using h0
  · rw [mul_one]; exact hlen i hi

end Spring

end Ceacoest
