import Verif.Lemmas.Dissipative
import Verif.Props.Pade

/-! # C88: stable linear systems, on meshes of any step size -/

namespace Ceacoest
open Polynomial Spec RK Matrix
variable {X : Type}

/-- **C88.** An optimal control model, linear in its states, that does not increase a positive definite quadratic form: for all inputs and initial states there is exactly one
decision vector without defects, on every mesh. -/
theorem C88_exists {A : SymArith X} {ev : X → Env → ℝ} (hA : ArithOK A ev) (U : OCUser X) (F : OCFunctions) {xn un pn : List String} {ng nh N : Nat}
    (hU : OCDenotes ev U F xn.length un.length pn.length ng nh) (hN : (N : Int) + 1 = U.order) (hN1 : 1 ≤ N) {vars : Dict String SymVar}
    (hv : ColVars vars xn un pn) {decision : List String}
    (hd : DecisionOK vars ["x", "u", "p", "xp", "up", "xe"] ["piece_len"] decision) {iter : String → List String} (hi : OrdersOK iter ocWrt) :
    ∃ c, symocInit A U iter vars decision = .ok c ∧ ∀ codegen : SymFn X → List (NDArray ℝ) → NDArray ℝ,
      (∀ name g, Dict.get? c.model.funcs name = some g → CodegenOK ev (shapeOf c.vars) codegen g) →
      ∃ m, symocGen codegen U c = .ok m ∧ ∀ (t : NDArray ℝ) (P : Nat), 1 ≤ P → t.shape = [P + 1] → t.WF → t.data.Pairwise (· < ·) →
      ∃ q, ocProblem m t = .ok q ∧ ∀ (x0 p : List ℝ) (u : Nat → List ℝ) (H S : Matrix (Fin xn.length) (Fin xn.length) ℝ), x0.length = xn.length →
        p.length = pn.length → (∀ r, (u r).length = un.length) → Dissipative H S → (∀ r ≤ P * N, AffineWith S (F.f · (u r) p)) →
        ∃! d : List ℝ, d.length = q.prob.ndec ∧ ocX xn.length d 0 = x0 ∧ (∀ r ≤ P * N, ocU P N xn.length un.length d r = u r) ∧
          ocP P N xn.length un.length pn.length d = p ∧ ∃ cv, q.prob.constr d = .ok cv ∧ ∀ k < P * (N * xn.length), cv.getD k 0 = 0 := by
  obtain ⟨c, h1, h2, h3⟩ := C70_oc hA U F hU hN hN1 hv hd hi
  refine ⟨c, h1, fun codegen hcg => ?_⟩
  obtain ⟨m, s, g1, -, -, -, -, -, h4⟩ := h3 codegen hcg
  refine ⟨m, g1, fun t P hP hs hw hinc => ?_⟩
  obtain ⟨q, q1, q2, q3⟩ := h4 t P hP hs hw hinc
  have hl : t.data.length = P + 1 := by rw [hw, hs]; simp
  have ht := pairwise_getD hl hinc
  obtain ⟨hpo, hK⟩ := lgl_points_ok hN1 hN h2
  have hle : ∀ i < P, ∀ l ≤ N, i * N + l ≤ P * N := fun i hi l hl => by
    have : (i + 1) * N ≤ P * N := Nat.mul_le_mul_right _ hi
    rw [Nat.add_mul] at this
    omega
  refine ⟨q, q1, fun x0 p u H S hx0 hp hu hS hf => ?_⟩
  have hf' : ∀ i < P, ∀ l ≤ N, AffineWith S (fun x => F.f x (u (i * N + l)) p) := fun i hi l hl => hf _ (hle i hi l hl)
  obtain ⟨x, hxl, hx0', hxd⟩ := linear_states_exist hpo hK ht hS (φ := fun i l x => F.f x (u (i * N + l)) p) hf' hx0
  obtain ⟨d, d1, d2, d3, d4⟩ := oc_vector P N hxl hu hp
  refine ⟨d, ⟨by rw [d1, q2], by rw [d2 0 (Nat.zero_le _), hx0'], d3, d4, _, (q3 d (by rw [d1, q2])).2.1, ?_⟩, ?_⟩
  · rw [oc_defects hl, d4]
    intro i hi a ha
    refine hxd i hi a ?_
    rwa [defects_rows (rhs' := fun l => F.f (x (i * N + l)) (u (i * N + l)) p) (x' := fun l => x (i * N + l))
      (fun l hl => by rw [d2 _ (hle i hi l hl), d3 _ (hle i hi l hl)]) fun l hl => d2 _ (hle i hi l hl)] at ha
  · rintro d' ⟨e1, e2, e3, e4, cv, e5, e6⟩
    obtain rfl := Except.ok.inj ((q3 d' e1).2.1.symm.trans e5)
    rw [oc_defects hl, e4] at e6
    have e6' : ∀ i < P, ∀ a ∈ defects c.col.J (fun l => F.f (ocX xn.length d' (i * N + l)) (u (i * N + l)) p)
        (fun l => ocX xn.length d' (i * N + l)) N xn.length 0 (t.data.getD (i + 1) 0 - t.data.getD i 0), a = 0 := by
      intro i hi a ha
      refine e6 i hi a ?_
      rwa [defects_rows (rhs' := fun l => F.f (ocX xn.length d' (i * N + l)) (u (i * N + l)) p) (x' := fun l => ocX xn.length d' (i * N + l))
        (fun l hl => by rw [e3 _ (hle i hi l hl)]) fun l hl => rfl]
    have hxx := (linear_states_stable hpo hK hP ht hS hf' (x := ocX xn.length d') (x' := x) (fun r _ => ocX_length ..) (fun r _ => hxl r) e6' hxd).2
      (by rw [e2, hx0'])
    exact oc_ext (by rw [e1, q2]) d1 (fun r hr => by rw [hxx r hr, d2 r hr]) (fun r hr => by rw [e3 r hr, d3 r hr]) (by rw [e4, d4])

/-- **C88.** The distance of two decision vectors without defects, with the same inputs and parameters, does not increase from the start of a piece to its end, on any mesh. -/
theorem C88_stable {A : SymArith X} {ev : X → Env → ℝ} (hA : ArithOK A ev) (U : OCUser X) (F : OCFunctions) {xn un pn : List String} {ng nh N : Nat}
    (hU : OCDenotes ev U F xn.length un.length pn.length ng nh) (hN : (N : Int) + 1 = U.order) (hN1 : 1 ≤ N) {vars : Dict String SymVar}
    (hv : ColVars vars xn un pn) {decision : List String}
    (hd : DecisionOK vars ["x", "u", "p", "xp", "up", "xe"] ["piece_len"] decision) {iter : String → List String} (hi : OrdersOK iter ocWrt) :
    ∃ c, symocInit A U iter vars decision = .ok c ∧ ∀ codegen : SymFn X → List (NDArray ℝ) → NDArray ℝ,
      (∀ name g, Dict.get? c.model.funcs name = some g → CodegenOK ev (shapeOf c.vars) codegen g) →
      ∃ m, symocGen codegen U c = .ok m ∧ ∀ (t : NDArray ℝ) (P : Nat), 1 ≤ P → t.shape = [P + 1] → t.WF → t.data.Pairwise (· < ·) →
      ∃ q, ocProblem m t = .ok q ∧ ∀ d d' cv cv' : List ℝ, d.length = q.prob.ndec → q.prob.constr d = .ok cv → (∀ k < P * (N * xn.length), cv.getD k 0 = 0) →
        d'.length = q.prob.ndec → q.prob.constr d' = .ok cv' → (∀ k < P * (N * xn.length), cv'.getD k 0 = 0) →
        ∀ (u : Nat → List ℝ) (p : List ℝ), (∀ r ≤ P * N, ocU P N xn.length un.length d r = u r) → (∀ r ≤ P * N, ocU P N xn.length un.length d' r = u r) →
        ocP P N xn.length un.length pn.length d = p → ocP P N xn.length un.length pn.length d' = p →
        ∀ H S : Matrix (Fin xn.length) (Fin xn.length) ℝ, Dissipative H S → (∀ r ≤ P * N, AffineWith S (F.f · (u r) p)) →
        ∀ e : Nat → Fin xn.length → ℝ, (∀ i j, e i j = (ocX xn.length d (i * N)).getD j 0 - (ocX xn.length d' (i * N)).getD j 0) →
          ∀ i < P, e (i + 1) ⬝ᵥ H *ᵥ e (i + 1) ≤ e i ⬝ᵥ H *ᵥ e i := by
  obtain ⟨c, h1, h2, h3⟩ := C70_oc hA U F hU hN hN1 hv hd hi
  refine ⟨c, h1, fun codegen hcg => ?_⟩
  obtain ⟨m, s, g1, -, -, -, -, -, h4⟩ := h3 codegen hcg
  refine ⟨m, g1, fun t P hP hs hw hinc => ?_⟩
  obtain ⟨q, q1, q2, q3⟩ := h4 t P hP hs hw hinc
  have hl : t.data.length = P + 1 := by rw [hw, hs]; simp
  have ht := pairwise_getD hl hinc
  obtain ⟨hpo, hK⟩ := lgl_points_ok hN1 hN h2
  have hle : ∀ i < P, ∀ l ≤ N, i * N + l ≤ P * N := fun i hi l hl => by
    have : (i + 1) * N ≤ P * N := Nat.mul_le_mul_right _ hi
    rw [Nat.add_mul] at this
    omega
  refine ⟨q, q1, fun d d' cv cv' hdl hcv hzero hdl' hcv' hzero' u p hu hu' hp hp' H S hS hf e he i hi => ?_⟩
  have hf' : ∀ i < P, ∀ l ≤ N, AffineWith S (fun x => F.f x (u (i * N + l)) p) := fun i hi l hl => hf _ (hle i hi l hl)
  obtain rfl := Except.ok.inj ((q3 d hdl).2.1.symm.trans hcv)
  obtain rfl := Except.ok.inj ((q3 d' hdl').2.1.symm.trans hcv')
  rw [oc_defects hl, hp] at hzero
  rw [oc_defects hl, hp'] at hzero'
  have hrow : ∀ d : List ℝ, (∀ r ≤ P * N, ocU P N xn.length un.length d r = u r) → (∀ i < P, ∀ a ∈ defects c.col.J (fun l =>
      F.f (ocX xn.length d (i * N + l)) (ocU P N xn.length un.length d (i * N + l)) p) (fun l => ocX xn.length d (i * N + l)) N xn.length 0
        (t.data.getD (i + 1) 0 - t.data.getD i 0), a = 0) → ∀ i < P, ∀ a ∈ defects c.col.J (fun l =>
      F.f (ocX xn.length d (i * N + l)) (u (i * N + l)) p) (fun l => ocX xn.length d (i * N + l)) N xn.length 0
        (t.data.getD (i + 1) 0 - t.data.getD i 0), a = 0 := fun d hu h i hi a ha => by
    refine h i hi a ?_
    rwa [defects_rows (rhs' := fun l => F.f (ocX xn.length d (i * N + l)) (u (i * N + l)) p) (x' := fun l => ocX xn.length d (i * N + l))
      (fun l hl => by rw [hu _ (hle i hi l hl)]) fun l hl => rfl]
  have := (linear_states_stable hpo hK hP ht hS hf' (x := ocX xn.length d) (x' := ocX xn.length d') (fun r _ => ocX_length ..) (fun r _ => ocX_length ..)
    (hrow d hu hzero) (hrow d' hu' hzero')).1 i hi
  have ee : ∀ i, e i = toVec xn.length (ocX xn.length d (i * N)) - toVec xn.length (ocX xn.length d' (i * N)) := fun i => funext fun j => he i j
  rwa [ee, ee]

/-- **C88.** A positive definite quadratic form that a homogeneous linear system leaves constant has exactly the same value at the ends of all pieces, on every mesh. -/
theorem C88_invariant {A : SymArith X} {ev : X → Env → ℝ} (hA : ArithOK A ev) (U : OCUser X) (F : OCFunctions) {xn un pn : List String} {ng nh N : Nat}
    (hU : OCDenotes ev U F xn.length un.length pn.length ng nh) (hN : (N : Int) + 1 = U.order) (hN1 : 1 ≤ N) {vars : Dict String SymVar}
    (hv : ColVars vars xn un pn) {decision : List String}
    (hd : DecisionOK vars ["x", "u", "p", "xp", "up", "xe"] ["piece_len"] decision) {iter : String → List String} (hi : OrdersOK iter ocWrt) :
    ∃ c, symocInit A U iter vars decision = .ok c ∧ ∀ codegen : SymFn X → List (NDArray ℝ) → NDArray ℝ,
      (∀ name g, Dict.get? c.model.funcs name = some g → CodegenOK ev (shapeOf c.vars) codegen g) →
      ∃ m, symocGen codegen U c = .ok m ∧ ∀ (t : NDArray ℝ) (P : Nat), 1 ≤ P → t.shape = [P + 1] → t.WF → t.data.Pairwise (· < ·) →
      ∃ q, ocProblem m t = .ok q ∧ ∀ d cv : List ℝ, d.length = q.prob.ndec → q.prob.constr d = .ok cv → (∀ k < P * (N * xn.length), cv.getD k 0 = 0) →
        ∀ S H : Matrix (Fin xn.length) (Fin xn.length) ℝ,
          (∀ r ≤ P * N, ∀ x : List ℝ, x.length = xn.length →
            toVec xn.length (F.f x (ocU P N xn.length un.length d r) (ocP P N xn.length un.length pn.length d)) = S *ᵥ toVec xn.length x) →
          Hᵀ = H → (∀ v, v ≠ 0 → 0 < v ⬝ᵥ H *ᵥ v) → H * S + Sᵀ * H = 0 →
          ∀ i ≤ P, toVec xn.length (ocX xn.length d (i * N)) ⬝ᵥ H *ᵥ toVec xn.length (ocX xn.length d (i * N)) =
            toVec xn.length (ocX xn.length d 0) ⬝ᵥ H *ᵥ toVec xn.length (ocX xn.length d 0) := by
  obtain ⟨c, h1, h2⟩ := C87_invariant hA U F hU hN hN1 hv hd hi
  refine ⟨c, h1, fun codegen hcg => ?_⟩
  obtain ⟨m, g1, h4⟩ := h2 codegen hcg
  refine ⟨m, g1, fun t P hP hs hw hinc => ?_⟩
  obtain ⟨q, q1, q2⟩ := h4 t P hP hs hw hinc
  have hl : t.data.length = P + 1 := by rw [hw, hs]; simp
  have ht := pairwise_getD hl hinc
  refine ⟨q, q1, fun d cv hdl hcv hzero S H hS hsym hpos hH => q2 d cv hdl hcv hzero S H hS hH fun i hi => Or.inl ?_⟩
  refine dissipative_unit (H := H) ⟨hsym, hpos, fun v => le_of_eq ?_⟩ N (sub_pos.2 (ht i hi))
  have e1 : v ⬝ᵥ (H * S + Sᵀ * H) *ᵥ v = 2 * (v ⬝ᵥ H *ᵥ (S *ᵥ v)) := by
    rw [add_mulVec, dotProduct_add, ← mulVec_mulVec, ← mulVec_mulVec]
    have : v ⬝ᵥ Sᵀ *ᵥ (H *ᵥ v) = v ⬝ᵥ H *ᵥ (S *ᵥ v) := by
      rw [dotProduct_mulVec, vecMul_transpose, dotProduct_mulVec, ← mulVec_transpose, hsym, dotProduct_comm]
    rw [this]
    ring
  rw [hH, zero_mulVec, dotProduct_zero] at e1
  linarith

theorem oem_vector {x : Nat → List ℝ} {p : List ℝ} (P N : Nat) {nx np : Nat} (hx : ∀ r, (x r).length = nx) (hp : p.length = np) :
    ∃ d : List ℝ, d.length = (P * N + 1) * nx + np ∧ (∀ r ≤ P * N, rowAt d 0 nx r = x r) ∧ rowAt d ((P * N + 1) * nx) np 0 = p := by
  obtain ⟨d, h1, h2, -, h4⟩ := oc_vector (u := fun _ => []) P N hx (fun _ => rfl) hp
  exact ⟨d, h1, h2, h4⟩

theorem oem_ext {d d' : List ℝ} {P N nx np : Nat} (h : d.length = (P * N + 1) * nx + np) (h' : d'.length = (P * N + 1) * nx + np)
    (hx : ∀ r ≤ P * N, rowAt d 0 nx r = rowAt d' 0 nx r) (hp : rowAt d ((P * N + 1) * nx) np 0 = rowAt d' ((P * N + 1) * nx) np 0) : d = d' :=
  oc_ext (nu := 0) h h' hx (fun r _ => by simp [ocU, rowAt]) hp

/-- **C88** for output error models: with given parameters and initial states there is exactly one decision vector without defects, on every mesh, and the distance of two of them does not
increase over a piece. -/
theorem C88_oem {A : SymArith X} {ev : X → Env → ℝ} (hA : ArithOK A ev) (U : OEMUser X) (F : OEMFunctions) {xn un pn yn : List String} {N : Nat}
    (hU : OEMDenotes ev U F xn.length un.length pn.length yn.length) (hN : (N : Int) + 1 = U.order) (hN1 : 1 ≤ N) {vars : Dict String SymVar}
    (hv : ColVars vars xn un pn) (hy : Dict.get? vars "y" = some (.vec yn)) {decision : List String}
    (hd : DecisionOK vars ["x", "p", "xp"] ["y", "u", "up", "piece_len"] decision) {iter : String → List String} (hi : OrdersOK iter oemWrt) :
    ∃ c, symoemInit A U.order (oemMethods A U) iter vars decision = .ok c ∧ ∀ codegen : SymFn X → List (NDArray ℝ) → NDArray ℝ,
      (∀ name g, Dict.get? c.model.funcs name = some g → CodegenOK ev (shapeOf c.vars) codegen g) →
      ∃ m, symoemGen codegen U.order c = .ok m ∧
      ∀ (t : NDArray ℝ) (y : MaskedArray) (u : UArg) (ua : NDArray ℝ) (P : Nat), OEMInput m t y P → InputsOK m t u ua →
      ∃ q, oemProblem ColProblem.initVars m t y u = .ok q ∧ ∀ (p : List ℝ) (H S : Matrix (Fin xn.length) (Fin xn.length) ℝ), p.length = pn.length →
        Dissipative H S → (∀ r ≤ P * N, AffineWith S (F.f · (rowAt ua.data 0 un.length r) p)) →
        (∀ x0 : List ℝ, x0.length = xn.length → ∃! d : List ℝ, d.length = q.prob.ndec ∧ rowAt d 0 xn.length 0 = x0 ∧
          rowAt d ((P * N + 1) * xn.length) pn.length 0 = p ∧ ∃ cv, q.prob.constr d = .ok cv ∧ ∀ a ∈ cv, a = 0) ∧
        ∀ d d' cv cv' : List ℝ, d.length = q.prob.ndec → q.prob.constr d = .ok cv → (∀ a ∈ cv, a = 0) →
          d'.length = q.prob.ndec → q.prob.constr d' = .ok cv' → (∀ a ∈ cv', a = 0) →
          rowAt d ((P * N + 1) * xn.length) pn.length 0 = p → rowAt d' ((P * N + 1) * xn.length) pn.length 0 = p →
          ∀ e : Nat → Fin xn.length → ℝ, (∀ i j, e i j = (rowAt d 0 xn.length (i * N)).getD j 0 - (rowAt d' 0 xn.length (i * N)).getD j 0) →
            ∀ i < P, e (i + 1) ⬝ᵥ H *ᵥ e (i + 1) ≤ e i ⬝ᵥ H *ᵥ e i := by
  obtain ⟨c, h1, h2, h3⟩ := C70_oem hA U F hU hN hN1 hv hy hd hi
  refine ⟨c, h1, fun codegen hcg => ?_⟩
  obtain ⟨m, s, g1, -, -, -, -, -, h4⟩ := h3 codegen hcg
  refine ⟨m, g1, fun t y u ua P hin hua => ?_⟩
  obtain ⟨q, rows, q1, qr, q2, q3⟩ := h4 t y u ua P hin hua
  have hl : t.data.length = P + 1 := by rw [hin.twf, hin.tshape]; simp
  have ht := pairwise_getD hl hin.tinc
  obtain ⟨hpo, hK⟩ := lgl_points_ok hN1 hN h2
  have hle : ∀ i < P, ∀ l ≤ N, i * N + l ≤ P * N := fun i hi l hl => by
    have : (i + 1) * N ≤ P * N := Nat.mul_le_mul_right _ hi
    rw [Nat.add_mul] at this
    omega
  refine ⟨q, q1, fun p H S hp hS hf => ?_⟩
  have hf' : ∀ i < P, ∀ l ≤ N, AffineWith S (fun x => F.f x (rowAt ua.data 0 un.length (i * N + l)) p) := fun i hi l hl => hf _ (hle i hi l hl)
  refine ⟨fun x0 hx0 => ?_, fun d d' cv cv' hdl hcv hzero hdl' hcv' hzero' hp hp' e he i hi => ?_⟩
  · obtain ⟨x, hxl, hx0', hxd⟩ := linear_states_exist hpo hK ht hS (φ := fun i l x => F.f x (rowAt ua.data 0 un.length (i * N + l)) p) hf' hx0
    obtain ⟨d, d1, d2, d3⟩ := oem_vector P N hxl hp
    refine ⟨d, ⟨by rw [d1, q2], by rw [d2 0 (Nat.zero_le _), hx0'], d3, _, (q3 d (by rw [d1, q2])).2.1, ?_⟩, ?_⟩
    · rw [oem_defects hl, d3]
      intro i hi a ha
      refine hxd i hi a ?_
      rwa [defects_rows (rhs' := fun l => F.f (x (i * N + l)) (rowAt ua.data 0 un.length (i * N + l)) p) (x' := fun l => x (i * N + l))
        (fun l hl => by rw [d2 _ (hle i hi l hl)]) fun l hl => d2 _ (hle i hi l hl)] at ha
    · rintro d' ⟨e1, e2, e3, cv, e5, e6⟩
      obtain rfl := Except.ok.inj ((q3 d' e1).2.1.symm.trans e5)
      rw [oem_defects hl, e3] at e6
      have hxx := (linear_states_stable hpo hK hin.pieces ht hS hf' (x := rowAt d' 0 xn.length) (x' := x) (fun r _ => rowAt_length ..) (fun r _ => hxl r) e6 hxd).2
        (by rw [e2, hx0'])
      exact oem_ext (by rw [e1, q2]) d1 (fun r hr => by rw [hxx r hr, d2 r hr]) (by rw [e3, d3])
  · obtain rfl := Except.ok.inj ((q3 d hdl).2.1.symm.trans hcv)
    obtain rfl := Except.ok.inj ((q3 d' hdl').2.1.symm.trans hcv')
    rw [oem_defects hl, hp] at hzero
    rw [oem_defects hl, hp'] at hzero'
    have := (linear_states_stable hpo hK hin.pieces ht hS hf' (x := rowAt d 0 xn.length) (x' := rowAt d' 0 xn.length) (fun r _ => rowAt_length ..)
      (fun r _ => rowAt_length ..) hzero hzero').1 i hi
    have ee : ∀ i, e i = toVec xn.length (rowAt d 0 xn.length (i * N)) - toVec xn.length (rowAt d' 0 xn.length (i * N)) := fun i => funext fun j => he i j
    rwa [ee, ee]

/-! ### The ATTAS example -/

section
open Attas

theorem attas_dissipative {p : Nat → ℝ} (h2 : 0 < p 2 + 1) (h5 : p 5 < 0) (h6 : p 6 ≤ 0) (h1 : p 1 ≤ 0) :
    Dissipative (n := 2) !![p 2 + 1, 0; 0, -p 5] !![p 6, p 5; p 2 + 1, p 1] where
  symm := by
    ext i j
    fin_cases i <;> fin_cases j <;> simp
  pos := fun v hv => by
    have e : v ⬝ᵥ !![p 2 + 1, 0; 0, -p 5] *ᵥ v = (p 2 + 1) * v 0 ^ 2 + -p 5 * v 1 ^ 2 := by
      simp [mulVec, dotProduct, Fin.sum_univ_two]; ring
    rw [e]
    have h5' : 0 < -p 5 := by linarith
    by_cases hv0 : v 0 = 0
    · have hv1 : v 1 ≠ 0 := fun h => hv (funext fun j => by fin_cases j <;> assumption)
      have := pow_pos (abs_pos.2 hv1) 2
      rw [sq_abs] at this
      positivity
    · have := pow_pos (abs_pos.2 hv0) 2
      rw [sq_abs] at this
      positivity
  decrease := fun v => by
    have e : v ⬝ᵥ !![p 2 + 1, 0; 0, -p 5] *ᵥ (!![p 6, p 5; p 2 + 1, p 1] *ᵥ v) = (p 2 + 1) * p 6 * v 0 ^ 2 + -p 5 * p 1 * v 1 ^ 2 := by
      simp [mulVec, dotProduct, Fin.sum_univ_two]; ring
    rw [e]
    have a := mul_nonneg (mul_nonneg h2.le (neg_nonneg.2 h6)) (sq_nonneg (v 0))
    have b := mul_nonneg (mul_nonneg (neg_nonneg.2 h5.le) (neg_nonneg.2 h1)) (sq_nonneg (v 1))
    linarith

/-- **C88** for the short period model of the ATTAS: if the aircraft is statically stable (`Mα < 0`, `p 5`), its pitch rate and angle of attack are damped (`Mq`, `p 6`, and `Zα`, `p 1`) and
`Zq + 1 > 0` (`p 2`), then every mesh, elevator history, initial state and parameter vector have exactly one decision vector without defects, and the effect of a different initial state
does not grow from one measurement to the next. -/
theorem C88_attas {iter : String → List String} (hi : OrdersOK iter oemWrt) :
    ∃ c, symoemInit SExpr.arith 3 (oemMethods SExpr.arith attas) iter attasVars [] = .ok c ∧
      ∃ m, symoemGen (exprCode (shapeOf c.vars)) 3 c = .ok m ∧ m.collocationOrder = 3 ∧ m.nu = 1 ∧ m.ny = 2 ∧
      ∀ (t : NDArray ℝ) (y : MaskedArray) (u : UArg) (ua : NDArray ℝ) (P : Nat), OEMInput m t y P → InputsOK m t u ua →
      ∃ q, oemProblem ColProblem.initVars m t y u = .ok q ∧
        ∀ pl : List ℝ, pl.length = 10 → 0 < pl.getD 2 0 + 1 → pl.getD 5 0 < 0 → pl.getD 6 0 ≤ 0 → pl.getD 1 0 ≤ 0 →
        (∀ pitch alpha : ℝ, ∃! d : List ℝ, d.length = q.prob.ndec ∧ d.getD 0 0 = pitch ∧ d.getD 1 0 = alpha ∧ (∀ i < 10, d.getD ((P * 2 + 1) * 2 + i) 0 = pl.getD i 0) ∧
          ∃ cv, q.prob.constr d = .ok cv ∧ ∀ a ∈ cv, a = 0) ∧
        ∀ d d' cv cv' : List ℝ, d.length = q.prob.ndec → q.prob.constr d = .ok cv → (∀ a ∈ cv, a = 0) →
          d'.length = q.prob.ndec → q.prob.constr d' = .ok cv' → (∀ a ∈ cv', a = 0) →
          (∀ i < 10, d.getD ((P * 2 + 1) * 2 + i) 0 = pl.getD i 0) → (∀ i < 10, d'.getD ((P * 2 + 1) * 2 + i) 0 = pl.getD i 0) →
          ∀ k < P, (pl.getD 2 0 + 1) * (d.getD ((k + 1) * 4) 0 - d'.getD ((k + 1) * 4) 0) ^ 2 + -pl.getD 5 0 * (d.getD ((k + 1) * 4 + 1) 0 - d'.getD ((k + 1) * 4 + 1) 0) ^ 2 ≤
            (pl.getD 2 0 + 1) * (d.getD (k * 4) 0 - d'.getD (k * 4) 0) ^ 2 + -pl.getD 5 0 * (d.getD (k * 4 + 1) 0 - d'.getD (k * 4 + 1) 0) ^ 2 := by
  have hdec : DecisionOK attasVars ["x", "p", "xp"] ["y", "u", "up", "piece_len"] [] := by unfold DecisionOK; decide
  obtain ⟨c, h1, -, m, h3, m1, -, m3, -, m5, -⟩ := C70_oem_expr_at attas definedOn functions (xn := ["q", "alpha"]) (un := ["de"]) (pn := pn)
    (yn := ["q_meas", "alpha_meas"]) (N := 2) denotes rfl (by decide) vars_ok rfl hdec hi
  obtain ⟨c', k1, k2⟩ := C88_oem arith_ok attas functions (xn := ["q", "alpha"]) (un := ["de"]) (pn := pn)
    (yn := ["q_meas", "alpha_meas"]) (N := 2) denotes rfl (by decide) vars_ok rfl hdec hi
  obtain rfl : c = c' := Except.ok.inj (h1.symm.trans k1)
  obtain ⟨m', k3, k4⟩ := k2 (exprCode (shapeOf c.vars)) fun _ g _ => C66_expr_code _ g
  obtain rfl : m = m' := Except.ok.inj (h3.symm.trans k3)
  refine ⟨c, h1, m, h3, m1, m3, m5, fun t y u ua P hin hu => ?_⟩
  obtain ⟨q, q1, q3⟩ := k4 t y u ua P hin hu
  refine ⟨q, q1, fun pl hpl g2 g5 g6 g1 => ?_⟩
  obtain ⟨hex, hst⟩ := q3 pl !![pl.getD 2 0 + 1, 0; 0, -pl.getD 5 0] !![pl.getD 6 0, pl.getD 5 0; pl.getD 2 0 + 1, pl.getD 1 0] hpl
    (attas_dissipative (p := fun i => pl.getD i 0) g2 g5 g6 g1) (fun r _ x x' _ _ => by
      funext j
      change (toVec 2 (functions.f x _ pl) - toVec 2 (functions.f x' _ pl)) j = (!![pl.getD 6 0, pl.getD 5 0; pl.getD 2 0 + 1, pl.getD 1 0] *ᵥ (toVec 2 x - toVec 2 x')) j
      fin_cases j
      · simp [functions, toVec, mulVec, dotProduct, Fin.sum_univ_two]; ring
      · simp [functions, toVec, mulVec, dotProduct, Fin.sum_univ_two]; ring)
  have hpr : ∀ d : List ℝ, rowAt d ((P * 2 + 1) * 2) 10 0 = pl ↔ ∀ i < 10, d.getD ((P * 2 + 1) * 2 + i) 0 = pl.getD i 0 := fun d => by
    constructor
    · rintro rfl i hi
      rw [rowAt_getD hi]
      congr 1
      omega
    · intro h
      refine List.ext_getElem (by rw [rowAt_length, hpl]) fun i h1 h2 => ?_
      rw [← getD_of_lt _ 0 h1, ← getD_of_lt _ 0 h2, rowAt_getD (by omega), ← h i (by omega)]
      congr 1
      omega
  have hx0 : ∀ (d : List ℝ) (pitch alpha : ℝ), rowAt d 0 2 0 = [pitch, alpha] ↔ d.getD 0 0 = pitch ∧ d.getD 1 0 = alpha := fun d pitch alpha => by
    simp [rowAt, List.range_succ]
  refine ⟨fun pitch alpha => ?_, fun d d' cv cv' a1 a2 a3 b1 b2 b3 a4 b4 k hk => ?_⟩
  · obtain ⟨d, ⟨d1, d2, d3, d4⟩, hun⟩ := hex [pitch, alpha] rfl
    obtain ⟨e1, e2⟩ := (hx0 d pitch alpha).1 d2
    refine ⟨d, ⟨d1, e1, e2, (hpr d).1 d3, d4⟩, fun d' hd' => hun d' ⟨hd'.1, (hx0 d' _ _).2 ⟨hd'.2.1, hd'.2.2.1⟩, (hpr d').2 hd'.2.2.2.1, hd'.2.2.2.2⟩⟩
  · have h := hst d d' cv cv' a1 a2 a3 b1 b2 b3 ((hpr d).2 a4) ((hpr d').2 b4) (fun i j => (rowAt d 0 2 (i * 2)).getD j 0 - (rowAt d' 0 2 (i * 2)).getD j 0)
      (fun i j => rfl) k hk
    have e : ∀ w : Fin 2 → ℝ, w ⬝ᵥ !![pl.getD 2 0 + 1, 0; 0, -pl.getD 5 0] *ᵥ w = (pl.getD 2 0 + 1) * w 0 ^ 2 + -pl.getD 5 0 * w 1 ^ 2 := fun w => by
      simp [mulVec, dotProduct, Fin.sum_univ_two]; ring
    have er : ∀ (d : List ℝ) i, (rowAt d 0 2 (i * 2)).getD 0 0 = d.getD (i * 4) 0 ∧ (rowAt d 0 2 (i * 2)).getD 1 0 = d.getD (i * 4 + 1) 0 := fun d i => by
      rw [rowAt_getD (by decide), rowAt_getD (by decide)]
      exact ⟨by congr 1; omega, by congr 1; omega⟩
    have h' := (e _).symm.trans_le (h.trans_eq (e _))
    change (pl.getD 2 0 + 1) * ((rowAt d 0 2 ((k + 1) * 2)).getD 0 0 - (rowAt d' 0 2 ((k + 1) * 2)).getD 0 0) ^ 2 +
      -pl.getD 5 0 * ((rowAt d 0 2 ((k + 1) * 2)).getD 1 0 - (rowAt d' 0 2 ((k + 1) * 2)).getD 1 0) ^ 2 ≤
      (pl.getD 2 0 + 1) * ((rowAt d 0 2 (k * 2)).getD 0 0 - (rowAt d' 0 2 (k * 2)).getD 0 0) ^ 2 +
      -pl.getD 5 0 * ((rowAt d 0 2 (k * 2)).getD 1 0 - (rowAt d' 0 2 (k * 2)).getD 1 0) ^ 2 at h'
    rwa [(er d _).1, (er d _).2, (er d' _).1, (er d' _).2, (er d k).1, (er d k).2, (er d' k).1, (er d' k).2] at h'

end

namespace Spring

theorem dissipative : Dissipative (1 : Matrix (Fin 2) (Fin 2) ℝ) !![0, 1; -1, 0] where
  symm := transpose_one
  pos := fun v hv => by
    rw [one_mulVec, dotProduct, Fin.sum_univ_two]
    by_contra h
    have h0 := mul_self_nonneg (v 0)
    have h1 := mul_self_nonneg (v 1)
    exact hv (funext fun j => by
      fin_cases j
      · exact mul_self_eq_zero.1 (show v 0 * v 0 = 0 by linarith)
      · exact mul_self_eq_zero.1 (show v 1 * v 1 = 0 by linarith))
  decrease := fun v => by
    refine le_of_eq ?_
    rw [one_mulVec]
    simp [mulVec, dotProduct, Fin.sum_univ_two]; ring

theorem affine (u : List ℝ) : AffineWith (n := 2) !![0, 1; -1, 0] (functions.f · u []) := fun x x' _ _ => by
  funext j
  fin_cases j <;> simp [functions, toVec, mulVec, dotProduct, Fin.sum_univ_two] <;> ring

/-- For all meshes, all forces and all initial states the program has exactly one point without defects. -/
example : ∃ c, symocInit SExpr.arith user Pendulum.iter vars ["xe"] = .ok c ∧ ∃ m, symocGen (exprCode (shapeOf c.vars)) user c = .ok m ∧
    ∀ (t : NDArray ℝ) (P : Nat), 1 ≤ P → t.shape = [P + 1] → t.WF → t.data.Pairwise (· < ·) →
      ∃ q, ocProblem m t = .ok q ∧ ∀ (x0 : List ℝ) (u : Nat → List ℝ), x0.length = 2 → (∀ r, (u r).length = 1) →
        ∃! d : List ℝ, d.length = q.prob.ndec ∧ ocX 2 d 0 = x0 ∧ (∀ r ≤ P * 2, ocU P 2 2 1 d r = u r) ∧ ocP P 2 2 1 0 d = [] ∧
          ∃ cv, q.prob.constr d = .ok cv ∧ ∀ k < P * (2 * 2), cv.getD k 0 = 0 := by
  obtain ⟨c, h1, h2⟩ := C88_exists arith_ok user functions (xn := ["pos", "speed"]) (un := ["force"]) (pn := []) (N := 2)
    denotes rfl (by decide) vars_ok (decision := ["xe"]) (by unfold DecisionOK; decide) Pendulum.iter_ok
  obtain ⟨m, h3, h4⟩ := h2 (exprCode (shapeOf c.vars)) fun _ g _ => C66_expr_code _ g
  refine ⟨c, h1, m, h3, fun t P hP hs hw hinc => ?_⟩
  obtain ⟨q, q1, q2⟩ := h4 t P hP hs hw hinc
  exact ⟨q, q1, fun x0 u hx0 hu => q2 x0 [] u 1 !![0, 1; -1, 0] hx0 rfl hu dissipative fun r _ => affine _⟩

end Spring

end Ceacoest
