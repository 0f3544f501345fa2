import Verif.Props.Convergence

/-! # C76 for output error models: the method of the simulated output -/

namespace Ceacoest
open Polynomial Spec RK
variable {X : Type}

theorem rowAt_length (d : List ℝ) (off n r : Nat) : (rowAt d off n r).length = n := by simp [rowAt]

theorem oem_defects {F : OEMFunctions} {J : List (List ℝ)} {t u : List ℝ} {P N nx nu : Nat} (hl : t.length = P + 1) (p d : List ℝ) :
    (∀ a ∈ oemConstraints F J (diff t) u P N nx nu p d, a = 0) ↔
      ∀ i < P, ∀ a ∈ defects J (fun l => F.f (rowAt d 0 nx (i * N + l)) (rowAt u 0 nu (i * N + l)) p) (fun l => rowAt d 0 nx (i * N + l)) N nx 0
        (t.getD (i + 1) 0 - t.getD i 0), a = 0 := by
  unfold oemConstraints
  rw [flatMap_all_zero]
  refine forall₂_congr fun i hi => ?_
  rw [defects_shift, diff_getD (by omega)]

/-- **C76** for output error models: for right hand sides that are Lipschitz continuous in the states and short pieces, there is exactly one decision vector without
defects for given initial states and parameters. Its states are those of the solution `z` of the differential equation with the inputs `ua` up to `errorBound`, and its
objective is the log-likelihood of the measured rows given `z`, for log-likelihoods that are Lipschitz continuous near `z`, up to the errors of the measured states. -/
theorem C76_oem {A : SymArith X} {ev : X → Env → ℝ} (hA : ArithOK A ev) (U : OEMUser X) (F : OEMFunctions) {xn un pn yn : List String} {N : Nat}
    (hU : OEMDenotes ev U F xn.length un.length pn.length yn.length) (hN : (N : Int) + 1 = U.order) (hN1 : 1 ≤ N) {vars : Dict String SymVar}
    (hv : ColVars vars xn un pn) (hy : Dict.get? vars "y" = some (.vec yn)) {decision : List String}
    (hd : DecisionOK vars ["x", "p", "xp"] ["y", "u", "up", "piece_len"] decision) {iter : String → List String} (hi : OrdersOK iter oemWrt) :
    ∃ c, symoemInit A U.order (oemMethods A U) iter vars decision = .ok c ∧ ∀ codegen : SymFn X → List (NDArray ℝ) → NDArray ℝ,
      (∀ name g, Dict.get? c.model.funcs name = some g → CodegenOK ev (shapeOf c.vars) codegen g) →
      ∃ m, symoemGen codegen U.order c = .ok m ∧
      ∀ (t : NDArray ℝ) (y : MaskedArray) (u : UArg) (ua : NDArray ℝ) (P : Nat), OEMInput m t y P → InputsOK m t u ua →
      ∃ q rows, oemProblem ColProblem.initVars m t y u = .ok q ∧ MeasuredRows y.mask (P + 1) yn.length rows ∧
        ∀ (x0 p : List ℝ) (Lip : ℝ), x0.length = xn.length → p.length = pn.length → 0 ≤ Lip →
          (∀ r ≤ P * N, LipschitzOn (F.f · (rowAt ua.data 0 un.length r) p) {x | x.length = xn.length} xn.length xn.length Lip) →
          FineMesh c.col.J N t.data P Lip →
        ∃ d : List ℝ, (d.length = q.prob.ndec ∧ rowAt d 0 xn.length 0 = x0 ∧ rowAt d ((P * N + 1) * xn.length) pn.length 0 = p ∧
            ∃ cv, q.prob.constr d = .ok cv ∧ ∀ a ∈ cv, a = 0) ∧
          (∀ d' : List ℝ, d'.length = q.prob.ndec → rowAt d' 0 xn.length 0 = x0 → rowAt d' ((P * N + 1) * xn.length) pn.length 0 = p →
            (∃ cv, q.prob.constr d' = .ok cv ∧ ∀ a ∈ cv, a = 0) → d' = d) ∧
          ∀ (z v : ℝ → List ℝ) (δ : Nat → ℝ) (S : Set (List ℝ)) (LL : ℝ), (∀ s, (z s).length = xn.length) → z (t.data.getD 0 0) = x0 →
            (∀ i < P, ∀ s ∈ pieceOf t.data i, ∀ j < xn.length,
              HasDerivWithinAt (fun s => (z s).getD j 0) ((F.f (z s) (v s) p).getD j 0) (pieceOf t.data i) s) →
            (∀ i < P, ∀ l ≤ N, v (pointTime t.data c.col.points i l) = rowAt ua.data 0 un.length (i * N + l)) →
            (∀ i < P, 0 ≤ δ i) → (∀ j < xn.length, NearPoly t.data P N δ fun s => (F.f (z s) (v s) p).getD j 0) →
            (∀ k ∈ rows, LipschitzOn (fun x => [F.L (rowAt y.arr.data 0 yn.length k) x (rowAt ua.data 0 un.length (k * N)) p]) S xn.length 1 LL) →
            (∀ k ∈ rows, ∀ x : List ℝ, x.length = xn.length →
              (∀ j < xn.length, |x.getD j 0 - (z (t.data.getD k 0)).getD j 0| ≤ errorBound c.col.J N Lip t.data δ 0 (P - 1)) → x ∈ S) →
            (∀ i < P, ∀ l ≤ N, ∀ j < xn.length,
              |(rowAt d 0 xn.length (i * N + l)).getD j 0 - (z (pointTime t.data c.col.points i l)).getD j 0| ≤ errorBound c.col.J N Lip t.data δ 0 i) ∧
            ∃ cost, q.prob.obj d = .ok cost ∧
              |cost - (rows.map fun k => F.L (rowAt y.arr.data 0 yn.length k) (z (t.data.getD k 0)) (rowAt ua.data 0 un.length (k * N)) p).sum| ≤
                rows.length * (LL * errorBound c.col.J N Lip t.data δ 0 (P - 1)) := by
  obtain ⟨c, h1, h2, h3⟩ := C70_oem hA U F hU hN hN1 hv hy hd hi
  refine ⟨c, h1, fun codegen hcg => ?_⟩
  obtain ⟨m, s, g1, -, -, -, -, -, h4⟩ := h3 codegen hcg
  refine ⟨m, g1, fun t y u ua P hin hua => ?_⟩
  obtain ⟨q, rows, q1, qr, q2, q3⟩ := h4 t y u ua P hin hua
  have hl : t.data.length = P + 1 := by rw [hin.twf, hin.tshape]; simp
  have hP := hin.pieces
  have ht := pairwise_getD hl hin.tinc
  obtain ⟨hpo, -⟩ := lgl_points_ok hN1 hN h2
  refine ⟨q, rows, q1, qr, fun x0 p Lip hx0 hp hLip hL hq => ?_⟩
  have hle : ∀ i < P, ∀ l ≤ N, i * N + l ≤ P * N := fun i hi l hl => by
    have : (i + 1) * N ≤ P * N := Nat.mul_le_mul_right _ hi
    rw [Nat.add_mul] at this
    omega
  have hL' : ∀ i < P, ∀ l ≤ N, LipschitzOn (fun x => F.f x (rowAt ua.data 0 un.length (i * N + l)) p) {x | x.length = xn.length} xn.length xn.length Lip :=
    fun i hi l hl => hL _ (hle i hi l hl)
  obtain ⟨x, hxl, hx0', hxd⟩ := states_exist c.col.J (N := N) (φ := fun i l x => F.f x (rowAt ua.data 0 un.length (i * N + l)) p) ht hLip hq hL' hx0
  obtain ⟨d, d1, d2, -, d4⟩ := oc_vector (u := fun _ => []) (nu := 0) P N hxl (fun _ => rfl) hp
  have d2 : ∀ r ≤ P * N, rowAt d 0 xn.length r = x r := d2
  have d4 : rowAt d ((P * N + 1) * xn.length) pn.length 0 = p := d4
  have d1' : d.length = q.prob.ndec := by rw [d1, q2]; rfl
  have hzero : ∀ i < P, ∀ a ∈ defects c.col.J (fun l => F.f (rowAt d 0 xn.length (i * N + l)) (rowAt ua.data 0 un.length (i * N + l)) p)
      (fun l => rowAt d 0 xn.length (i * N + l)) N xn.length 0 (t.data.getD (i + 1) 0 - t.data.getD i 0), a = 0 := by
    intro i hi a ha
    refine hxd i hi a ?_
    rwa [defects_rows (rhs' := fun l => F.f (x (i * N + l)) (rowAt ua.data 0 un.length (i * N + l)) p) (x' := fun l => x (i * N + l))
      (fun l hl => by rw [d2 _ (hle i hi l hl)]) fun l hl => d2 _ (hle i hi l hl)] at ha
  refine ⟨d, ⟨d1', by rw [d2 0 (Nat.zero_le _), hx0'], d4, _, (q3 d d1').2.1, ?_⟩, ?_, ?_⟩
  · rw [oem_defects hl, d4]
    exact hzero
  · rintro d' e1 e2 e4 ⟨cv, e5, e6⟩
    obtain rfl := Except.ok.inj ((q3 d' e1).2.1.symm.trans e5)
    rw [oem_defects hl, e4] at e6
    have hxx := states_unique hpo hP ht (φ := fun i l x => F.f x (rowAt ua.data 0 un.length (i * N + l)) p) e6 hxd hLip hq hL'
      (fun r _ => rowAt_length ..) (fun r _ => hxl r) (by rw [e2, hx0'])
    refine oc_ext (nx := xn.length) (nu := 0) (np := pn.length) (P := P) (N := N) (by rw [e1, q2]; rfl) d1
      (fun r hr => (hxx r hr).trans (d2 r hr).symm) (fun r hr => by simp [ocU, rowAt]) (e4.trans d4.symm)
  · intro z v δ S LL hzl hz0 hode hvu hδ0 hδ hLl hS
    have herr := states_error hpo ht (x := rowAt d 0 xn.length) (φ := fun i l x => F.f x (rowAt ua.data 0 un.length (i * N + l)) p) hzero (z := z)
      (w := fun _ j s => (F.f (z s) (v s) p).getD j 0) (fun i hi j hj s hs => hode i hi s hs j hj) (fun i hi l hl j hj => by rw [hvu i hi l hl])
      (fun i hi j hj => hδ j hj i hi) hLip hq hL' (fun i _ l _ => rowAt_length ..) (fun i _ l _ => hzl _) (e0 := 0)
      (fun j _ => by rw [hz0, d2 0 (Nat.zero_le _), hx0']; simp)
    refine ⟨herr, _, (q3 d d1').1, ?_⟩
    rw [d4, logLikelihood]
    have hE0 := (errorBound_mono (J := c.col.J) (N := N) ht hLip (le_refl (0 : ℝ)) hδ0 (show P - 1 < P by omega)).1
    have hrow : ∀ k ∈ rows, |F.L (rowAt y.arr.data 0 yn.length k) (rowAt d 0 xn.length (k * N)) (rowAt ua.data 0 un.length (k * N)) p -
        F.L (rowAt y.arr.data 0 yn.length k) (z (t.data.getD k 0)) (rowAt ua.data 0 un.length (k * N)) p| ≤
        LL * errorBound c.col.J N Lip t.data δ 0 (P - 1) := by
      intro k hk
      have hkP : k ≤ P := by have := ((qr.2 k).1 hk).1; omega
      obtain ⟨i, hi, l, hl', e⟩ := nat_piece hN1 hP (Nat.mul_le_mul_right N hkP)
      have hpt : pointTime t.data c.col.points i l = t.data.getD k 0 := by
        rcases Nat.lt_or_ge l N with h | h
        · have hl0 : l = 0 := by
            have := congrArg (· % N) e
            simp only [Nat.mul_mod_left, Nat.mul_add_mod_self_right, Nat.mod_eq_of_lt h] at this
            exact this.symm
          subst hl0
          have : k = i := Nat.eq_of_mul_eq_mul_right hN1 e
          rw [pointTime, hpo.first, this]; ring
        · obtain rfl : l = N := by omega
          have : k = i + 1 := Nat.eq_of_mul_eq_mul_right hN1 (e.trans (by ring))
          rw [pointTime, hpo.last, this]; ring
      have hk' : ∀ j < xn.length, |(rowAt d 0 xn.length (k * N)).getD j 0 - (z (t.data.getD k 0)).getD j 0| ≤ errorBound c.col.J N Lip t.data δ 0 (P - 1) := by
        intro j hj
        have := herr i hi l hl' j hj
        rw [← e, hpt] at this
        exact this.trans (errorBound_mono ht hLip le_rfl hδ0 hi).2
      exact hLl k hk _ (hS k hk _ (rowAt_length ..) hk') _ (hS k hk _ (hzl _) fun j _ => by simpa using hE0) _ hk' 0 (by omega)
    clear hLl hS qr q3
    induction rows with
    | nil => simp
    | cons k rows ih =>
      have h1 := hrow k (by simp)
      have h2 := ih fun k hk => hrow k (by simp [hk])
      simp only [List.map_cons, List.sum_cons, List.length_cons, Nat.cast_add, Nat.cast_one]
      rw [abs_le] at *
      constructor <;> linarith [h1.1, h1.2, h2.1, h2.2]

/-! ### An example -/

namespace PendulumId

theorem input_at {m : OEMModel} (h1 : m.collocationOrder = 3) (h2 : m.ny = 1) {h : ℝ} (hh : 0 < h) : OEMInput m ⟨[3], [0, h, 2 * h]⟩ y 2 where
  order := by rw [h1]; decide
  pieces := by omega
  tshape := rfl
  twf := rfl
  tinc := by simp [hh]
  yshape := by rw [h2]; rfl
  ywf := rfl
  ymask := by rw [h2]; rfl

/-- The torque of the motion, sampled at the points of the grid that the problem passes. -/
noncomputable def torqueArg : UArg := .callable fun tc => .ok (.array ⟨[tc.length, 1], tc.flatMap Pendulum.waveTorque⟩)

theorem flatMap_wave (tc : List ℝ) : (tc.flatMap Pendulum.waveTorque).length = tc.length := by
  induction tc with
  | nil => rfl
  | cons a tc ih => rw [List.flatMap_cons, List.length_append, ih, List.length_cons, Nat.add_comm]; rfl

/-- Two pieces of length `h`, for one small `h`, and measurements of the angle at the first and the last time: the unique point without defects that starts at the motion stays
near it, and its objective is near the log-likelihood of the measurements given the motion. -/
example : ∃ c, symoemInit SExpr.arith 3 (oemMethods SExpr.arith user) iter vars [] = .ok c ∧
    ∃ m, symoemGen (exprCode (shapeOf c.vars)) 3 c = .ok m ∧ ∃ h : ℝ, 0 < h ∧
    ∃ q, oemProblem ColProblem.initVars m ⟨[3], [0, h, 2 * h]⟩ y torqueArg = .ok q ∧ ∃ (d : List ℝ) (cost E : ℝ), d.length = q.prob.ndec ∧
      rowAt d 0 2 0 = [0, 1] ∧ rowAt d 10 2 0 = [2, 0] ∧ (∃ cv, q.prob.constr d = .ok cv ∧ ∀ a ∈ cv, a = 0) ∧
      E = errorBound c.col.J 2 3 [0, h, 2 * h] (fun _ => h ^ 3 / 2) 0 1 ∧
      (∀ k ≤ 2, |(rowAt d 0 2 (k * 2)).getD 0 0 - Real.sin (k * h)| ≤ E) ∧ q.prob.obj d = .ok cost ∧
      |cost - (-(1 - Real.sin 0) ^ 2 / 2 - (3 - Real.sin (2 * h)) ^ 2 / 2)| ≤ 2 * ((4 + E) * E) := by
  obtain ⟨c, h1, h2⟩ := C76_oem arith_ok user functions (xn := ["angle", "speed"]) (un := ["torque"])
    (pn := ["friction", "precision"]) (yn := ["angle_meas"]) (N := 2) denotes rfl (by decide) vars_ok rfl (decision := [])
    (by unfold DecisionOK; decide) iter_ok
  obtain ⟨m, h3, h4⟩ := h2 (exprCode (shapeOf c.vars)) fun _ g _ => C66_expr_code _ g
  obtain ⟨c', k1, k2, k3⟩ := C70_oem arith_ok user functions (xn := ["angle", "speed"]) (un := ["torque"])
    (pn := ["friction", "precision"]) (yn := ["angle_meas"]) (N := 2) denotes rfl (by decide) vars_ok rfl (decision := [])
    (by unfold DecisionOK; decide) iter_ok
  obtain rfl : c = c' := Except.ok.inj (h1.symm.trans k1)
  obtain ⟨m', -, k4, m1, -, m3, -, m5, -⟩ := k3 (exprCode (shapeOf c.vars)) fun _ g _ => C66_expr_code _ g
  obtain rfl : m = m' := Except.ok.inj (h3.symm.trans k4)
  have m1 : m.collocationOrder = 3 := m1
  have m3 : m.nu = 1 := m3
  have m5 : m.ny = 1 := m5
  obtain ⟨hpo, -⟩ := lgl_points_ok (N := 2) (by decide) rfl k2
  have hJ := jnorm_nonneg c.col.J 2
  set h : ℝ := 1 / (6 * (jnorm c.col.J 2 + 1)) with hh
  have h0 : 0 < h := by positivity
  have hq : h * jnorm c.col.J 2 * 3 ≤ 1 / 2 := by
    have : h * (6 * (jnorm c.col.J 2 + 1)) = 1 := by rw [hh, div_mul_cancel₀ _ (by positivity)]
    linarith
  have hin := input_at m1 m5 h0
  obtain ⟨tc, htc, -⟩ := C22_grid c.col.points [0, h, 2 * h] (by rw [hpo.len]; omega) hpo.first (by simp)
  obtain ⟨hltc, hpt⟩ := grid_pointTime (P := 2) hpo.len (by decide) hpo.first hpo.last rfl htc
  set ua : NDArray ℝ := ⟨[tc.length, 1], tc.flatMap Pendulum.waveTorque⟩ with hua
  have hui : InputsOK m ⟨[3], [0, h, 2 * h]⟩ torqueArg ua := by
    intro col tc' e1 e2
    rw [m1] at e1
    obtain rfl : c.col = col := Except.ok.inj (k2.symm.trans e1)
    obtain rfl : tc = tc' := Except.ok.inj (htc.symm.trans e2)
    refine ⟨rfl, by rw [m3], ?_⟩
    rw [NDArray.WF, hua]
    dsimp only
    rw [flatMap_wave]
    simp
  obtain ⟨q, rows, q1, q2, q3⟩ := h4 ⟨[3], [0, h, 2 * h]⟩ y torqueArg ua 2 hin hui
  have hrow : ∀ r ≤ 4, rowAt ua.data 0 1 r = Pendulum.waveTorque (tc.getD r 0) := fun r hr => by
    have := rowAt_flatMap (pre := []) (rest := []) (tc := tc) (g := Pendulum.waveTorque) (off := 0) (n := 1) rfl (fun _ => rfl) (r := r) (by omega)
    simpa using this
  obtain ⟨d, ⟨d1, d2, d3, d4⟩, -, d5⟩ := q3 [0, 1] [2, 0] 3 rfl rfl (by norm_num) (fun r _ => Pendulum.lipschitz _) (fun i hi => by
    refine le_trans (le_of_eq ?_) hq
    rcases (show i = 0 ∨ i = 1 by omega) with rfl | rfl
    · simp
    · congr 2
      show 2 * h - h = h
      ring)
  have hlen : ∀ i < 2, ([0, h, 2 * h] : List ℝ).getD (i + 1) 0 - ([0, h, 2 * h] : List ℝ).getD i 0 = h := fun i hi => by
    rcases (show i = 0 ∨ i = 1 by omega) with rfl | rfl
    · show h - 0 = h
      ring
    · show 2 * h - h = h
      ring
  have hrhs : ∀ s, functions.f (Pendulum.wave s) (Pendulum.waveTorque s) [2, 0] = [Real.cos s, -Real.sin s] := Pendulum.wave_rhs
  have hrows : rows = [0, 2] := by
    have hr : ∀ k, k ∈ rows ↔ k = 0 ∨ k = 2 := fun k => by
      rw [q2.2 k]
      constructor
      · rintro ⟨a, b⟩
        rcases (show k = 0 ∨ k = 1 ∨ k = 2 by omega) with rfl | rfl | rfl
        · exact Or.inl rfl
        · exact absurd b (by unfold HasMeasurement; decide)
        · exact Or.inr rfl
      · rintro (rfl | rfl)
        · exact ⟨by decide, by unfold HasMeasurement; decide⟩
        · exact ⟨by decide, by unfold HasMeasurement; decide⟩
    refine List.Perm.eq_of_pairwise (le := (· < ·)) (fun a b _ _ h1 h2 => absurd h1 (Nat.lt_asymm h2)) q2.1 (by decide) ?_
    refine (List.perm_ext_iff_of_nodup (q2.1.imp fun h => Nat.ne_of_lt h) (by decide)).2 fun k => ?_
    rw [hr k]
    simp
  set E := errorBound c.col.J 2 3 [0, h, 2 * h] (fun _ => h ^ 3 / 2) 0 1 with hE
  have hE0 : 0 ≤ E := (errorBound_mono (P := 2) (pairwise_getD rfl hin.tinc) (by norm_num) le_rfl (fun _ _ => by positivity) (by decide)).1
  have key := d5 Pendulum.wave Pendulum.waveTorque (fun _ => h ^ 3 / 2) {x | |x.getD 0 0| ≤ 1 + E} (4 + E) (fun _ => rfl)
    (by show Pendulum.wave 0 = [0, 1]; rw [Pendulum.wave, Real.sin_zero, Real.cos_zero]) (fun i hi s hs j hj => ?_) (fun i hi l hl => ?_) (fun _ _ => by positivity)
    (fun j hj i hi => ?_) (fun k hk => ?_) (fun k _ x _ hx => ?_)
  · obtain ⟨r1, cost, r2, r3⟩ := key
    refine ⟨c, h1, m, h3, h, h0, q, q1, d, cost, E, d1, d2, d3, d4, rfl, fun k hk => ?_, r2, ?_⟩
    · have hb := fun i (hi : i < 2) => (errorBound_mono (J := c.col.J) (N := 2) (P := 2) (Lip := 3) (e0 := 0) (δ := fun _ => h ^ 3 / 2)
        (pairwise_getD rfl hin.tinc) (by norm_num) le_rfl (fun _ _ => by positivity) hi).2
      have hs : ∀ i < 2, ∀ l ≤ 2, i * 2 + l = k * 2 → pointTime [0, h, 2 * h] c.col.points i l = k * h → |(rowAt d 0 2 (k * 2)).getD 0 0 - Real.sin (k * h)| ≤ E :=
        fun i hi l hl e1 e2 => by
          have := (r1 i hi l hl 0 (by decide)).trans (hb i hi)
          dsimp only at this
          rw [e1, e2] at this
          exact this
      rcases (show k = 0 ∨ k = 1 ∨ k = 2 by omega) with rfl | rfl | rfl
      · exact hs 0 (by decide) 0 (by decide) rfl (by rw [pointTime, hpo.first]; simp)
      · exact hs 1 (by decide) 0 (by decide) rfl (by rw [pointTime, hpo.first]; simp)
      · refine hs 1 (by decide) 2 (by decide) rfl ?_
        rw [pointTime, hpo.last, hlen 1 (by decide)]
        show h + h * 1 = _
        push_cast
        ring
    · rw [hrows] at r3
      refine le_trans (le_of_eq ?_) r3
      congr 2
      show _ = (0 / 2 - Real.exp 0 * (1 - Real.sin 0) ^ 2 / 2) + ((0 / 2 - Real.exp 0 * (3 - Real.sin (2 * h)) ^ 2 / 2) + 0)
      rw [Real.exp_zero]
      ring
  · rw [hrhs]
    rcases (show j = 0 ∨ j = 1 from by have : j < 2 := hj; omega) with rfl | rfl
    · exact (Real.hasDerivAt_sin s).hasDerivWithinAt
    · exact (Real.hasDerivAt_cos s).hasDerivWithinAt
  · rw [← hpt i hi l hl]
    exact (hrow _ (by omega)).symm
  · simp only [hrhs]
    have hlt := pairwise_getD rfl hin.tinc i hi
    have key : ∀ w : ℝ → ℝ, ContDiff ℝ (3 : Nat) w → (∀ s, |iteratedDeriv 3 w s| ≤ 1) →
        ∃ T : ℝ[X], T.natDegree ≤ 2 ∧ ∀ s ∈ pieceOf [0, h, 2 * h] i, |w s - T.eval s| ≤ h ^ 3 / 2 := fun w hw hb => by
      obtain ⟨T, hT, hT'⟩ := smooth_almost_poly (w := w) (N := 2) (B := 1) hlt.le hw.contDiffOn fun s hs => by
        rw [iteratedDerivWithin_eq_iteratedDeriv (uniqueDiffOn_Icc hlt) hw.contDiffAt hs]
        exact hb s
      refine ⟨T, hT, fun s hs => (hT' s hs).trans (le_of_eq ?_)⟩
      rw [hlen i hi]
      norm_num [Nat.factorial]
    rcases (show j = 0 ∨ j = 1 from by have : j < 2 := hj; omega) with rfl | rfl
    · exact key Real.cos Real.contDiff_cos (Real.abs_iteratedDeriv_cos_le_one 3)
    · exact key (fun s => -Real.sin s) Real.contDiff_sin.neg fun s => by
        rw [iteratedDeriv_fun_neg, abs_neg]
        exact Real.abs_iteratedDeriv_sin_le_one 3 s
  · intro x hx x' hx' E' hE' j hj
    obtain rfl : j = 0 := by omega
    have hx0 := hE' 0 (by decide)
    have hE0' := (abs_nonneg _).trans hx0
    obtain ⟨yk, hyk, hyk'⟩ : ∃ yk : ℝ, (rowAt y.arr.data 0 1 k).getD 0 0 = yk ∧ |yk| ≤ 3 := by
      rw [hrows] at hk
      simp only [List.mem_cons, List.not_mem_nil, or_false] at hk
      rcases hk with rfl | rfl
      · exact ⟨1, rfl, by norm_num⟩
      · exact ⟨3, rfl, by norm_num⟩
    show |(0 / 2 - Real.exp 0 * ((rowAt y.arr.data 0 1 k).getD 0 0 - x.getD 0 0) ^ 2 / 2) -
      (0 / 2 - Real.exp 0 * ((rowAt y.arr.data 0 1 k).getD 0 0 - x'.getD 0 0) ^ 2 / 2)| ≤ (4 + E) * E'
    rw [hyk, Real.exp_zero]
    have e : (0 / 2 - 1 * (yk - x.getD 0 0) ^ 2 / 2) - (0 / 2 - 1 * (yk - x'.getD 0 0) ^ 2 / 2) =
        (yk - (x.getD 0 0 + x'.getD 0 0) / 2) * (x.getD 0 0 - x'.getD 0 0) := by ring
    rw [e, abs_mul]
    refine mul_le_mul ?_ hx0 (abs_nonneg _) (by positivity)
    have a1 : |x.getD 0 0| ≤ 1 + E := hx
    have a2 : |x'.getD 0 0| ≤ 1 + E := hx'
    rw [abs_le] at *
    constructor <;> linarith [a1.1, a1.2, a2.1, a2.2, hyk'.1, hyk'.2]
  · have a := hx 0 (by decide)
    have b := Real.abs_sin_le_one (([0, h, 2 * h] : List ℝ).getD k 0)
    have a' : |x.getD 0 0 - Real.sin (([0, h, 2 * h] : List ℝ).getD k 0)| ≤ E := a
    show |x.getD 0 0| ≤ 1 + E
    rw [abs_le] at *
    constructor <;> linarith [a'.1, a'.2, b.1, b.2]

end PendulumId
end Ceacoest
