import Verif.Lemmas.Collocation
import Verif.Props.TranscriptionJMEExpr

/-! # C72: feasible points of the nonlinear programs are collocation solutions; sampled solutions are feasible at their true cost -/

namespace Ceacoest
open Polynomial Spec RK
variable {X : Type}

theorem lgl_points_ok {N : Nat} (hN : 1 ≤ N) {n : Int} (hn : (N : Int) + 1 = n) {col : Collocation ℝ} (h : lglCollocation n = .ok col) :
    PointsOK col.points col.J N ∧ ∀ q : ℝ[X], q.natDegree ≤ 2 * N - 1 →
      ∑ l ∈ Finset.range (N + 1), col.K.getD l 0 * q.eval (col.points.getD l 0) = integral q 0 1 := by
  obtain ⟨col', hcol', hcn, hpts, hpl, hKl, hK⟩ := C25_exact n (by omega)
  obtain rfl : col = col' := Except.ok.inj (h.symm.trans hcol')
  obtain ⟨f1, f2, f3, f4, f5⟩ := lgl_points_facts n (by omega) _ hpts
  have hl : col.points.length = N + 1 := by omega
  have hnd : col.points.Nodup := by
    rw [List.nodup_iff_injective_get]
    intro a b hab
    by_contra hne
    refine f4 a b a.2 b.2 (fun e => hne (Fin.ext e)) ?_
    rw [getD_of_lt _ _ a.2, getD_of_lt _ _ b.2]
    exact hab
  obtain ⟨col', hc', -, -, -, hJ, -⟩ := C24_exact col.points hnd (by omega)
  have hc'' : lglCollocation n = .ok col' := by rw [lglCollocation, hpts]; exact hc'
  obtain rfl : col = col' := Except.ok.inj (h.symm.trans hc'')
  rw [hl] at hJ f3 f5
  have hcn' : col.n = N + 1 := by omega
  rw [hcn'] at hK
  exact ⟨⟨hN, hl, f2, f3, fun l hl => f5 l (by omega), hnd, fun q hq k hk => hJ q (by exact_mod_cast hq) k hk⟩,
    fun q hq => hK q (by omega)⟩

theorem diff_getD {t : List ℝ} {i : Nat} (h : i + 1 < t.length) : (diff t).getD i 0 = t.getD (i + 1) 0 - t.getD i 0 := by
  rw [getD_of_lt _ _ (by rw [diff_length]; omega), getD_of_lt _ _ h, getD_of_lt _ _ (by omega)]
  simp [diff]

theorem pairwise_getD {t : List ℝ} {P : Nat} (hl : t.length = P + 1) (h : t.Pairwise (· < ·)) : ∀ i < P, t.getD i 0 < t.getD (i + 1) 0 := by
  intro i hi
  rw [getD_of_lt _ _ (by omega), getD_of_lt _ _ (by omega)]
  exact List.pairwise_iff_getElem.1 h i (i + 1) _ _ (by omega)

theorem defects_shift (J : List (List ℝ)) (rhs x : Nat → List ℝ) (N nx s : Nat) (len : ℝ) :
    defects J rhs x N nx s len = defects J (fun l => rhs (s + l)) (fun l => x (s + l)) N nx 0 len := by
  unfold defects
  simp only [Nat.zero_add, Nat.add_assoc]

theorem take_all_zero {P m : Nat} {g : Nat → List ℝ} (hg : ∀ i < P, (g i).length = m) (rest : List ℝ) :
    (∀ k < P * m, ((List.range P).flatMap g ++ rest).getD k 0 = 0) ↔ ∀ i < P, ∀ a ∈ g i, a = 0 := by
  obtain ⟨h1, h2⟩ := flatMap_getElem? P hg
  constructor
  · intro h i hi a ha
    obtain ⟨r, hr, rfl⟩ := List.getElem_of_mem ha
    rw [hg i hi] at hr
    have := h (i * m + r) (mul_add_lt hi hr)
    rw [List.getD_eq_getElem?_getD, List.getElem?_append_left (by rw [h1]; exact mul_add_lt hi hr), h2 i hi r hr,
      List.getElem?_eq_getElem (by rw [hg i hi]; exact hr)] at this
    exact this
  · intro h k hk
    have hm : 0 < m := Nat.pos_of_ne_zero fun e => by simp [e] at hk
    have hi : k / m < P := Nat.div_lt_of_lt_mul (by rwa [Nat.mul_comm] at hk)
    have hr := Nat.mod_lt k hm
    rw [List.getD_eq_getElem?_getD, List.getElem?_append_left (by rw [h1]; exact hk)]
    conv_lhs => rw [← Nat.div_add_mod' k m]
    rw [h2 _ hi _ hr, List.getElem?_eq_getElem (by rw [hg _ hi]; exact hr)]
    exact h _ hi _ (List.getElem_mem _)

theorem defects_length (J : List (List ℝ)) (rhs x : Nat → List ℝ) (N nx s : Nat) (len : ℝ) : (defects J rhs x N nx s len).length = N * nx := by
  unfold defects
  exact (flatMap_getElem? N fun k _ => by simp).1

theorem flatMap_all_zero {P : Nat} {g : Nat → List ℝ} : (∀ a ∈ (List.range P).flatMap g, a = 0) ↔ ∀ i < P, ∀ a ∈ g i, a = 0 := by
  simp only [List.mem_flatMap, List.mem_range]
  exact ⟨fun h i hi a ha => h a ⟨i, hi, ha⟩, fun h a ⟨i, hi, ha⟩ => h i hi a ha⟩

/-- **C72.** An optimal control model: the first constraints of the nonlinear program, one per piece, interval and state, all vanish if and only if
a continuous piecewise polynomial path passes through the states of the decision vector and satisfies the differential equation at
every point of the collocation grid. -/
theorem C72_oc {A : SymArith X} {ev : X → Env → ℝ} (hA : ArithOK A ev) (U : OCUser X) (F : OCFunctions) {xn un pn : List String} {ng nh N : Nat}
    (hU : OCDenotes ev U F xn.length un.length pn.length ng nh) (hN : (N : Int) + 1 = U.order) (hN1 : 1 ≤ N) {vars : Dict String SymVar}
    (hv : ColVars vars xn un pn) {decision : List String}
    (hd : DecisionOK vars ["x", "u", "p", "xp", "up", "xe"] ["piece_len"] decision) {iter : String → List String} (hi : OrdersOK iter ocWrt) :
    ∃ c, symocInit A U iter vars decision = .ok c ∧ ∀ codegen : SymFn X → List (NDArray ℝ) → NDArray ℝ,
      (∀ name g, Dict.get? c.model.funcs name = some g → CodegenOK ev (shapeOf c.vars) codegen g) →
      ∃ m, symocGen codegen U c = .ok m ∧ ∀ (t : NDArray ℝ) (P : Nat), 1 ≤ P → t.shape = [P + 1] → t.WF → t.data.Pairwise (· < ·) →
      ∃ q, ocProblem m t = .ok q ∧ ∀ d : List ℝ, d.length = q.prob.ndec → ∃ cv, q.prob.constr d = .ok cv ∧
        ((∀ k < P * (N * xn.length), cv.getD k 0 = 0) ↔
          ∃ z, CollocationPath t.data c.col.points
            (fun i l => F.f (ocX xn.length d (i * N + l)) (ocU P N xn.length un.length d (i * N + l)) (ocP P N xn.length un.length pn.length d))
            (fun i l => ocX xn.length d (i * N + l)) P N xn.length z) := by
  obtain ⟨c, h1, h2, h3⟩ := C70_oc hA U F hU hN hN1 hv hd hi
  refine ⟨c, h1, fun codegen hcg => ?_⟩
  obtain ⟨m, s, g1, -, -, -, -, -, h4⟩ := h3 codegen hcg
  refine ⟨m, g1, fun t P hP hs hw hinc => ?_⟩
  obtain ⟨q, q1, q2, q3⟩ := h4 t P hP hs hw hinc
  refine ⟨q, q1, fun d hd => ⟨_, (q3 d hd).2.1, ?_⟩⟩
  have hl : t.data.length = P + 1 := by rw [hw, hs]; simp
  obtain ⟨hpo, -⟩ := lgl_points_ok hN1 hN h2
  unfold ocConstraints
  rw [List.append_assoc, take_all_zero fun i _ => defects_length ..,
    ← defects_path hpo hP (pairwise_getD hl hinc) _ _ fun i _ => by rw [Nat.add_mul, Nat.one_mul, Nat.add_zero]]
  refine forall₂_congr fun i hi => ?_
  rw [defects_shift, diff_getD (by omega)]

/-- **C72** for output error models, with the inputs `ua` at the points of the grid. -/
theorem C72_oem {A : SymArith X} {ev : X → Env → ℝ} (hA : ArithOK A ev) (U : OEMUser X) (F : OEMFunctions) {xn un pn yn : List String} {N : Nat}
    (hU : OEMDenotes ev U F xn.length un.length pn.length yn.length) (hN : (N : Int) + 1 = U.order) (hN1 : 1 ≤ N) {vars : Dict String SymVar}
    (hv : ColVars vars xn un pn) (hy : Dict.get? vars "y" = some (.vec yn)) {decision : List String}
    (hd : DecisionOK vars ["x", "p", "xp"] ["y", "u", "up", "piece_len"] decision) {iter : String → List String} (hi : OrdersOK iter oemWrt) :
    ∃ c, symoemInit A U.order (oemMethods A U) iter vars decision = .ok c ∧ ∀ codegen : SymFn X → List (NDArray ℝ) → NDArray ℝ,
      (∀ name g, Dict.get? c.model.funcs name = some g → CodegenOK ev (shapeOf c.vars) codegen g) →
      ∃ m, symoemGen codegen U.order c = .ok m ∧
      ∀ (t : NDArray ℝ) (y : MaskedArray) (u : UArg) (ua : NDArray ℝ) (P : Nat), OEMInput m t y P → InputsOK m t u ua →
      ∃ q, oemProblem ColProblem.initVars m t y u = .ok q ∧ ∀ d : List ℝ, d.length = q.prob.ndec → ∃ cv, q.prob.constr d = .ok cv ∧
        cv.length = P * (N * xn.length) ∧
        ((∀ a ∈ cv, a = 0) ↔
          ∃ z, CollocationPath t.data c.col.points
            (fun i l => F.f (rowAt d 0 xn.length (i * N + l)) (rowAt ua.data 0 un.length (i * N + l)) (rowAt d ((P * N + 1) * xn.length) pn.length 0))
            (fun i l => rowAt d 0 xn.length (i * N + l)) P N xn.length z) := by
  obtain ⟨c, h1, h2, h3⟩ := C70_oem hA U F hU hN hN1 hv hy hd hi
  refine ⟨c, h1, fun codegen hcg => ?_⟩
  obtain ⟨m, s, g1, -, -, -, -, -, h4⟩ := h3 codegen hcg
  refine ⟨m, g1, fun t y u ua P hin hua => ?_⟩
  obtain ⟨q, rows, q1, -, q2, q3⟩ := h4 t y u ua P hin hua
  have hl : t.data.length = P + 1 := by rw [hin.twf, hin.tshape]; simp
  obtain ⟨hpo, -⟩ := lgl_points_ok hN1 hN h2
  refine ⟨q, q1, fun d hd => ⟨_, (q3 d hd).2.1, (flatMap_getElem? P fun i _ => defects_length ..).1, ?_⟩⟩
  unfold oemConstraints
  rw [← defects_path hpo hin.pieces (pairwise_getD hl hin.tinc) _ _ fun i _ => by rw [Nat.add_mul, Nat.one_mul, Nat.add_zero], flatMap_all_zero]
  refine forall₂_congr fun i hi => ?_
  rw [defects_shift, diff_getD (by omega)]

/-- **C72** for joint MAP models: the noise of the decision vector drives the differential equation through `G`. -/
theorem C72_jme {A : SymArith X} {ev : X → Env → ℝ} (hA : ArithOK A ev) (U : JMEUser X) (F : JMEFunctions) {xn un pn yn : List String} {N nw : Nat}
    (hU : JMEDenotes A ev U F xn.length un.length pn.length yn.length) (hN : (N : Int) + 1 = U.order) (hN1 : 1 ≤ N)
    (hjt : U.jtRange.length = N + 1 ∧ ∀ r ∈ U.jtRange, r.length = N) {vars : Dict String SymVar}
    (hv : ColVars vars xn un pn) (hy : Dict.get? vars "y" = some (.vec yn)) {Gv : SymVar} (hGv : Dict.get? vars "G" = some Gv)
    (hGs : Gv.shape = [xn.length, nw]) {decision : List String}
    (hd : DecisionOK vars ["x", "p", "xp", "wc"] ["y", "u", "up", "piece_len", "G", "penweight"] decision)
    {iter : String → List String} (hi : OrdersOK iter jmeWrt) (G : NDArray ℝ) (hG : G.WF ∧ G.shape = [xn.length, nw])
    (penweight : Option (NDArray ℝ)) (hw : U.usePenalty = true → ∃ w, penweight = some w ∧ w.WF ∧ w.shape = [xn.length]) :
    ∃ c, symjmeInit A U iter vars decision = .ok c ∧ ∀ codegen : SymFn X → List (NDArray ℝ) → NDArray ℝ,
      (∀ name g, Dict.get? c.model.funcs name = some g → CodegenOK ev (shapeOf c.vars) codegen g) →
      ∃ m, symjmeGen codegen U G penweight c = .ok m ∧
      ∀ (t : NDArray ℝ) (y : MaskedArray) (u : UArg) (ua : NDArray ℝ) (P : Nat), OEMInput m.toOEMModel t y P → InputsOK m.toOEMModel t u ua →
      ∃ q, jmeProblem m t y u = .ok q ∧ ∀ d : List ℝ, d.length = q.prob.ndec → ∃ cv, q.prob.constr d = .ok cv ∧
        cv.length = P * (N * xn.length) ∧
        ((∀ a ∈ cv, a = 0) ↔
          ∃ z, CollocationPath t.data c.col.points
            (fun i l => noisyRhs
              (F.f (rowAt d 0 xn.length (i * N + l)) (rowAt ua.data 0 un.length (i * N + l)) (jmeP P N xn.length nw pn.length d))
              (noiseAt U.jtRange (jmeW P N xn.length nw d i) N nw l) (rowAt G.data 0 nw) xn.length nw)
            (fun i l => rowAt d 0 xn.length (i * N + l)) P N xn.length z) := by
  obtain ⟨c, h1, h2, h3⟩ := C70_jme hA U F hU hN hN1 hjt hv hy hGv hGs hd hi G hG penweight hw
  refine ⟨c, h1, fun codegen hcg => ?_⟩
  obtain ⟨m, s, g1, -, -, -, -, -, -, h4⟩ := h3 codegen hcg
  refine ⟨m, g1, fun t y u ua P hin hua => ?_⟩
  obtain ⟨q, rows, q1, -, q2, q3⟩ := h4 t y u ua P hin hua
  have hl : t.data.length = P + 1 := by rw [hin.twf, hin.tshape]; simp
  obtain ⟨hpo, -⟩ := lgl_points_ok hN1 hN h2
  refine ⟨q, q1, fun d hd => ⟨_, (q3 d hd).2.1, (flatMap_getElem? P fun i _ => by unfold jmeDefects; exact defects_length ..).1, ?_⟩⟩
  rw [← defects_path hpo hin.pieces (pairwise_getD hl hin.tinc) _ _ fun i _ => by rw [Nat.add_mul, Nat.one_mul, Nat.add_zero], flatMap_all_zero]
  refine forall₂_congr fun i hi => ?_
  unfold jmeDefects
  rw [diff_getD (by omega)]

/-! ### Sampled solutions -/

theorem flatMap_range {β : Type} (l : List ℝ) (g : ℝ → List β) : l.flatMap g = (List.range l.length).flatMap fun r => g (l.getD r 0) := by
  have e : l = (List.range l.length).map fun r => l.getD r 0 := by
    refine List.ext_getElem (by simp) fun k h1 h2 => ?_
    rw [List.getElem_map, List.getElem_range, getD_of_lt _ _ h1]
  conv_lhs => rw [e]
  rw [List.flatMap_map]

theorem rowAt_flatMap {pre rest tc : List ℝ} {off n : Nat} {g : ℝ → List ℝ} (ho : pre.length = off) (hg : ∀ s, (g s).length = n) {r : Nat}
    (hr : r < tc.length) : rowAt (pre ++ tc.flatMap g ++ rest) off n r = g (tc.getD r 0) := by
  obtain ⟨h1, h2⟩ := flatMap_getElem? tc.length (g := fun r => g (tc.getD r 0)) fun k _ => hg _
  rw [flatMap_range]
  refine List.ext_getElem (by simp [rowAt, hg]) fun j h3 h4 => ?_
  have hj : j < n := by simpa [rowAt] using h3
  simp only [rowAt, List.getElem_map, List.getElem_range]
  rw [List.getD_eq_getElem?_getD, List.getElem?_append_left (by rw [List.length_append, h1]; have := mul_add_lt hr hj; omega),
    List.getElem?_append_right (by omega), show off + (r * n + j) - pre.length = r * n + j by omega, h2 r hr j hj,
    List.getElem?_eq_getElem h4, Option.getD_some]

/-- The parts of a decision vector made of samples. -/
theorem samples_rows {tc : List ℝ} {z v : ℝ → List ℝ} {p : List ℝ} {P N nx nu np : Nat} (hltc : tc.length = P * N + 1)
    (hz : ∀ s, (z s).length = nx) (hv : ∀ s, (v s).length = nu) (hp : p.length = np) :
    (samples tc z v p).length = (P * N + 1) * (nx + nu) + np ∧ (∀ r < P * N + 1, ocX nx (samples tc z v p) r = z (tc.getD r 0)) ∧
      (∀ r < P * N + 1, ocU P N nx nu (samples tc z v p) r = v (tc.getD r 0)) ∧ ocP P N nx nu np (samples tc z v p) = p := by
  have hlz : (tc.flatMap z).length = (P * N + 1) * nx := by
    rw [flatMap_range, (flatMap_getElem? tc.length fun k _ => hz _).1, hltc]
  have hlv : (tc.flatMap v).length = (P * N + 1) * nu := by
    rw [flatMap_range, (flatMap_getElem? tc.length fun k _ => hv _).1, hltc]
  refine ⟨?_, fun r hr => ?_, fun r hr => ?_, ?_⟩
  · rw [samples, List.length_append, List.length_append, hlz, hlv, hp]
    ring
  · rw [ocX, samples, List.append_assoc, ← List.nil_append (tc.flatMap z)]
    exact rowAt_flatMap rfl hz (by omega)
  · rw [ocU, samples]
    exact rowAt_flatMap hlz hv (by omega)
  · rw [ocP, samples]
    refine List.ext_getElem (by simp [rowAt, hp]) fun j h3 h4 => ?_
    simp only [rowAt, List.getElem_map, List.getElem_range]
    have e : (tc.flatMap z ++ tc.flatMap v).length = (P * N + 1) * (nx + nu) := by rw [List.length_append, hlz, hlv]; ring
    rw [List.getD_eq_getElem?_getD, ← e, List.getElem?_append_right (by omega),
      show (tc.flatMap z ++ tc.flatMap v).length + (0 * np + j) - (tc.flatMap z ++ tc.flatMap v).length = j by omega,
      List.getElem?_eq_getElem h4, Option.getD_some]

theorem grid_pointTime {c t tc : List ℝ} {N P : Nat} (hlc : c.length = N + 1) (hN : 1 ≤ N) (h0 : c.getD 0 0 = 0) (h1 : c.getD N 0 = 1)
    (hlt : t.length = P + 1) (h : grid c t = .ok tc) :
    tc.length = P * N + 1 ∧ ∀ i < P, ∀ l ≤ N, tc.getD (i * N + l) 0 = pointTime t c i l := by
  obtain ⟨g, g1, g2, g3, g4, -, -⟩ := C22_grid c t (by omega) h0 (by rintro rfl; simp at hlt)
  obtain rfl : g = tc := Except.ok.inj (g1.symm.trans h)
  rw [hlc, hlt] at g2 g3
  rw [hlc] at g4
  simp only [Nat.add_sub_cancel] at g2 g3 g4
  refine ⟨g2, fun i hi l hl => ?_⟩
  rcases Nat.lt_or_ge l N with hl' | hl'
  · exact g3 i hi l hl'
  · obtain rfl : l = N := by omega
    rw [show i * l + l = (i + 1) * l by ring, g4 _ (by omega), pointTime, h1]
    ring

/-- The quadrature of a piecewise polynomial is its integral. -/
theorem quadrature_exact {t c K : List ℝ} {N P : Nat} {w : ℝ → ℝ} (ht : ∀ i < P, t.getD i 0 < t.getD (i + 1) 0)
    (hc : ∀ l ≤ N, 0 ≤ c.getD l 0 ∧ c.getD l 0 ≤ 1)
    (hK : ∀ q : ℝ[X], q.natDegree ≤ 2 * N - 1 →
      ∑ l ∈ Finset.range (N + 1), K.getD l 0 * q.eval (c.getD l 0) = integral q 0 1) (hw : PiecewisePoly t P (2 * N - 1) w) :
    ∑ i ∈ Finset.range P, (∑ l ∈ Finset.range (N + 1), w (pointTime t c i l) * K.getD l 0) * (t.getD (i + 1) 0 - t.getD i 0) =
      ∫ s in t.getD 0 0..t.getD P 0, w s := by
  have hint : ∀ i < P, IntervalIntegrable w MeasureTheory.volume (t.getD i 0) (t.getD (i + 1) 0) ∧
      (∑ l ∈ Finset.range (N + 1), w (pointTime t c i l) * K.getD l 0) * (t.getD (i + 1) 0 - t.getD i 0) =
        ∫ s in t.getD i 0..t.getD (i + 1) 0, w s := by
    intro i hi
    obtain ⟨y, hy, hyw⟩ := hw i hi
    have hle := (ht i hi).le
    have he : Set.EqOn (fun s => y.eval s) w (Set.uIcc (t.getD i 0) (t.getD (i + 1) 0)) := fun s hs => by
      rw [Set.uIcc_of_le hle] at hs
      exact (hyw s hs).symm
    refine ⟨(y.continuous.intervalIntegrable _ _).congr fun s hs => he (Set.uIoc_subset_uIcc hs), ?_⟩
    rw [← intervalIntegral.integral_congr he]
    rw [Finset.sum_congr rfl fun l hl => by
      rw [hyw _ (pointTime_mem (ht i hi) (hc l (by simpa [Nat.lt_succ_iff] using hl)))]]
    unfold pointTime
    rw [quad_piece hK hy, integral, add_sub_cancel]
  rw [← intervalIntegral.sum_integral_adjacent_intervals (a := fun i => t.getD i 0) fun i hi => (hint i hi).1]
  exact Finset.sum_congr rfl fun i hi => (hint i (Finset.mem_range.1 hi)).2

/-- **C72.** Sampling a process of an optimal control problem at the points of the collocation grid gives a decision vector without
defects, whose other constraints are those of the process, and whose objective is the true cost of the process, if on each piece the
states are polynomials of degree at most `N + 1` and the running cost is one of degree at most `2 * N - 1`. -/
theorem C72_samples {A : SymArith X} {ev : X → Env → ℝ} (hA : ArithOK A ev) (U : OCUser X) (F : OCFunctions) {xn un pn : List String} {ng nh N : Nat}
    (hU : OCDenotes ev U F xn.length un.length pn.length ng nh) (hN : (N : Int) + 1 = U.order) (hN1 : 1 ≤ N) {vars : Dict String SymVar}
    (hv : ColVars vars xn un pn) {decision : List String}
    (hd : DecisionOK vars ["x", "u", "p", "xp", "up", "xe"] ["piece_len"] decision) {iter : String → List String} (hi : OrdersOK iter ocWrt) :
    ∃ c, symocInit A U iter vars decision = .ok c ∧ ∀ codegen : SymFn X → List (NDArray ℝ) → NDArray ℝ,
      (∀ name g, Dict.get? c.model.funcs name = some g → CodegenOK ev (shapeOf c.vars) codegen g) →
      ∃ m, symocGen codegen U c = .ok m ∧ ∀ (t : NDArray ℝ) (P : Nat), 1 ≤ P → t.shape = [P + 1] → t.WF → t.data.Pairwise (· < ·) →
      ∃ q tc, ocProblem m t = .ok q ∧ grid c.col.points t.data = .ok tc ∧
        ∀ z v p, Process F t.data P xn.length un.length pn.length z v p → (∀ j < xn.length, PiecewisePoly t.data P (N + 1) fun s => (z s).getD j 0) →
          (samples tc z v p).length = q.prob.ndec ∧
          q.prob.constr (samples tc z v p) = .ok (List.replicate (P * (N * xn.length)) 0 ++ tc.flatMap (fun s => F.g (z s) (v s) p) ++
            F.h (z (t.data.getD 0 0) ++ z (t.data.getD P 0)) p) ∧
          (PiecewisePoly t.data P (2 * N - 1) (fun s => F.L (z s) (v s) p) →
            q.prob.obj (samples tc z v p) = .ok ((∫ s in t.data.getD 0 0..t.data.getD P 0, F.L (z s) (v s) p) +
              F.M (z (t.data.getD 0 0) ++ z (t.data.getD P 0)) p)) := by
  obtain ⟨c, h1, h2, h3⟩ := C70_oc hA U F hU hN hN1 hv hd hi
  refine ⟨c, h1, fun codegen hcg => ?_⟩
  obtain ⟨m, s, g1, -, -, -, -, -, h4⟩ := h3 codegen hcg
  refine ⟨m, g1, fun t P hP hs hw hinc => ?_⟩
  obtain ⟨q, q1, q2, q3⟩ := h4 t P hP hs hw hinc
  have hl : t.data.length = P + 1 := by rw [hw, hs]; simp
  obtain ⟨hpo, hK⟩ := lgl_points_ok hN1 hN h2
  obtain ⟨tc, htc, -⟩ := C22_grid c.col.points t.data (by rw [hpo.len]; omega) hpo.first (by intro e; simp [e] at hl)
  refine ⟨q, tc, q1, htc, fun z v p hpr hpoly => ?_⟩
  obtain ⟨hltc, hpt⟩ := grid_pointTime hpo.len hN1 hpo.first hpo.last hl htc
  have ht := pairwise_getD hl hinc
  obtain ⟨hlen', hX, hV, hPp⟩ := samples_rows (p := p) hltc hpr.lenx hpr.lenu hpr.lenp
  have hlen : (samples tc z v p).length = q.prob.ndec := by rw [hlen', q2]
  have hend : tc.getD (P * N) 0 = t.data.getD P 0 := by
    have := hpt (P - 1) (by omega) N le_rfl
    rw [show (P - 1) * N + N = P * N by rw [← Nat.succ_mul]; congr 1; omega, pointTime, hpo.last, show P - 1 + 1 = P by omega] at this
    rw [this]; ring
  have hbeg : tc.getD 0 0 = t.data.getD 0 0 := by
    have := hpt 0 (by omega) 0 (Nat.zero_le _)
    rw [pointTime, hpo.first] at this
    simp only [Nat.zero_mul, Nat.zero_add, mul_zero, add_zero] at this
    exact this
  have hlt : ∀ i < P, ∀ l ≤ N, i * N + l < P * N + 1 := fun i hi l hl => by
    have : (i + 1) * N ≤ P * N := Nat.mul_le_mul_right _ hi
    rw [Nat.add_mul] at this
    omega
  refine ⟨hlen, ?_, fun hL => ?_⟩
  · rw [(q3 _ hlen).2.1, ocConstraints, hPp, hX 0 (by omega), hX (P * N) (by omega), hend, hbeg]
    congr 3
    · rw [List.eq_replicate_iff]
      refine ⟨(flatMap_getElem? P fun i _ => defects_length ..).1, ?_⟩
      rw [flatMap_all_zero]
      have hcp : CollocationPath t.data c.col.points
          (fun i l => F.f (ocX xn.length (samples tc z v p) (i * N + l)) (ocU P N xn.length un.length (samples tc z v p) (i * N + l)) p)
          (fun i l => ocX xn.length (samples tc z v p) (i * N + l)) P N xn.length (fun j s => (z s).getD j 0) := by
        refine ⟨hpr.cont, fun i hi j hj => hpoly j hj i hi, fun i hi l hl j hj => ?_, fun i hi l hl j hj => ?_⟩
        · rw [hX _ (hlt i hi l hl), hpt i hi l hl]
        · rw [hX _ (hlt i hi l hl), hV _ (hlt i hi l hl), hpt i hi l hl]
          exact hpr.ode i hi _ (pointTime_mem (ht i hi) (hpo.mem l hl)) j hj
      have := (defects_path hpo hP ht _ _ fun i _ => by rw [Nat.add_mul, Nat.one_mul, Nat.add_zero]).2 ⟨_, hcp⟩
      intro i hi a ha
      rw [defects_shift, diff_getD (by omega)] at ha
      exact this i hi a ha
    · rw [flatMap_range, hltc]
      refine List.flatMap_congr fun r hr => ?_
      rw [List.mem_range] at hr
      rw [hX r hr, hV r hr]
  · rw [(q3 _ hlen).1, ocCost, hPp, hX 0 (by omega), hX (P * N) (by omega), hend, hbeg,
      ← quadrature_exact ht hpo.mem hK hL]
    congr 2
    refine Finset.sum_congr rfl fun i hi => ?_
    rw [Finset.mem_range] at hi
    rw [diff_getD (by omega)]
    congr 1
    refine Finset.sum_congr rfl fun l hl => ?_
    have hl' : l ≤ N := by simpa [Nat.lt_succ_iff] using hl
    rw [hX _ (hlt i hi l hl'), hV _ (hlt i hi l hl'), hpt i hi l hl']

namespace Pendulum
open SExpr

/-- A swing of the pendulum: the angle is the cube of the time, and the torque is what that takes. -/
noncomputable def swing (s : ℝ) : List ℝ := [s ^ 3, 3 * s ^ 2]
noncomputable def torque (s : ℝ) : List ℝ := [6 * s + Real.sin (s ^ 3) + 2 * (3 * s ^ 2)]

theorem swing_process (t : List ℝ) (P : Nat) : Process functions t P 2 1 1 swing torque [2] where
  lenx := fun _ => rfl
  lenu := fun _ => rfl
  lenp := rfl
  cont := fun j hj => by
    rcases (show j = 0 ∨ j = 1 by omega) with rfl | rfl
    · exact continuous_pow 3
    · exact continuous_const.mul (continuous_pow 2)
  ode := fun i _ s _ j hj => by
    rcases (show j = 0 ∨ j = 1 by omega) with rfl | rfl
    · have := hasDerivAt_pow 3 s
      refine (this.congr_deriv ?_).hasDerivWithinAt
      simp [functions, swing]
    · have := (hasDerivAt_pow 2 s).const_mul 3
      refine (this.congr_deriv ?_).hasDerivWithinAt
      simp [functions, swing, torque]
      ring

theorem swing_poly (t : List ℝ) (P : Nat) : ∀ j < 2, PiecewisePoly t P 3 fun s => (swing s).getD j 0 := fun j hj i _ => by
  rcases (show j = 0 ∨ j = 1 by omega) with rfl | rfl
  · exact ⟨X ^ 3, by simp, fun s _ => by simp [swing]⟩
  · exact ⟨3 * X ^ 2, by compute_degree; norm_num, fun s _ => by simp [swing]⟩

/-- The swing is feasible for the program with two pieces, and every feasible point of it is a collocation solution. -/
example : ∃ c, symocInit SExpr.arith user iter vars ["xe", "y"] = .ok c ∧ ∃ m, symocGen (exprCode (shapeOf c.vars)) user c = .ok m ∧
    ∃ q tc, ocProblem m ⟨[3], [0, 1, 3]⟩ = .ok q ∧ grid c.col.points [0, 1, 3] = .ok tc ∧
      q.prob.constr (samples tc swing torque [2]) = .ok (List.replicate 8 0 ++ tc.flatMap (fun s => [3 * s ^ 2 * (torque s).getD 0 0]) ++
        [0, 0, 24]) ∧
      ∀ d : List ℝ, d.length = 16 → ∃ cv, q.prob.constr d = .ok cv ∧ ((∀ k < 8, cv.getD k 0 = 0) ↔
          ∃ z, CollocationPath [0, 1, 3] c.col.points (fun i l => functions.f (ocX 2 d (i * 2 + l)) (ocU 2 2 2 1 d (i * 2 + l)) (ocP 2 2 2 1 1 d))
            (fun i l => ocX 2 d (i * 2 + l)) 2 2 2 z) := by
  obtain ⟨c, h1, h2⟩ := C72_samples arith_ok user functions (xn := ["angle", "speed"]) (un := ["torque"]) (pn := ["friction"]) (N := 2)
    denotes rfl (by decide) vars_ok (decision := ["xe", "y"]) (by unfold DecisionOK; decide) iter_ok
  obtain ⟨m, h3, h4⟩ := h2 (exprCode (shapeOf c.vars)) fun _ g _ => C66_expr_code _ g
  obtain ⟨q, tc, q1, q2, q3⟩ := h4 ⟨[3], [0, 1, 3]⟩ 2 (by decide) rfl rfl (by simp)
  obtain ⟨r1, r2, -⟩ := q3 swing torque [2] (swing_process _ _) (swing_poly _ _)
  obtain ⟨c', k1, k2⟩ := C72_oc arith_ok user functions (xn := ["angle", "speed"]) (un := ["torque"]) (pn := ["friction"]) (N := 2)
    denotes rfl (by decide) vars_ok (decision := ["xe", "y"]) (by unfold DecisionOK; decide) iter_ok
  obtain rfl : c = c' := Except.ok.inj (h1.symm.trans k1)
  obtain ⟨m', k3, k4⟩ := k2 (exprCode (shapeOf c.vars)) fun _ g _ => C66_expr_code _ g
  obtain rfl : m = m' := Except.ok.inj (h3.symm.trans k3)
  obtain ⟨q', k5, k6⟩ := k4 ⟨[3], [0, 1, 3]⟩ 2 (by decide) rfl rfl (by simp)
  obtain rfl : q = q' := Except.ok.inj (q1.symm.trans k5)
  obtain ⟨c', j1, -, m', j2, j3⟩ := C70_oc_expr user total functions (xn := ["angle", "speed"]) (un := ["torque"]) (pn := ["friction"]) (N := 2)
    denotes rfl (by decide) vars_ok (decision := ["xe", "y"]) (by unfold DecisionOK; decide) iter_ok
  obtain rfl : c = c' := Except.ok.inj (h1.symm.trans j1)
  obtain rfl : m = m' := Except.ok.inj (h3.symm.trans j2)
  obtain ⟨q', j4, j5, -⟩ := j3 ⟨[3], [0, 1, 3]⟩ 2 (by decide) rfl rfl (by simp)
  obtain rfl : q = q' := Except.ok.inj (q1.symm.trans j4)
  refine ⟨c, h1, m, h3, q, tc, q1, q2, ?_, fun d hd => k6 d (by rw [j5]; exact hd)⟩
  rw [r2]
  simp [functions, swing]
  norm_num

end Pendulum
end Ceacoest
