import Verif.Lemmas.ZeroNoise
import Verif.Props.Coordinates

/-! # C101: joint MAP estimation with zero noise is output error estimation -/

namespace Ceacoest
open Spec RK
variable {X : Type}

/-- **C101**. Let a joint MAP model and an output error model be made of the same methods `f` and `L`, and let problems be made of them with the same data. Then

* putting zero noise into a decision vector of the output error problem gives one of the joint MAP problem with the same constraints; without the divergence also the objectives are the same (with
  penalty: where there are no defects);
* in general the objective of the joint MAP problem is the one of the output error problem at the same states and parameters minus half of the quadrature of the divergence, minus half of the
  energy of the noise, minus the penalty. So without divergence (and with weights of the penalty that are not negative) noise never improves the objective at the same states and parameters, and
  without penalty the objectives are the same exactly where the noise is zero at all collocation points;
* so without divergence the best value of the joint MAP problem is not below the best one of the output error problem;
* if `G` is zero the constraints are those of the output error problem whatever the noise is, and the best values are the same. -/
theorem C101_noise {A : SymArith X} {ev : X → Env → ℝ} (hA : ArithOK A ev) (U : JMEUser X) (F : JMEFunctions) {xn un pn yn : List String} {N nw : Nat}
    (hU : JMEDenotes A ev U F xn.length un.length pn.length yn.length) (hN : (N : Int) + 1 = U.order) (hN1 : 1 ≤ N)
    (hjt : U.jtRange.length = N + 1 ∧ ∀ r ∈ U.jtRange, r.length = N) {vars vars' : Dict String SymVar}
    (hv : ColVars vars xn un pn) (hy : Dict.get? vars "y" = some (.vec yn)) {Gv : SymVar} (hGv : Dict.get? vars "G" = some Gv)
    (hGs : Gv.shape = [xn.length, nw]) {decision decision' : List String}
    (hd : DecisionOK vars ["x", "p", "xp", "wc"] ["y", "u", "up", "piece_len", "G", "penweight"] decision)
    {iter iter' : String → List String} (hi : OrdersOK iter jmeWrt) (G : NDArray ℝ) (hG : G.WF ∧ G.shape = [xn.length, nw])
    (penweight : Option (NDArray ℝ)) (hw : U.usePenalty = true → ∃ w, penweight = some w ∧ w.WF ∧ w.shape = [xn.length])
    (hv' : ColVars vars' xn un pn) (hy' : Dict.get? vars' "y" = some (.vec yn)) (hd' : DecisionOK vars' ["x", "p", "xp"] ["y", "u", "up", "piece_len"] decision')
    (hi' : OrdersOK iter' oemWrt) :
    ∃ c c', symjmeInit A U iter vars decision = .ok c ∧ symoemInit A U.order (oemMethods A U.toOEMUser) iter' vars' decision' = .ok c' ∧ lglCollocation U.order = .ok c.col ∧
      ∀ codegen codegen' : SymFn X → List (NDArray ℝ) → NDArray ℝ,
      (∀ name g, Dict.get? c.model.funcs name = some g → CodegenOK ev (shapeOf c.vars) codegen g) →
      (∀ name g, Dict.get? c'.model.funcs name = some g → CodegenOK ev (shapeOf c'.vars) codegen' g) →
      ∃ m m', symjmeGen codegen U G penweight c = .ok m ∧ symoemGen codegen' U.order c' = .ok m' ∧ m.collocationOrder = U.order ∧ m.nu = un.length ∧ m.ny = yn.length ∧
      ∀ (t : NDArray ℝ) (y : MaskedArray) (u : UArg) (ua : NDArray ℝ) (P : Nat), OEMInput m.toOEMModel t y P → InputsOK m.toOEMModel t u ua →
      ∃ q q', jmeProblem m t y u = .ok q ∧ oemProblem ColProblem.initVars m' t y u = .ok q' ∧
      q.prob.ndec = (P * N + 1) * xn.length + P * N * nw + pn.length ∧ q'.prob.ndec = (P * N + 1) * xn.length + pn.length ∧
      (∀ d : List ℝ, d.length = q'.prob.ndec → (addZeroNoise P N xn.length nw d).length = q.prob.ndec ∧ q.prob.constr (addZeroNoise P N xn.length nw d) = q'.prob.constr d ∧
        (U.useOm = false → (U.usePenalty = true → q'.prob.constr d = .ok (List.replicate (P * N * xn.length) 0)) →
          q.prob.obj (addZeroNoise P N xn.length nw d) = q'.prob.obj d)) ∧
      (∀ d : List ℝ, d.length = q.prob.ndec → (dropNoise P N xn.length nw d).length = q'.prob.ndec ∧ ∃ a b pen, q.prob.obj d = .ok a ∧ q'.prob.obj (dropNoise P N xn.length nw d) = .ok b ∧
        a = b - 1 / 2 * (∑ i ∈ Finset.range P, (∑ l ∈ Finset.range (N + 1), (if U.useOm then
            driftDiv (F.div (rowAt d 0 xn.length (i * N + l)) (rowAt ua.data 0 un.length (i * N + l)) (jmeP P N xn.length nw pn.length d)) xn.length nw else 0) *
              c.col.K.getD l 0) * (diff t.data).getD i 0) -
          1 / 2 * noiseEnergy (fun i => noiseAt U.jtRange (jmeW P N xn.length nw d i) N nw) c.col.K (diff t.data) P N nw - pen ∧
        (U.usePenalty = false ∨ q.prob.constr d = .ok (List.replicate (P * N * xn.length) 0) → pen = 0) ∧
        ((∀ w, penweight = some w → ∀ j < xn.length, 0 ≤ w.data.getD j 0) → 0 ≤ pen ∧ (U.useOm = false → a ≤ b)) ∧
        (U.useOm = false → U.usePenalty = false →
          (a = b ↔ ∀ i < P, ∀ l ≤ N, ∀ b < nw, (noiseAt U.jtRange (jmeW P N xn.length nw d i) N nw l).getD b 0 = 0))) ∧
      (U.useOm = false → ∀ M, FeasibleBound q.prob.obj q.prob.constr q.prob.ndec (P * N * xn.length) M → FeasibleBound q'.prob.obj q'.prob.constr q'.prob.ndec (P * N * xn.length) M) ∧
      ((∀ g ∈ G.data, g = 0) → (∀ d : List ℝ, d.length = q.prob.ndec → q.prob.constr d = q'.prob.constr (dropNoise P N xn.length nw d)) ∧
        (U.useOm = false → ∀ M, FeasibleBound q'.prob.obj q'.prob.constr q'.prob.ndec (P * N * xn.length) M →
          FeasibleBound q.prob.obj q.prob.constr q.prob.ndec (P * N * xn.length) M)) := by
  obtain ⟨c, h1, h2, h3⟩ := C70_jme hA U F hU hN hN1 hjt hv hy hGv hGs hd hi G hG penweight hw
  obtain ⟨c', h1', h2', h3'⟩ := C70_oem hA U.toOEMUser F.toOEMFunctions hU.toOEMDenotes hN hN1 hv' hy' hd' hi'
  have hcc : c'.col = c.col := Except.ok.inj (h2'.symm.trans h2)
  refine ⟨c, c', h1, h1', h2, fun codegen codegen' hcg hcg' => ?_⟩
  obtain ⟨m, s, g1, g2, -, g4, -, g6, -, h4⟩ := h3 codegen hcg
  obtain ⟨m', s', g1', g2', -, g4', -, g6', h4'⟩ := h3' codegen' hcg'
  refine ⟨m, m', g1, g1', g2, g4, g6, fun t y u ua P hin hu => ?_⟩
  obtain ⟨q, rows, q1, q2, q3, q4⟩ := h4 t y u ua P hin hu
  obtain ⟨q', rows', q1', q2', q3', q4'⟩ := h4' t y u ua P ⟨by rw [g2', ← g2]; exact hin.order, hin.pieces, hin.tshape, hin.twf, hin.tinc, by rw [g6', ← g6]; exact hin.yshape, hin.ywf,
    by rw [g6', ← g6]; exact hin.ymask⟩ (by unfold InputsOK; rw [g2', g4', ← g2, ← g4]; exact hu)
  obtain rfl : rows' = rows := measuredRows_unique q2' q2
  obtain ⟨hpos, -⟩ := lgl_weights_ok hN1 hN h2
  have hlen : ∀ k < P, 0 < (diff t.data).getD k 0 := fun k hk => by
    have htl : t.data.length = P + 1 := by have := hin.twf; rw [NDArray.WF, hin.tshape] at this; simpa using this
    rw [diff_getD (by omega)]
    have := (List.pairwise_iff_getElem.1 hin.tinc) k (k + 1) (by omega) (by omega) (by omega)
    rw [getD_of_lt _ _ (by omega), getD_of_lt _ _ (by omega)]
    exact sub_pos.2 this
  have hrows : ∀ k ∈ rows', k ≤ P := fun k hk => by have := ((q2.2 k).1 hk).1; omega
  rw [hcc] at q4'
  -- the relation of the objectives
  have key : ∀ d : List ℝ, d.length = q.prob.ndec → (dropNoise P N xn.length nw d).length = q'.prob.ndec ∧ ∃ a b pen, q.prob.obj d = .ok a ∧ q'.prob.obj (dropNoise P N xn.length nw d) = .ok b ∧
        a = b - 1 / 2 * (∑ i ∈ Finset.range P, (∑ l ∈ Finset.range (N + 1), (if U.useOm then
            driftDiv (F.div (rowAt d 0 xn.length (i * N + l)) (rowAt ua.data 0 un.length (i * N + l)) (jmeP P N xn.length nw pn.length d)) xn.length nw else 0) *
              c.col.K.getD l 0) * (diff t.data).getD i 0) -
          1 / 2 * noiseEnergy (fun i => noiseAt U.jtRange (jmeW P N xn.length nw d i) N nw) c.col.K (diff t.data) P N nw - pen ∧
        (U.usePenalty = false ∨ q.prob.constr d = .ok (List.replicate (P * N * xn.length) 0) → pen = 0) ∧
        ((∀ w, penweight = some w → ∀ j < xn.length, 0 ≤ w.data.getD j 0) → 0 ≤ pen) := fun d hdl => by
    have hdl' : (dropNoise P N xn.length nw d).length = q'.prob.ndec := by rw [q3']; exact dropNoise_length (hdl.trans q3)
    refine ⟨hdl', _, _, -(match penaltyWeights U.usePenalty penweight with
      | some weight => ∑ i ∈ Finset.range P, defectPenalty (jmeDefects F c.col.J U.jtRange (diff t.data) ua.data G.data P N xn.length un.length nw pn.length d i) weight N xn.length
      | none => 0), (q4 d hdl).1, (q4' _ hdl').1, ?_, ?_, ?_⟩
    · rw [jmeCost_parts (hdl.trans q3) hrows, sub_neg_eq_add]
      cases penaltyWeights U.usePenalty penweight <;> rfl
    · rintro (h | h)
      · rw [penaltyWeights, h]
        simp
      · rw [neg_eq_zero]
        have := penalty_feasible (Except.ok.inj ((q4 d hdl).2.1.symm.trans h))
        split
        · exact this _
        · rfl
    · intro hn
      rw [neg_nonneg]
      cases hp : U.usePenalty
      · simp [penaltyWeights]
      · obtain ⟨w, hw1, -, -⟩ := hw hp
        subst hw1
        exact Finset.sum_nonpos fun i _ => defectPenalty_nonpos fun j hj => hn w rfl j hj
  -- decision vectors with zero noise
  have hzero : ∀ d : List ℝ, d.length = q'.prob.ndec → ∀ i < P, ∀ l b, (noiseAt U.jtRange (jmeW P N xn.length nw (addZeroNoise P N xn.length nw d) i) N nw l).getD b 0 = 0 := fun d hdl i hi l b => by
    by_cases hb : b < nw
    · rw [noiseAt, List.getD_eq_getElem?_getD, List.getElem?_map, List.getElem?_range hb]
      refine Finset.sum_eq_zero fun k hk => ?_
      rw [addZeroNoise_w (hdl.trans q3') hi (Finset.mem_range.1 hk), mul_zero]
    · rw [List.getD_eq_getElem?_getD, List.getElem?_eq_none (by simp [noiseAt]; omega)]
      rfl
  have embed : ∀ d : List ℝ, d.length = q'.prob.ndec → (addZeroNoise P N xn.length nw d).length = q.prob.ndec ∧ q.prob.constr (addZeroNoise P N xn.length nw d) = q'.prob.constr d ∧
        (U.useOm = false → (U.usePenalty = true → q'.prob.constr d = .ok (List.replicate (P * N * xn.length) 0)) →
          q.prob.obj (addZeroNoise P N xn.length nw d) = q'.prob.obj d) := fun d hdl => by
    have hl : (addZeroNoise P N xn.length nw d).length = q.prob.ndec := by rw [q3]; exact addZeroNoise_length (hdl.trans q3')
    have hc : q.prob.constr (addZeroNoise P N xn.length nw d) = q'.prob.constr d := by
      rw [(q4 _ hl).2.1, (q4' _ hdl).2.1, jmeDefects_quiet (hl.trans q3) fun i hi l _ j _ => Finset.sum_eq_zero fun b _ => by rw [hzero d hdl i hi, zero_mul],
        dropNoise_addZeroNoise (hdl.trans q3')]
    refine ⟨hl, hc, fun ho hp => ?_⟩
    obtain ⟨-, a, b, pen, e1, e2, e3, e4, -⟩ := key _ hl
    rw [dropNoise_addZeroNoise (hdl.trans q3')] at e2
    have hpen : pen = 0 := e4 (by
      cases hpe : U.usePenalty
      · exact Or.inl rfl
      · exact Or.inr (hc.trans (hp hpe)))
    have hE := ((noiseEnergy_nonneg (nw := nw) (w := fun i => noiseAt U.jtRange (jmeW P N xn.length nw (addZeroNoise P N xn.length nw d) i) N nw) hpos hlen).2).2
      fun i hi l _ b _ => hzero d hdl i hi l b
    rw [e1, e2, e3, hE, hpen, ho]
    simp
  refine ⟨q, q', q1, q1', q3, q3', embed, fun d hdl => ?_, fun ho M hM d v hdl hfe hv => ?_, fun hG0 => ?_⟩
  · obtain ⟨hl, a, b, pen, e1, e2, e3, e4, e5⟩ := key d hdl
    obtain ⟨n1, n2⟩ := noiseEnergy_nonneg (nw := nw) (w := fun i => noiseAt U.jtRange (jmeW P N xn.length nw d i) N nw) hpos hlen
    refine ⟨hl, a, b, pen, e1, e2, e3, e4, fun hn => ⟨e5 hn, fun ho => ?_⟩, fun ho hp => ?_⟩
    · rw [e3, ho]
      simp only [Bool.false_eq_true, if_false, zero_mul, Finset.sum_const_zero, mul_zero, sub_zero]
      linarith [e5 hn]
    · rw [← n2, e3, ho, e4 (Or.inl hp)]
      simp
  · obtain ⟨hl, hc, hob⟩ := embed d hdl
    exact hM _ v hl (hc.trans hfe) ((hob ho fun _ => hfe).trans hv)
  · have hGz : ∀ j b : Nat, (rowAt G.data 0 nw j).getD b 0 = 0 := fun j b => by
      by_cases hb : b < nw
      · rw [rowAt_getD hb, List.getD_eq_getElem?_getD]
        cases hg : G.data[0 + (j * nw + b)]? with
        | none => rfl
        | some g => exact hG0 g (List.mem_of_getElem? hg)
      · rw [List.getD_eq_getElem?_getD, List.getElem?_eq_none (by simp [rowAt]; omega)]
        rfl
    have hc : ∀ d : List ℝ, d.length = q.prob.ndec → q.prob.constr d = q'.prob.constr (dropNoise P N xn.length nw d) := fun d hdl => by
      rw [(q4 d hdl).2.1, (q4' _ (key d hdl).1).2.1, jmeDefects_quiet (hdl.trans q3) fun i hi l _ j _ => Finset.sum_eq_zero fun b _ => by rw [hGz, mul_zero]]
    refine ⟨hc, fun ho M hM d v hdl hfe hv => ?_⟩
    obtain ⟨hl, a, b, pen, e1, e2, e3, e4, -⟩ := key d hdl
    have hb := hM _ b hl ((hc d hdl).symm.trans hfe) e2
    obtain ⟨n1, -⟩ := noiseEnergy_nonneg (nw := nw) (w := fun i => noiseAt U.jtRange (jmeW P N xn.length nw d i) N nw) hpos hlen
    obtain rfl : a = v := Except.ok.inj (e1.symm.trans hv)
    rw [e4 (Or.inr hfe), ho] at e3
    simp only [Bool.false_eq_true, if_false, zero_mul, Finset.sum_const_zero, mul_zero, sub_zero] at e3
    linarith

/-- All hypotheses hold for the random walk: the joint MAP problem with zero noise has the value of the output error problem, whose model knows no `G`. -/
example : ∃ c c', symjmeInit SExpr.arith RandomWalk.user PendulumId.jiter RandomWalk.vars [] = .ok c ∧
    symoemInit SExpr.arith 3 (oemMethods SExpr.arith RandomWalk.user.toOEMUser) PendulumId.iter (RandomWalk.vars.take 3) [] = .ok c' ∧ ∃ m m',
    symjmeGen (exprCode (shapeOf c.vars)) RandomWalk.user ⟨[1, 1], [1]⟩ none c = .ok m ∧ symoemGen (exprCode (shapeOf c'.vars)) 3 c' = .ok m' ∧
    ∃ q q', jmeProblem m PendulumId.t PendulumId.y (.callable fun _ => .ok (.array PendulumId.ua)) = .ok q ∧
      oemProblem ColProblem.initVars m' PendulumId.t PendulumId.y (.callable fun _ => .ok (.array PendulumId.ua)) = .ok q' ∧
      q.prob.obj [2, 2, 2, 2, 2, 0, 0, 0, 0] = q'.prob.obj [2, 2, 2, 2, 2] := by
  obtain ⟨c, c', h1, h1', -, h3⟩ := C101_noise arith_ok RandomWalk.user RandomWalk.functions.withDiv (xn := ["pos"]) (un := ["unused"]) (pn := []) (yn := ["pos_meas"]) (N := 2) (nw := 1)
    (denotes_withDiv (fun x u p _ _ _ a ha => by
      simp only [RandomWalk.user, List.mem_cons, List.not_mem_nil, or_false] at ha
      subst ha
      exact fun env => trivial) RandomWalk.denotes) rfl (by decide)
    ⟨rfl, by intro r hr; simp only [RandomWalk.user, List.mem_cons, List.not_mem_nil, or_false] at hr; rcases hr with rfl | rfl | rfl <;> rfl⟩
    RandomWalk.vars_ok rfl rfl rfl (decision := []) (decision' := []) (by unfold DecisionOK; decide) PendulumId.jiter_ok ⟨[1, 1], [1]⟩ ⟨rfl, rfl⟩ none (fun h => by cases h)
    (vars' := RandomWalk.vars.take 3) ⟨by decide, rfl, Or.inl rfl, by right; exact ⟨rfl, rfl⟩, fun v h => by cases h⟩ rfl (by unfold DecisionOK; decide) PendulumId.iter_ok
  obtain ⟨m, m', g1, g1', m1, m3, m5, h4⟩ := h3 (exprCode (shapeOf c.vars)) (exprCode (shapeOf c'.vars)) (fun _ g _ => C66_expr_code _ g) fun _ g _ => C66_expr_code _ g
  obtain ⟨q, q', q1, q1', q3, q3', h5, -⟩ := h4 PendulumId.t PendulumId.y _ PendulumId.ua 2 (PendulumId.input m1 m5) (PendulumId.inputs m1 m5 m3)
  exact ⟨c, c', h1, h1', m, m', g1, g1', q, q', q1, q1', (h5 [2, 2, 2, 2, 2] (by rw [q3']; rfl)).2.2 rfl fun h => by cases h⟩

end Ceacoest
