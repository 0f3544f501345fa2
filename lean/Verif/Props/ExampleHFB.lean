import Verif.Props.ExampleModels
import Verif.Props.ExamplesEstimation
import Verif.Props.Convergence
import Verif.Props.MaximumPrinciple
import Verif.Props.Coordinates
import Verif.Spec.ExampleHFB

/-! # C110: the identification problem of `examples/hfb320_long_oem.py` -/

namespace Ceacoest
open Spec RK Ex

namespace ExModels
open SExpr

theorem sy_cons_zero (a : SExpr) (l : List SExpr) : sy (a :: l) 0 = a := rfl
theorem sy_cons_succ (a : SExpr) (l : List SExpr) (i : Nat) : sy (a :: l) (i + 1) = sy l i := rfl

theorem hfb_denotes (c : HFBConsts) : OEMDenotes ev (hfb c) (hfbFunctions c) 4 2 22 7 where
  lenf := fun _ _ _ _ _ _ => rfl
  f := fun x u p env _ _ _ => by
    simp only [hfb, hfbFE, hfbCoeffs]
    ev_model
    rfl
  L := fun y x u p env _ _ _ _ => by
    simp only [hfb, hfbOutputsE, hfbCoeffs, ev, Examples.logpdf_ev]
    simp only [sy_cons_zero, show ∀ (a : SExpr) l, sy (a :: l) 1 = sy l 0 from fun _ _ => rfl, show ∀ (a : SExpr) l, sy (a :: l) 2 = sy l 1 from fun _ _ => rfl,
      show ∀ (a : SExpr) l, sy (a :: l) 3 = sy l 2 from fun _ _ => rfl, show ∀ (a : SExpr) l, sy (a :: l) 4 = sy l 3 from fun _ _ => rfl,
      show ∀ (a : SExpr) l, sy (a :: l) 5 = sy l 4 from fun _ _ => rfl, show ∀ (a : SExpr) l, sy (a :: l) 6 = sy l 5 from fun _ _ => rfl]
    ev_model
    simp only [hfbFunctions, Fin.sum_univ_seven]
    rfl

theorem hfb_defined {c : HFBConsts} (hV : c.V0 ≠ 0) (hm : c.mass ≠ 0) :
    OEMDefinedOn (hfb c) (fun x _ _ => x.getD 0 0 ≠ 0) (fun _ _ _ p => ∀ j < 7, 0 < p.getD (15 + j) 0) where
  f := fun x u p env ⟨hd, h⟩ => by
    have hx := def_sy (l := x) (env := env) fun a ha => hd a (by simp [ha])
    have hu := def_sy (l := u) (env := env) fun a ha => hd a (by simp [ha])
    have hp := def_sy (l := p) (env := env) fun a ha => hd a (by simp [ha])
    simp only [hfb, hfbFE, hfbCoeffs, List.forall_mem_cons, Defined, def_neg, def_sub, def_div, def_sq, hx, hu, hp, ev_sy, ev, ne_eq, mul_eq_zero, hV, hm, h,
      not_false_eq_true, or_self, and_self, List.not_mem_nil, false_imp_iff, implies_true]
  L := fun y x u p env hy ⟨hd, h⟩ => by
    have hyy := def_sy hy
    have hx := def_sy (l := x) (env := env) fun a ha => hd a (by simp [ha])
    have hu := def_sy (l := u) (env := env) fun a ha => hd a (by simp [ha])
    have hp := def_sy (l := p) (env := env) fun a ha => hd a (by simp [ha])
    have hm : ∀ j, (sy (hfbOutputsE c x u p) j).Defined env := def_sy (by
      simp only [hfbOutputsE, hfbCoeffs, List.forall_mem_cons, Defined, def_neg, def_sub, def_div, def_sq, hx, hu, hp, ev, ne_eq, hV, hm,
        not_false_eq_true, and_self, List.not_mem_nil, false_imp_iff, implies_true])
    have ht : ∀ j < 7, (normalLogpdf1Expr (sy y j) (sy (hfbOutputsE c x u p) j) (sy p (15 + j))).Defined env := fun j hj =>
      Examples.logpdf_defined (hyy j) (hm j) (hp _) (by rw [ev_sy]; exact h j hj)
    exact ⟨⟨⟨⟨⟨⟨ht 0 (by decide), ht 1 (by decide)⟩, ht 2 (by decide)⟩, ht 3 (by decide)⟩, ht 4 (by decide)⟩, ht 5 (by decide)⟩, ht 6 (by decide)⟩

theorem hfbVars_ok : ColVars hfbVars ["V", "alpha", "theta", "q"] ["de", "T"] hfbParams where
  keys := by decide
  x := rfl
  u := Or.inl rfl
  p := Or.inl rfl
  pieceLen := fun v h => by cases h

/-- **C110.** The output error problem of the HFB-320: the objective is the log-likelihood of the measurements, the constraints are the defects of the equations of
motion, and the derivatives are right at every decision vector within the bounds of the script. -/
theorem C110_hfb {iter : String → List String} (hi : OrdersOK iter oemWrt) :
    ∃ s, symoemInit SExpr.arith 3 (oemMethods SExpr.arith (hfb hfbGiven)) iter hfbVars [] = .ok s ∧ lglCollocation 3 = .ok s.col ∧
      ∃ m, symoemGen (exprCode (shapeOf s.vars)) 3 s = .ok m ∧ m.collocationOrder = 3 ∧ m.nx = 4 ∧ m.nu = 2 ∧ m.np = 22 ∧ m.ny = 7 ∧
      ∀ (t : NDArray ℝ) (y : MaskedArray) (u : UArg) (ua : NDArray ℝ) (P : Nat), OEMInput m t y P → InputsOK m t u ua →
      (∀ b ∈ y.mask, b = false) → ∃ q, oemProblem ColProblem.initVars m t y u = .ok q ∧ q.prob.ndec = (P * 2 + 1) * 4 + 22 ∧
      ∀ d p : List ℝ, d.length = q.prob.ndec → p = rowAt d ((P * 2 + 1) * 4) 22 0 →
        q.prob.obj d = .ok (logLikelihood (hfbFunctions hfbGiven) (List.range (P + 1)) y.arr.data ua.data 2 4 2 7 p d) ∧
        q.prob.constr d = .ok (oemConstraints (hfbFunctions hfbGiven) s.col.J (diff t.data) ua.data P 2 4 2 p d) ∧
        (HFBBounds P d → DerivativesRight q.prob d) := by
  obtain ⟨s, h1, h2, m, h3, m1, m2, m3, m4, m5, h4⟩ := C70_oem_expr_at (hfb hfbGiven) (hfb_defined (by norm_num [hfbGiven]) (by norm_num [hfbGiven])) (hfbFunctions hfbGiven)
    (xn := ["V", "alpha", "theta", "q"]) (un := ["de", "T"]) (pn := hfbParams) (yn := hfbMeas) (N := 2) (hfb_denotes hfbGiven) rfl (by decide) hfbVars_ok rfl
    (decision := []) (by unfold DecisionOK; decide) hi
  refine ⟨s, h1, h2, m, h3, m1, m2, m3, m4, m5, fun t y u ua P hin hu hmask => ?_⟩
  obtain ⟨q, rows, q1, qr, q3, q4⟩ := h4 t y u ua P hin hu
  have hrows : rows = List.range (P + 1) := by
    refine measuredRows_unique qr ⟨List.pairwise_lt_range, fun k => ?_⟩
    rw [List.mem_range]
    refine ⟨fun hk => ⟨hk, ?_⟩, And.left⟩
    have hl : k * 7 + 0 < y.mask.length := by rw [hin.ymask, m5]; change _ < (P + 1) * 7; omega
    exact ⟨0, by decide, (getD_of_lt y.mask true hl).trans (hmask _ (List.getElem_mem _))⟩
  subst hrows
  refine ⟨q, q1, q3, fun d p hd hp => ?_⟩
  obtain ⟨r1, r2, r3⟩ := q4 d p hd hp
  refine ⟨r1, r2, fun hb => r3 (fun r hr => ?_) fun k _ j hj => ?_⟩
  · change (rowAt d 0 4 r).getD 0 0 ≠ 0
    rw [rowAt_getD (by norm_num), Nat.add_zero, Nat.zero_add]
    have := hb.V r hr
    linarith
  · rw [hp, rowAt_getD (by omega), Nat.zero_mul, Nat.zero_add]
    rcases Nat.eq_zero_or_pos j with rfl | h0
    · have := hb.V_std
      rw [Nat.add_zero]
      linarith
    · have := hb.std j h0 (by omega)
      linarith

/-- All hypotheses of C110 hold, here with three samples: forty-two decision variables. -/
example : ∃ s, symoemInit SExpr.arith 3 (oemMethods SExpr.arith (hfb hfbGiven)) PendulumId.iter hfbVars [] = .ok s ∧
    ∃ m, symoemGen (exprCode (shapeOf s.vars)) 3 s = .ok m ∧
    ∃ q, oemProblem ColProblem.initVars m ⟨[3], [0, 0.1, 0.2]⟩ ⟨⟨[3, 7], List.replicate 21 1⟩, List.replicate 21 false⟩
      (.callable fun _ => .ok (.array ⟨[5, 2], [0, 1, 2, 3, 4, 5, 6, 7, 8, 9]⟩)) = .ok q ∧ q.prob.ndec = 42 := by
  obtain ⟨s, h1, -, m, h2, m1, -, m3, -, m5, h3⟩ := C110_hfb PendulumId.iter_ok
  have hin : OEMInput m ⟨[3], [0, 0.1, 0.2]⟩ ⟨⟨[3, 7], List.replicate 21 1⟩, List.replicate 21 false⟩ 2 :=
    ⟨by rw [m1]; decide, by decide, rfl, rfl, by norm_num, by rw [m5], rfl, by rw [m5]; rfl⟩
  obtain ⟨q, q1, q2, -⟩ := h3 _ _ (.callable fun _ => .ok (.array ⟨[5, 2], [0, 1, 2, 3, 4, 5, 6, 7, 8, 9]⟩)) ⟨[5, 2], [0, 1, 2, 3, 4, 5, 6, 7, 8, 9]⟩ 2 hin (by
    intro col tc hcol htc
    obtain ⟨col', tc', g1, g2, g3, -, g5, g6, -⟩ := create_eq m.toColModel hin.order ⟨[3], [0, 0.1, 0.2]⟩ 2 rfl rfl hin.tinc
    have e1 : lglCollocation m.collocationOrder = .ok col' := g1
    rw [hcol] at e1
    cases e1
    rw [htc] at g5
    cases g5
    have hn : col.ninterv = 2 := by
      have : (col.n : Int) = 3 := by rw [← m1]; exact g2
      omega
    refine ⟨rfl, ?_, rfl⟩
    rw [g6, hn, m3]) (by simp)
  exact ⟨s, h1, m, h2, q, q1, q2⟩

/-- The guess of hfb320_long_oem.py:135-140, with a speed of 100 at all points, is within the bounds. -/
example : HFBBounds 1 ((List.replicate 3 [100, 0, 0, 0]).flatten ++ List.replicate 15 0 ++ List.replicate 7 1) where
  V := fun r hr => by interval_cases r <;> norm_num [List.replicate]
  V_std := by norm_num [List.replicate]
  std := fun j h1 h2 => by interval_cases j <;> norm_num [List.replicate]

/-- The log-likelihood by kinds of measurements. -/
theorem hfb_logL (c : HFBConsts) (n : Nat) (y u p d : List ℝ) :
    logLikelihood (hfbFunctions c) (List.range n) y u 2 4 2 7 p d =
      ∑ j : Fin 7, (-hfbResidual c n y u p d j / (2 * p.getD (15 + j) 0 ^ 2) - n * Real.log (p.getD (15 + j) 0)) := by
  rw [logLikelihood, list_sum_range]
  simp only [hfbFunctions]
  rw [Finset.sum_comm]
  refine Finset.sum_congr rfl fun j _ => ?_
  rw [Finset.sum_sub_distrib, Finset.sum_const, Finset.card_range, nsmul_eq_mul, ← Finset.sum_div, Finset.sum_neg_distrib]
  rfl

theorem hfbWith_set (c : HFBConsts) (p : List ℝ) (j : Nat) (s : ℝ) : hfbWith c (p.set (15 + j) s) = hfbWith c p := by
  have h : ∀ i < 15, (p.set (15 + j) s).getD i 0 = p.getD i 0 := fun i hi => Attas.getD_set_ne (by omega)
  simp only [hfbWith, h 0 (by decide), h 1 (by decide), h 2 (by decide), h 3 (by decide), h 4 (by decide), h 5 (by decide), h 6 (by decide), h 7 (by decide),
    h 8 (by decide), h 9 (by decide), h 10 (by decide), h 11 (by decide), h 12 (by decide), h 13 (by decide), h 14 (by decide)]

/-- **C110**: the best standard deviation of a kind of measurements is the root of the mean square of its residuals. Replacing the one in a decision vector by it does not
decrease the objective and leaves the constraints alone. -/
theorem C110_std {iter : String → List String} (hi : OrdersOK iter oemWrt) :
    ∃ s, symoemInit SExpr.arith 3 (oemMethods SExpr.arith (hfb hfbGiven)) iter hfbVars [] = .ok s ∧
      ∃ m, symoemGen (exprCode (shapeOf s.vars)) 3 s = .ok m ∧
      ∀ (t : NDArray ℝ) (y : MaskedArray) (u : UArg) (ua : NDArray ℝ) (P : Nat), OEMInput m t y P → InputsOK m t u ua →
      (∀ b ∈ y.mask, b = false) → ∃ q, oemProblem ColProblem.initVars m t y u = .ok q ∧
      ∀ d p : List ℝ, d.length = q.prob.ndec → p = rowAt d ((P * 2 + 1) * 4) 22 0 → ∀ j : Fin 7, 0 < p.getD (15 + j) 0 →
        ∀ S, S = hfbResidual hfbGiven (P + 1) y.arr.data ua.data p d j → 0 < S →
        ∃ a b cv, q.prob.obj d = .ok a ∧ q.prob.obj (d.set ((P * 2 + 1) * 4 + (15 + j)) (√(S / (P + 1 : ℕ)))) = .ok b ∧ a ≤ b ∧
          q.prob.constr d = .ok cv ∧ q.prob.constr (d.set ((P * 2 + 1) * 4 + (15 + j)) (√(S / (P + 1 : ℕ)))) = .ok cv := by
  obtain ⟨s, h1, -, m, h3, -, -, -, -, -, h4⟩ := C110_hfb hi
  refine ⟨s, h1, m, h3, fun t y u ua P hin hu hmask => ?_⟩
  obtain ⟨q, q1, q3, q4⟩ := h4 t y u ua P hin hu hmask
  refine ⟨q, q1, fun d p hd hp j hj S hS hS0 => ?_⟩
  have hj7 := j.2
  set i := (P * 2 + 1) * 4 + (15 + (j : Nat)) with hi'
  set σ := √(S / (P + 1 : ℕ))
  have hp' : rowAt (d.set i σ) ((P * 2 + 1) * 4) 22 0 = p.set (15 + j) σ := by
    have := rowAt_set (d := d) (off := (P * 2 + 1) * 4) (n := 22) (r := 0) (b := 15 + j) (by omega) (by rw [hd, q3]; omega) σ 0
    rw [Function.update_self, Nat.zero_mul, Nat.zero_add, ← hp] at this
    exact this
  have hx : ∀ r ≤ P * 2, rowAt (d.set i σ) 0 4 r = rowAt d 0 4 r := fun r hr => rowAt_set_other (Or.inr (by omega)) σ
  obtain ⟨o1, c1, -⟩ := q4 d p hd hp
  obtain ⟨o2, c2, -⟩ := q4 (d.set i σ) (p.set (15 + j) σ) (by rw [List.length_set, hd]) hp'.symm
  have hres : ∀ i', hfbResidual hfbGiven (P + 1) y.arr.data ua.data (p.set (15 + j) σ) (d.set i σ) i' = hfbResidual hfbGiven (P + 1) y.arr.data ua.data p d i' := by
    intro i'
    unfold hfbResidual
    rw [hfbWith_set]
    refine Finset.sum_congr rfl fun k hk => ?_
    rw [hx (k * 2) (Nat.mul_le_mul_right 2 (by have := Finset.mem_range.1 hk; omega))]
  refine ⟨_, _, _, o1, o2, ?_, c1, ?_⟩
  · rw [hfb_logL, hfb_logL]
    refine Finset.sum_le_sum fun i' _ => ?_
    rw [hres]
    by_cases he : i' = j
    · subst he
      have e : (p.set (15 + i') σ).getD (15 + i') 0 = σ := Attas.getD_set_eq (by rw [hp, rowAt_length]; omega)
      rw [e, ← hS]
      exact Examples.std_best hS0 (by positivity) hj
    · have e : (p.set (15 + j) σ).getD (15 + i') 0 = p.getD (15 + i') 0 := Attas.getD_set_ne (by
        intro h; exact he (Fin.ext (by omega)))
      rw [e]
  · rw [c2]
    congr 1
    refine List.flatMap_congr fun k hk => defects_congr (fun l hl => ?_) fun l hl => ?_
    all_goals
      have hk := List.mem_range.1 hk
    · change List.ofFn _ = List.ofFn _
      rw [hfbWith_set, hx _ (by omega)]
    · exact hx _ (by omega)

/-- **C110** (names). The equations read each parameter at the position of its name in the script, and the standard deviations come in the order of the measurements. -/
theorem C110_names : ∃ ps ms, Dict.get? hfbVars "p" = some (.vec ps) ∧ Dict.get? hfbVars "y" = some (.vec ms) ∧
    ms = ["V_meas", "alpha_meas", "theta_meas", "q_meas", "qdot_meas", "ax_meas", "az_meas"] ∧ ps.drop 15 = ms.map (· ++ "_std") ∧
    ∀ (c : HFBConsts) (v : String → ℝ), hfbWith c (ps.map v) =
      { c with
        CD0 := v "CD0", CDV := v "CDV", CDa := v "CDa", CL0 := v "CL0", CLV := v "CLV", CLa := v "CLa", Cm0 := v "Cm0", CmV := v "CmV", Cma := v "Cma", Cmq := v "Cmq",
        Cmde := v "Cmde", q_bias := v "q_bias", qdot_bias := v "qdot_bias", ax_bias := v "ax_bias", az_bias := v "az_bias" } :=
  ⟨hfbParams, hfbMeas, rfl, rfl, rfl, by decide, fun _ _ => rfl⟩

end ExModels
end Ceacoest
