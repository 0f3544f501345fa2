import Verif.Props.BrysonDenham

/-! # C73: the brachistochrone example -/

namespace Ceacoest
open Polynomial Spec RK

namespace Brachistochrone
open SExpr

/-- The methods on numbers. -/
noncomputable def functions : OCFunctions where
  f x u p := [x.getD 2 0 * Real.sin (u.getD 0 0) * p.getD 0 0, -x.getD 2 0 * Real.cos (u.getD 0 0) * p.getD 0 0,
    9.80665 * Real.cos (u.getD 0 0) * p.getD 0 0]
  L _ _ _ := 0
  M _ p := p.getD 0 0
  g _ _ _ := []
  h _ _ := []

theorem denotes : OCDenotes ev brachistochrone functions 3 1 1 0 0 where
  lenf := fun _ _ _ _ _ _ => rfl
  leng := fun _ _ _ _ _ _ => rfl
  lenh := fun _ _ _ _ => rfl
  f := fun x u p env _ _ _ => by
    simp only [brachistochrone, functions, List.map_cons, List.map_nil, ev, Pendulum.getD_map_ev]
    congr 3
    ring
  L := fun x u p env _ _ _ => rfl
  M := fun xe p env _ _ => by simp only [brachistochrone, functions, Pendulum.getD_map_ev]
  g := fun x u p env _ _ _ => rfl
  h := fun xe p env _ _ => rfl

theorem total : OCTotal brachistochrone where
  f := fun x u p hx hu hp a ha => by
    simp only [brachistochrone, List.mem_cons, List.not_mem_nil, or_false] at ha
    rcases ha with rfl | rfl | rfl
    · exact fun env => ⟨⟨total_getD hx 2 env, total_getD hu 0 env⟩, total_getD hp 0 env⟩
    · exact fun env => ⟨⟨⟨trivial, total_getD hx 2 env⟩, total_getD hu 0 env⟩, total_getD hp 0 env⟩
    · exact fun env => ⟨⟨trivial, total_getD hu 0 env⟩, total_getD hp 0 env⟩
  L := fun x u p _ hu _ env => trivial
  M := fun xe p hx hp => total_getD hp 0
  g := fun x u p hx hu _ a ha => by cases ha
  h := fun xe p hx _ a ha => by cases ha

theorem vars_ok : ColVars brachistochroneVars ["x", "y", "v"] ["theta"] ["tf"] where
  keys := by decide
  x := rfl
  u := Or.inl rfl
  p := Or.inl rfl
  pieceLen := fun v h => by cases h

end Brachistochrone

open Brachistochrone in
/-- **C73.** The brachistochrone example, on any mesh: the objective is the last decision variable, the final time; the constraints all vanish if
and only if the decision vector holds the points of a collocation solution of the equations of motion; the derivatives are exact at
every decision vector. -/
theorem C73_brachistochrone {iter : String → List String} (hi : OrdersOK iter ocWrt) :
    ∃ c, symocInit SExpr.arith brachistochrone iter brachistochroneVars [] = .ok c ∧
      ∃ m, symocGen (exprCode (shapeOf c.vars)) brachistochrone c = .ok m ∧
      ∀ (t : NDArray ℝ) (P : Nat), 1 ≤ P → t.shape = [P + 1] → t.WF → t.data.Pairwise (· < ·) →
      ∃ q, ocProblem m t = .ok q ∧ q.prob.ndec = (P * 2 + 1) * 4 + 1 ∧ ∀ d : List ℝ, d.length = q.prob.ndec →
        q.prob.obj d = .ok (d.getD ((P * 2 + 1) * 4) 0) ∧ DerivativesRight q.prob d ∧ ∃ cv, q.prob.constr d = .ok cv ∧ cv.length = P * (2 * 3) ∧
        ((∀ a ∈ cv, a = 0) ↔ ∃ z, CollocationPath t.data c.col.points
          (fun i l => functions.f (ocX 3 d (i * 2 + l)) (ocU P 2 3 1 d (i * 2 + l)) [d.getD ((P * 2 + 1) * 4) 0])
          (fun i l => ocX 3 d (i * 2 + l)) P 2 3 z) := by
  have hdec : DecisionOK brachistochroneVars ["x", "u", "p", "xp", "up", "xe"] ["piece_len"] [] := by unfold DecisionOK; decide
  obtain ⟨c, h1, h2, m, h3, h4⟩ := C70_oc_expr brachistochrone total functions (xn := ["x", "y", "v"]) (un := ["theta"]) (pn := ["tf"]) (N := 2)
    denotes rfl (by decide) vars_ok hdec hi
  refine ⟨c, h1, m, h3, fun t P hP hs hw hinc => ?_⟩
  obtain ⟨q, q1, q2, q3⟩ := h4 t P hP hs hw hinc
  obtain ⟨c', k1, k2⟩ := C72_oc arith_ok brachistochrone functions (xn := ["x", "y", "v"]) (un := ["theta"]) (pn := ["tf"]) (N := 2)
    denotes rfl (by decide) vars_ok hdec hi
  obtain rfl : c = c' := Except.ok.inj (h1.symm.trans k1)
  obtain ⟨m', k3, k4⟩ := k2 (exprCode (shapeOf c.vars)) fun _ g _ => C66_expr_code _ g
  obtain rfl : m = m' := Except.ok.inj (h3.symm.trans k3)
  obtain ⟨q', k5, k6⟩ := k4 t P hP hs hw hinc
  obtain rfl : q = q' := Except.ok.inj (q1.symm.trans k5)
  refine ⟨q, q1, q2, fun d hd => ?_⟩
  obtain ⟨r1, r2, r3⟩ := q3 d hd
  obtain ⟨cv, hcv, hiff⟩ := k6 d hd
  have hp : ocP P 2 3 1 1 d = [d.getD ((P * 2 + 1) * 4) 0] := rfl
  have e : cv = (List.range P).flatMap fun i => defects c.col.J (fun r => functions.f (ocX 3 d r) (ocU P 2 3 1 d r) (ocP P 2 3 1 1 d))
      (ocX 3 d) 2 3 (i * 2) ((diff t.data).getD i 0) := by
    refine (Except.ok.inj (hcv.symm.trans r2)).trans ?_
    unfold ocConstraints
    rw [show functions.g = fun _ _ _ => [] from rfl, show functions.h = fun _ _ => [] from rfl, List.append_nil]
    rw [List.flatMap_eq_nil_iff.2 fun _ _ => rfl, List.append_nil]
    rfl
  have hl : cv.length = P * (2 * 3) := by
    rw [e]
    exact (flatMap_getElem? P fun i _ => defects_length ..).1
  refine ⟨?_, r3, cv, hcv, hl, ?_⟩
  · rw [r1]
    unfold ocCost
    rw [show functions.L = fun _ _ _ => 0 from rfl, show functions.M = fun _ p => p.getD 0 0 from rfl]
    simp only [zero_mul, Finset.sum_const_zero, zero_add]
    rfl
  · rw [← hp]
    refine Iff.trans ?_ hiff
    constructor
    · intro h k hk
      have : k < cv.length := by rw [hl]; exact hk
      rw [getD_of_lt _ _ this]
      exact h _ (List.getElem_mem _)
    · intro h a ha
      obtain ⟨k, hk, rfl⟩ := List.getElem_of_mem ha
      rw [← getD_of_lt _ 0 hk]
      exact h k (by rw [hl] at hk; exact hk)

/-- A mesh of 100 equal pieces: 805 decision variables. -/
example : ∃ c, symocInit SExpr.arith brachistochrone Pendulum.iter brachistochroneVars [] = .ok c ∧
    ∃ m, symocGen (exprCode (shapeOf c.vars)) brachistochrone c = .ok m ∧ ∃ q, ocProblem m brysonDenhamMesh = .ok q ∧ q.prob.ndec = 805 := by
  obtain ⟨c, h1, m, h2, h3⟩ := C73_brachistochrone Pendulum.iter_ok
  obtain ⟨q, q1, q2, -⟩ := h3 brysonDenhamMesh 100 (by decide) rfl (by simp [NDArray.WF, brysonDenhamMesh])
    (List.pairwise_map.2 (List.pairwise_lt_range.imp fun h => by gcongr))
  exact ⟨c, h1, m, h2, q, q1, q2⟩

end Ceacoest
