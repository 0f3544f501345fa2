import Verif.Model.TestModels
import Verif.Spec.TestModels
import Verif.Props.TranscriptionOEMExpr
import Verif.Props.Coordinates

/-! # C108: the problems of the test modules -/

namespace Ceacoest
open Spec RK

namespace TestModels
open SExpr

theorem ev_sq (a : SExpr) (env : Env) : ev (sq a) env = ev a env ^ 2 := by simp only [sq, ev]; ring
theorem ev_cube (a : SExpr) (env : Env) : ev (cube a) env = ev a env ^ 3 := by simp only [cube, ev]; ring
theorem ev_fourth (a : SExpr) (env : Env) : ev (fourth a) env = ev a env ^ 4 := by simp only [fourth, ev, ev_sq]; ring

theorem ev_pow (a b : SExpr) (env : Env) : ev (exp (mul (add (sq a) (const 1)) (log (add (sq b) (const 2))))) env = (ev b env ^ 2 + 2) ^ (ev a env ^ 2 + 1) := by
  have h : 0 < ev b env ^ 2 + 2 := by positivity
  rw [Real.rpow_def_of_pos h]
  simp only [ev, ev_sq]
  congr 1
  ring

theorem oc_denotes (order : Int) : OCDenotes ev (oc order) Spec.TestModels.oc 3 2 2 2 2 where
  lenf := fun _ _ _ _ _ _ => rfl
  leng := fun _ _ _ _ _ _ => rfl
  lenh := fun _ _ _ _ => rfl
  f := fun x u p env _ _ _ => by
    simp only [oc, Spec.TestModels.oc, List.map_cons, List.map_nil, ev_sq, ev_cube, ev, Pendulum.getD_map_ev]
  L := fun x u p env _ _ _ => by
    simp only [oc, Spec.TestModels.oc, ev_sq, ev_fourth, ev, Pendulum.getD_map_ev]
  M := fun xe p env _ _ => by
    simp only [oc, Spec.TestModels.oc, ev_sq, ev_cube, ev, Pendulum.getD_map_ev]
  g := fun x u p env _ _ _ => by
    simp only [oc, Spec.TestModels.oc, List.map_cons, List.map_nil]
    rw [show ∀ a b : SExpr, ev (mul a b) env = ev a env * ev b env from fun _ _ => rfl, ev_pow]
    simp only [ev_sq, ev_cube, ev, Pendulum.getD_map_ev]
    congr 2
    ring
  h := fun xe p env _ _ => by
    simp only [oc, Spec.TestModels.oc, List.map_cons, List.map_nil, ev_cube, ev, Pendulum.getD_map_ev]

theorem total_sq {a : SExpr} (h : a.Total) : (sq a).Total := fun env => ⟨h env, h env⟩
theorem total_cube {a : SExpr} (h : a.Total) : (cube a).Total := fun env => ⟨h env, h env, h env⟩
theorem total_fourth {a : SExpr} (h : a.Total) : (fourth a).Total := fun env => ⟨total_sq h env, total_sq h env⟩
theorem total_times {a b : SExpr} (ha : a.Total) (hb : b.Total) : (mul a b).Total := fun env => ⟨ha env, hb env⟩
theorem total_plus {a b : SExpr} (ha : a.Total) (hb : b.Total) : (add a b).Total := fun env => ⟨ha env, hb env⟩

theorem oc_total (order : Int) : OCTotal (oc order) where
  f := fun x u p hx hu hp a ha => by
    simp only [oc, List.mem_cons, List.not_mem_nil, or_false] at ha
    have x1 := total_getD hx 0
    have x2 := total_getD hx 1
    have u1 := total_getD hu 0
    have u2 := total_getD hu 1
    have p1 := total_getD hp 0
    rcases ha with rfl | rfl | rfl
    · exact total_times x1 fun env => x2 env
    · exact total_times (total_times (total_times u1 u2) p1) (total_sq x2)
    · exact total_times (total_times (total_sq u1) (total_cube x1)) fun env => p1 env
  L := fun x u p hx hu hp => by
    have x1 := total_getD hx 0
    have u1 := total_getD hu 0
    have u2 := total_getD hu 1
    have p1 := total_getD hp 0
    have p2 := total_getD hp 1
    exact total_plus (total_plus (total_plus (total_sq x1) (total_fourth p2)) (total_times (total_times p1 u2) (total_plus x1 (total_num 2))))
      (total_sq (total_plus (total_plus (total_plus p2 u1) u2) x1))
  M := fun xe p hx hp =>
    total_plus (total_plus (total_times (total_cube (total_getD hx 5)) (total_cube (total_getD hp 1))) (total_times (total_getD hp 0) (total_getD hx 0)))
      (total_times (total_getD hx 3) (total_sq (total_getD hx 1)))
  g := fun x u p hx hu hp a ha => by
    simp only [oc, List.mem_cons, List.not_mem_nil, or_false] at ha
    have x1 := total_getD hx 0
    have u1 := total_getD hu 0
    have p1 := total_getD hp 0
    have p2 := total_getD hp 1
    rcases ha with rfl | rfl
    · refine total_times (fun env => ⟨total_plus (total_sq x1) (total_num 1) env, total_plus (total_sq u1) (total_num 2) env, ?_⟩) p1
      simp only [ev, ev_sq]
      positivity
    · exact total_times (total_times (total_times (total_cube p1) p2) (total_sq u1)) p2
  h := fun xe p hx hp a ha => by
    simp only [oc, List.mem_cons, List.not_mem_nil, or_false] at ha
    rcases ha with rfl | rfl
    · exact total_times (total_getD hx 0) (total_cube (total_getD hp 0))
    · exact total_times (total_times (total_getD hx 0) (total_cube (total_getD hx 4))) (total_getD hp 0)

theorem ocVars_ok : ColVars ocVars ["x1", "x2", "x3"] ["u1", "u2"] ["p1", "p2"] where
  keys := by decide
  x := rfl
  u := Or.inl rfl
  p := Or.inl rfl
  pieceLen := fun v h => by cases h

theorem times_ok {P : Nat} (hP : 1 ≤ P) : (times P).shape = [P + 1] ∧ (times P).WF ∧ (times P).data.Pairwise (· < ·) := by
  refine ⟨rfl, by simp [NDArray.WF, times], List.Pairwise.map _ (fun a b hab => ?_) List.pairwise_lt_range⟩
  have : (0 : ℝ) < P := by exact_mod_cast hP
  exact div_lt_div_of_pos_right (by exact_mod_cast hab) this

theorem times_getD {P k : Nat} (hk : k ≤ P) : (times P).data.getD k 0 = (k : ℝ) / P := by
  have : k < P + 1 := by omega
  simp [times, List.getD_eq_getElem?_getD, this]

theorem times_diff {P : Nat} : diff (times P).data = List.replicate P (1 / (P : ℝ)) := by
  have hl : (times P).data.length = P + 1 := by simp [times]
  refine List.ext_getElem (by rw [diff_length, hl]; simp) fun i h1 h2 => ?_
  rw [List.length_replicate] at h2
  have hg : (diff (times P).data)[i] = (diff (times P).data).getD i 0 := by simp [List.getD_eq_getElem?_getD, h1]
  rw [hg, diff_getD (by omega), times_getD (by omega), times_getD (by omega), List.getElem_replicate]
  push_cast
  ring

theorem oem_denotes (order : Int) : OEMDenotes ev (oem order) Spec.TestModels.oem 3 1 2 2 where
  lenf := fun _ _ _ _ _ _ => rfl
  f := fun x u p env _ _ _ => by
    simp only [oem, Spec.TestModels.oem, List.map_cons, List.map_nil, ev_sq, ev_cube, ev, Pendulum.getD_map_ev]
  L := fun y x u p env _ _ _ _ => by
    simp only [oem, Spec.TestModels.oem, ev_sq, ev_fourth, ev, Pendulum.getD_map_ev]
    ring

theorem oem_total (order : Int) : OEMTotal (oem order) where
  f := fun x u p hx hu hp a ha => by
    simp only [oem, List.mem_cons, List.not_mem_nil, or_false] at ha
    have x1 := total_getD hx 0
    have x2 := total_getD hx 1
    have u1 := total_getD hu 0
    have p1 := total_getD hp 0
    rcases ha with rfl | rfl | rfl
    · exact total_times x1 fun env => x2 env
    · exact total_times (total_times u1 p1) (total_sq x2)
    · exact total_times (total_times (total_sq u1) (total_cube x1)) fun env => p1 env
  L := fun y x u p hy hx hu hp => by
    have x1 := total_getD hx 0
    have u1 := total_getD hu 0
    have p1 := total_getD hp 0
    have p2 := total_getD hp 1
    exact total_plus (total_plus (total_plus (total_plus (total_sq x1) (total_fourth p2)) (total_times p1 (total_plus x1 (total_num 2))))
      (total_sq (total_plus (total_plus (total_plus p2 u1) u1) x1))) (total_getD hy 0)

theorem oemVars_ok : ColVars oemVars ["x1", "x2", "x3"] ["u1"] ["p1", "p2"] where
  keys := by decide
  x := rfl
  u := Or.inl rfl
  p := Or.inl rfl
  pieceLen := fun v h => by cases h

theorem all_rows {n m : Nat} {rows : List Nat} (hm : m = n * 2) (h : MeasuredRows (List.replicate m false) n 2 rows) : rows = List.range n := by
  refine measuredRows_unique h ⟨List.pairwise_lt_range, fun k => ?_⟩
  rw [List.mem_range]
  refine ⟨fun hk => ⟨hk, 0, by omega, ?_⟩, fun hk => hk.1⟩
  rw [List.getD_eq_getElem?_getD, List.getElem?_replicate, if_pos (by omega)]
  rfl

end TestModels

open TestModels

/-- **C108.** The optimal control problem of the tests, for every order of at least 2 and every number of pieces: the fixtures succeed, the problem has five
decision variables at every grid point and two more, its functions are those of the model, and its derivatives are right at every decision vector. -/
theorem C108_oc {N : Nat} (hN : 1 ≤ N) {iter : String → List String} (hi : OrdersOK iter ocWrt) :
    ∃ c, symocInit SExpr.arith (oc (N + 1)) iter ocVars [] = .ok c ∧ lglCollocation (N + 1) = .ok c.col ∧
      ∃ m, symocGen (exprCode (shapeOf c.vars)) (oc (N + 1)) c = .ok m ∧ ∀ P : Nat, 1 ≤ P →
      ∃ q, ocTestProblem m P = .ok q ∧ q.prob.ndec = (P * N + 1) * 5 + 2 ∧
        ∀ d : List ℝ, d.length = q.prob.ndec →
          q.prob.obj d = .ok (ocCost Spec.TestModels.oc c.col.K (List.replicate P (1 / (P : ℝ))) P N 3 2 2 d) ∧
          q.prob.constr d = .ok (ocConstraints Spec.TestModels.oc c.col.J (List.replicate P (1 / (P : ℝ))) P N 3 2 2 d) ∧
          DerivativesRight q.prob d := by
  obtain ⟨c, h1, h2, m, h3, h4⟩ := C70_oc_expr (oc (N + 1)) (oc_total _) Spec.TestModels.oc (xn := ["x1", "x2", "x3"]) (un := ["u1", "u2"]) (pn := ["p1", "p2"])
    (N := N) (oc_denotes _) rfl hN ocVars_ok (decision := []) (by unfold DecisionOK; decide) hi
  refine ⟨c, h1, h2, m, h3, fun P hP => ?_⟩
  obtain ⟨t1, t2, t3⟩ := times_ok hP
  obtain ⟨q, q1, q2, q3⟩ := h4 (times P) P hP t1 t2 t3
  rw [times_diff] at q3
  exact ⟨q, q1, q2, q3⟩

/-- The largest case of the tests: order 4 and 4 pieces, 67 decision variables. -/
example : ∃ c, symocInit SExpr.arith (oc 4) Pendulum.iter ocVars [] = .ok c ∧ ∃ m, symocGen (exprCode (shapeOf c.vars)) (oc 4) c = .ok m ∧
    ∃ q, ocTestProblem m 4 = .ok q ∧ q.prob.ndec = 67 ∧ DerivativesRight q.prob (List.replicate 67 (1 / 2)) := by
  obtain ⟨c, h1, -, m, h2, h3⟩ := C108_oc (N := 3) (by decide) Pendulum.iter_ok
  obtain ⟨q, q1, q2, q3⟩ := h3 4 (by decide)
  exact ⟨c, h1, m, h2, q, q1, q2, (q3 _ (by rw [q2, List.length_replicate])).2.2⟩

/-- **C108.** The output error problem of the tests: the measurements of all rows count, the inputs are the cosines of the grid times, and the derivatives
are right at every decision vector, whatever numbers were drawn. -/
theorem C108_oem {N : Nat} (hN : 1 ≤ N) {iter : String → List String} (hi : OrdersOK iter oemWrt) :
    ∃ c, symoemInit SExpr.arith (N + 1) (oemMethods SExpr.arith (oem (N + 1))) iter oemVars [] = .ok c ∧ lglCollocation (N + 1) = .ok c.col ∧
      ∃ m, symoemGen (exprCode (shapeOf c.vars)) (N + 1) c = .ok m ∧ ∀ P : Nat, 1 ≤ P → ∀ randn : List ℝ, randn.length = (P + 1) * 2 →
      ∃ q tc, oemTestProblem m P randn = .ok q ∧ grid c.col.points (times P).data = .ok tc ∧ q.prob.ndec = (P * N + 1) * 3 + 2 ∧
        ∀ d : List ℝ, d.length = q.prob.ndec →
          q.prob.obj d = .ok (∑ k ∈ Finset.range (P + 1), Spec.TestModels.oem.L (rowAt randn 0 2 k) (rowAt d 0 3 (k * N)) [Real.cos ((k : ℝ) / P)]
            (rowAt d ((P * N + 1) * 3) 2 0)) ∧
          q.prob.constr d = .ok (oemConstraints Spec.TestModels.oem c.col.J (List.replicate P (1 / (P : ℝ))) (tc.map Real.cos) P N 3 1
            (rowAt d ((P * N + 1) * 3) 2 0) d) ∧
          DerivativesRight q.prob d := by
  obtain ⟨c, h1, h2, m, h3, m1, m2, m3, m4, m5, h4⟩ := C70_oem_expr (oem (N + 1)) (oem_total _) Spec.TestModels.oem (xn := ["x1", "x2", "x3"]) (un := ["u1"])
    (pn := ["p1", "p2"]) (yn := ["x1_meas", "x2_meas"]) (N := N) (oem_denotes _) rfl hN oemVars_ok rfl (decision := []) (by unfold DecisionOK; decide) hi
  have m1' : m.collocationOrder = (N : Int) + 1 := m1
  refine ⟨c, h1, h2, m, h3, fun P hP randn hr => ?_⟩
  obtain ⟨t1, t2, t3⟩ := times_ok hP
  have hin : OEMInput m (times P) (measurements m P randn) P :=
    ⟨by omega, hP, t1, t2, t3, rfl, by simp [NDArray.WF, measurements, m5, hr], by simp [measurements, m5, hr]⟩
  obtain ⟨col, tc, g1, g2, g3, -, g5, g6, g7, -⟩ := create_eq m.toColModel hin.order (times P) P t1 t2 t3
  obtain rfl : c.col = col := Except.ok.inj (h2.symm.trans (m1 ▸ g1))
  have hcN : c.col.ninterv = N := by
    have : (c.col.n : Int) = N + 1 := by rw [← m1']; exact g2
    omega
  rw [hcN] at g6 g7
  have hu : InputsOK m (times P) inputs ⟨[tc.length, 1], tc.map Real.cos⟩ := by
    intro col' tc' e1 e2
    obtain rfl : c.col = col' := Except.ok.inj (h2.symm.trans (m1 ▸ e1))
    obtain rfl : tc = tc' := Except.ok.inj (g5.symm.trans e2)
    exact ⟨rfl, by rw [m3]; rfl, by simp [NDArray.WF]⟩
  obtain ⟨q, rows, q1, q2, q3, q4⟩ := h4 (times P) (measurements m P randn) inputs _ P hin hu
  have hrows : rows = List.range (P + 1) := all_rows hr q2
  subst hrows
  refine ⟨q, tc, q1, g5, q3, fun d hd => ?_⟩
  obtain ⟨r1, r2, r3⟩ := q4 d hd
  rw [times_diff] at r2
  refine ⟨?_, r2, r3⟩
  rw [r1, logLikelihood, ← List.sum_toFinset _ List.nodup_range, List.toFinset_range]
  congr 1
  refine Finset.sum_congr rfl fun k hk => ?_
  have hk : k ≤ P := by have := Finset.mem_range.1 hk; omega
  congr 1
  have : k * N ≤ P * N := Nat.mul_le_mul_right N hk
  have e : (tc.map Real.cos).getD (k * N) 0 = Real.cos (tc.getD (k * N) 0) := by
    have : k * N < tc.length := by omega
    simp [List.getD_eq_getElem?_getD, this]
  rw [g7 k (by omega), times_getD hk] at e
  rw [← e]
  simp [rowAt]

/-- The largest case of the tests: order 4 and 4 pieces, 41 decision variables, here with measurements that are all 1. -/
example : ∃ c, symoemInit SExpr.arith 4 (oemMethods SExpr.arith (oem 4)) PendulumId.iter oemVars [] = .ok c ∧
    ∃ m, symoemGen (exprCode (shapeOf c.vars)) 4 c = .ok m ∧ ∃ q, oemTestProblem m 4 (List.replicate 10 1) = .ok q ∧ q.prob.ndec = 41 ∧
      DerivativesRight q.prob (List.replicate 41 (1 / 2)) := by
  obtain ⟨c, h1, -, m, h2, h3⟩ := C108_oem (N := 3) (by decide) PendulumId.iter_ok
  obtain ⟨q, tc, q1, -, q2, q3⟩ := h3 4 (by decide) (List.replicate 10 1) (by simp)
  exact ⟨c, h1, m, h2, q, q1, q2, (q3 _ (by rw [q2, List.length_replicate])).2.2⟩

end Ceacoest
