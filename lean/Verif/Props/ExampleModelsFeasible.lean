import Verif.Props.ExampleModels
import Verif.Props.Noise
import Verif.Props.Convergence

/-! # C109: consequences for the bounds and constraints that the scripts pass to the solver -/

namespace Ceacoest
open Spec RK Ex

namespace ExModels
open SExpr

/-- The trapezoidal rule. -/
theorem trapezoid {col : Collocation ℝ} (h : lglCollocation 2 = .ok col) :
    (col.J.getD 0 []).getD 0 0 = 1 / 2 ∧ (col.J.getD 0 []).getD 1 0 = 1 / 2 ∧ col.K.getD 0 0 = 1 / 2 ∧ col.K.getD 1 0 = 1 / 2 := by
  have hc := lgl_colOK (le_refl 1) (by norm_num) h
  obtain ⟨j0, j1⟩ := order2 hc
  have k0 := hc.K (Polynomial.derivative Polynomial.X) (by simp)
  have k1 := hc.K (Polynomial.derivative (Polynomial.C (1 / 2) * Polynomial.X ^ 2)) (natDegree_derivative_C_mul _ 1)
  rw [integral_derivative, Fin.sum_univ_two] at k0 k1
  have hq0 : col.points.getD ((0 : Fin 2) : Nat) 0 = 0 := hc.first
  have hq1 : col.points.getD ((1 : Fin 2) : Nat) 0 = 1 := hc.last
  rw [hq0, hq1] at k0 k1
  simp at k0 k1
  exact ⟨j0, j1, by change col.Kv 1 0 = _; linarith, by change col.Kv 1 1 = _; linarith⟩

theorem mem_defect {F : OCFunctions} {J : List (List ℝ)} {len : List ℝ} {P N nx nu np : Nat} {d : List ℝ}
    (hz : ∀ a ∈ ocConstraints F J len P N nx nu np d, a = 0) {i k j : Nat} (hi : i < P) (hk : k < N) (hj : j < nx) :
    (ocX nx d (i * N + k + 1)).getD j 0 - (ocX nx d (i * N + k)).getD j 0 -
      (∑ l ∈ Finset.range (N + 1), (J.getD k []).getD l 0 *
        (F.f (ocX nx d (i * N + l)) (ocU P N nx nu d (i * N + l)) (ocP P N nx nu np d)).getD j 0) * len.getD i 0 = 0 := by
  refine hz _ (List.mem_append_left _ (List.mem_append_left _ (List.mem_flatMap.2 ⟨i, List.mem_range.2 hi, ?_⟩)))
  exact List.mem_flatMap.2 ⟨k, List.mem_range.2 hk, List.mem_map.2 ⟨j, List.mem_range.2 hj, rfl⟩⟩

/-- The last function of the orbit model does not need the region. -/
theorem orbit_mdot (c : OrbitConsts) (x u p : List ℝ) : ((ofUser (orbit c)).f x u p).getD 4 0 = -u.getD 0 0 * c.Tmax / c.ve * p.getD 0 0 := by
  simp only [ofUser, orbit, orbitFE]
  ev_model
  rfl

theorem orbit_speed_mem (c : OrbitConsts) (xe p : List ℝ) : (xe.getD 5 0 * xe.getD 8 0 - xe.getD 6 0 * xe.getD 7 0) *
    Real.exp (1 / 2 * Real.log (xe.getD 7 0 ^ 2 + xe.getD 8 0 ^ 2)) - c.mu ∈ (ofUser (orbit c)).h xe p := by
  simp only [ofUser, orbit, orbitSpeedErrorE]
  ev_model
  simp

/-- The use of fuel over one piece. -/
theorem orbit_fuel_step {c : OrbitConsts} {col : Collocation ℝ} (hcol : lglCollocation 2 = .ok col) {len : List ℝ} {P : Nat} {d : List ℝ}
    (hz : ∀ a ∈ ocConstraints (ofUser (orbit c)) col.J len P 1 5 3 1 d, a = 0) {i : Nat} (hi : i < P) :
    d.getD ((i + 1) * 5 + 4) 0 = d.getD (i * 5 + 4) 0 - c.Tmax / c.ve * d.getD ((P + 1) * 8) 0 *
      ((d.getD ((P + 1) * 5 + i * 3) 0 + d.getD ((P + 1) * 5 + (i + 1) * 3) 0) / 2) * len.getD i 0 := by
  obtain ⟨j0, j1, -, -⟩ := trapezoid hcol
  have h := mem_defect hz hi Nat.one_pos (j := 4) (by norm_num)
  simp only [Finset.sum_range_succ, Finset.sum_range_zero, orbit_mdot, j0, j1, ocX, ocU, ocP, rowAt_getD (show 4 < 5 by norm_num), rowAt_getD (show 0 < 3 by norm_num),
    rowAt_getD (show 0 < 1 by norm_num), Nat.mul_one, Nat.add_zero, Nat.zero_add, Nat.zero_mul, Nat.reduceAdd] at h
  linear_combination h

/-- The problem of circular_orbit.py. -/
theorem orbit_problem {c : OrbitConsts} (hv : c.ve ≠ 0) (hR : c.Rfinal ≠ 0) {iter : String → List String} (hi : OrdersOK iter ocWrt) {s : SymClass SExpr}
    (hs : symocInit SExpr.arith (orbit c) iter orbitVars [] = .ok s) {m : OCModel} (hm : symocGen (exprCode (shapeOf s.vars)) (orbit c) s = .ok m)
    {t : NDArray ℝ} {P : Nat} (hP : 1 ≤ P) (ht : t.shape = [P + 1]) (hw : t.WF) (hinc : t.data.Pairwise (· < ·)) {q : ColProblem} (hq : ocProblem m t = .ok q)
    {d : List ℝ} (hd : d.length = (P + 1) * 8 + 1) : lglCollocation 2 = .ok s.col ∧
      q.prob.obj d = .ok (ocCost (orbitFunctions c) s.col.K (diff t.data) P 1 5 3 1 d) ∧
      q.prob.constr d = .ok (ocConstraints (ofUser (orbit c)) s.col.J (diff t.data) P 1 5 3 1 d) ∧
      (orbitRegion.Holds P 1 5 3 1 d → DerivativesRight q.prob d) := by
  obtain ⟨c', h1, h2, m', h3, h4⟩ := C70_oc_expr_at (orbit c) (domainOf orbitRegion) (orbit_defined hv hR) (ofUser (orbit c))
    (xn := ["X", "Y", "vx", "vy", "m"]) (un := ["T", "Txn", "Tyn"]) (pn := ["tf"]) (N := 1) (orbit_denotes c) rfl (le_refl 1) orbitVars_ok
    (decision := []) (fun n hn => by cases hn) hi
  obtain rfl : c' = s := Except.ok.inj (h1.symm.trans hs)
  obtain rfl : m' = m := Except.ok.inj (h3.symm.trans hm)
  obtain ⟨q', q1, q2, q3⟩ := h4 t P hP ht hw hinc
  obtain rfl : q' = q := Except.ok.inj (q1.symm.trans hq)
  obtain ⟨r1, r2, r3⟩ := q3 d (by rw [q2, hd, Nat.mul_one]; rfl)
  rw [ocCost_agrees (orbit_agrees c)] at r1
  exact ⟨h2, r1, r2, fun hr => r3 ⟨hr.f, fun _ _ => trivial, trivial, hr.g, hr.h⟩⟩

/-- **C109**, circular_orbit.py: where the constraints hold, the objective is the fuel used, `ve ** 2 / 2 * (m_initial - m_final)`. -/
theorem C109_orbit_fuel {c : OrbitConsts} (hv : c.ve ≠ 0) (hR : c.Rfinal ≠ 0) {iter : String → List String} (hi : OrdersOK iter ocWrt) {s : SymClass SExpr}
    (hs : symocInit SExpr.arith (orbit c) iter orbitVars [] = .ok s) {m : OCModel} (hm : symocGen (exprCode (shapeOf s.vars)) (orbit c) s = .ok m)
    {t : NDArray ℝ} {P : Nat} (hP : 1 ≤ P) (ht : t.shape = [P + 1]) (hw : t.WF) (hinc : t.data.Pairwise (· < ·)) {q : ColProblem} (hq : ocProblem m t = .ok q)
    {d l : List ℝ} (hd : d.length = (P + 1) * 8 + 1) (hl : q.prob.constr d = .ok l) (hz : ∀ a ∈ l, a = 0) :
    q.prob.obj d = .ok (c.ve ^ 2 / 2 * (d.getD 4 0 - d.getD (P * 5 + 4) 0)) := by
  obtain ⟨hcol, ho, hc, -⟩ := orbit_problem hv hR hi hs hm hP ht hw hinc hq hd
  rw [hc] at hl
  obtain rfl := Except.ok.inj hl
  rw [ho]
  congr 1
  obtain ⟨-, -, k0, k1⟩ := trapezoid hcol
  have e : ∀ i ∈ Finset.range P, (∑ l ∈ Finset.range (1 + 1), (orbitFunctions c).L (ocX 5 d (i * 1 + l)) (ocU P 1 5 3 d (i * 1 + l)) (ocP P 1 5 3 1 d) * s.col.K.getD l 0) *
      (diff t.data).getD i 0 = c.ve ^ 2 / 2 * d.getD (i * 5 + 4) 0 - c.ve ^ 2 / 2 * d.getD ((i + 1) * 5 + 4) 0 := by
    intro i hi
    rw [orbit_fuel_step hcol hz (Finset.mem_range.1 hi)]
    simp only [Finset.sum_range_succ, Finset.sum_range_zero, k0, k1, orbitFunctions, orbitL, vec, Fin.isValue, Fin.coe_ofNat_eq_mod, Nat.zero_mod, ocU, ocP,
      rowAt_getD (show 0 < 3 by norm_num), rowAt_getD (show 0 < 1 by norm_num), Nat.mul_one, Nat.add_zero, Nat.zero_add, Nat.zero_mul, Nat.reduceAdd]
    field_simp
    ring
  rw [ocCost, Finset.sum_congr rfl e, Finset.sum_range_sub']
  change _ + 0 = _
  rw [Nat.zero_mul, Nat.zero_add]
  ring

/-- **C109**, circular_orbit.py: within the bounds of the script, and where the constraints hold, the mass never falls below 0.987, and the derivatives are right
unless some point of the trajectory is the centre of attraction. This holds for target orbits of any radius; the script has 2. -/
theorem C109_orbit_feasible {R : ℝ} (hR : R ≠ 0) {iter : String → List String} (hi : OrdersOK iter ocWrt) {s : SymClass SExpr}
    (hs : symocInit SExpr.arith (orbit { orbitConsts with Rfinal := R }) iter orbitVars [] = .ok s) {m : OCModel}
    (hm : symocGen (exprCode (shapeOf s.vars)) (orbit { orbitConsts with Rfinal := R }) s = .ok m)
    {t : NDArray ℝ} {P : Nat} (hP : 1 ≤ P) (ht : t.shape = [P + 1]) (hw : t.WF) (hinc : t.data.Pairwise (· < ·)) (ht0 : t.data.getD 0 0 = 0) (ht1 : t.data.getD P 0 = 1)
    {q : ColProblem} (hq : ocProblem m t = .ok q) {d l : List ℝ} (hd : d.length = (P + 1) * 8 + 1) (hb : OrbitBounds P d)
    (hl : q.prob.constr d = .ok l) (hz : ∀ a ∈ l, a = 0) :
    (∀ r ≤ P, 0.987 ≤ d.getD (r * 5 + 4) 0 ∧ d.getD (r * 5 + 4) 0 ≤ 1) ∧
    ((∀ r ≤ P, d.getD (r * 5) 0 ≠ 0 ∨ d.getD (r * 5 + 1) 0 ≠ 0) → DerivativesRight q.prob d) := by
  obtain ⟨hcol, ho, hc, hr⟩ := orbit_problem (c := { orbitConsts with Rfinal := R }) (by norm_num [orbitConsts]) hR hi hs hm hP ht hw hinc hq hd
  rw [hc] at hl
  obtain rfl := Except.ok.inj hl
  have hlen : t.data.length = P + 1 := by have := hw; rw [NDArray.WF, ht] at this; simpa using this
  have hmono := pairwise_getD hlen hinc
  have key : ∀ r ≤ P, 1 - 0.013 * t.data.getD r 0 ≤ d.getD (r * 5 + 4) 0 ∧ d.getD (r * 5 + 4) 0 ≤ 1 := by
    intro r
    induction r with
    | zero => intro _; rw [ht0, Nat.zero_mul, Nat.zero_add, hb.initial.2.2.2.2]; norm_num
    | succ r ih =>
      intro hr
      obtain ⟨i1, i2⟩ := ih (by omega)
      have hl : (diff t.data).getD r 0 = t.data.getD (r + 1) 0 - t.data.getD r 0 := diff_getD (by omega)
      have hp : 0 < (diff t.data).getD r 0 := by rw [hl]; exact sub_pos.2 (hmono r (by omega))
      obtain ⟨a1, a2⟩ := hb.T r (by omega)
      obtain ⟨b1, b2⟩ := hb.T (r + 1) hr
      obtain ⟨c1, c2⟩ := hb.tf
      have e := orbit_fuel_step hcol hz (show r < P by omega)
      have ec : ({ orbitConsts with Rfinal := R } : OrbitConsts).Tmax / ({ orbitConsts with Rfinal := R } : OrbitConsts).ve = 0.001 := by norm_num [orbitConsts]
      rw [ec] at e
      have w1 : 0 ≤ (d.getD ((P + 1) * 5 + r * 3) 0 + d.getD ((P + 1) * 5 + (r + 1) * 3) 0) / 2 := by linarith
      have w2 : (d.getD ((P + 1) * 5 + r * 3) 0 + d.getD ((P + 1) * 5 + (r + 1) * 3) 0) / 2 ≤ 1 := by linarith
      generalize (d.getD ((P + 1) * 5 + r * 3) 0 + d.getD ((P + 1) * 5 + (r + 1) * 3) 0) / 2 = w at e w1 w2
      have f1 : 0 ≤ d.getD ((P + 1) * 8) 0 * w * (diff t.data).getD r 0 := by positivity
      have f2 : d.getD ((P + 1) * 8) 0 * w * (diff t.data).getD r 0 ≤ 13 * (diff t.data).getD r 0 := by
        refine mul_le_mul_of_nonneg_right ?_ hp.le
        nlinarith
      constructor <;> linarith
  have htr : ∀ k ≤ P, t.data.getD (P - k) 0 ≤ 1 := by
    intro k
    induction k with
    | zero => intro _; rw [Nat.sub_zero, ht1]
    | succ k ih =>
      intro hk
      have := hmono (P - (k + 1)) (by omega)
      rw [show P - (k + 1) + 1 = P - k by omega] at this
      linarith [ih (by omega)]
  have hmass : ∀ r ≤ P, 0.987 ≤ d.getD (r * 5 + 4) 0 ∧ d.getD (r * 5 + 4) 0 ≤ 1 := by
    intro r hr
    have h1 := htr (P - r) (by omega)
    rw [Nat.sub_sub_self hr] at h1
    obtain ⟨h2, h3⟩ := key r hr
    exact ⟨by linarith, h3⟩
  refine ⟨hmass, fun hxy => hr ⟨fun r hr => ?_, fun _ _ => trivial, ?_⟩⟩
  · rw [Nat.mul_one] at hr
    change 0 < (ocX 5 d r).getD 0 0 ^ 2 + (ocX 5 d r).getD 1 0 ^ 2 ∧ (ocX 5 d r).getD 4 0 ≠ 0
    simp only [ocX, rowAt_getD (show 0 < 5 by norm_num), rowAt_getD (show 1 < 5 by norm_num), rowAt_getD (show 4 < 5 by norm_num), Nat.add_zero, Nat.zero_add]
    have := (hmass r hr).1
    refine ⟨?_, by linarith⟩
    rcases hxy r hr with h | h <;> positivity
  · change 0 < _
    have h3 := hz _ (List.mem_append_right _ (orbit_speed_mem { orbitConsts with Rfinal := R } _ _))
    generalize ocX 5 d 0 ++ ocX 5 d (P * 1) = xe at h3
    by_contra hn
    have h7 : xe.getD 7 0 = 0 := by nlinarith [sq_nonneg (xe.getD 7 0), sq_nonneg (xe.getD 8 0)]
    have h8 : xe.getD 8 0 = 0 := by nlinarith [sq_nonneg (xe.getD 7 0), sq_nonneg (xe.getD 8 0)]
    rw [h7, h8] at h3
    norm_num [orbitConsts] at h3


/-- A quarter of the unit circle in one step, with thrusts that cancel. -/
noncomputable def quarter : List ℝ := [1, 0, 0, 1, 1, 0, 1, -1, 0, 999 / 1001, 1, 1, 0, 999 / 1001, -1, 0, 2]

theorem quarter_bounds : OrbitBounds 1 quarter where
  tf := by norm_num [quarter]
  m := fun r hr => by interval_cases r <;> norm_num [quarter]
  T := fun r hr => by interval_cases r <;> norm_num [quarter]
  Txn := fun r hr => by interval_cases r <;> norm_num [quarter]
  Tyn := fun r hr => by interval_cases r <;> norm_num [quarter]
  initial := by norm_num [quarter]

theorem quarter_holds : orbitRegion.Holds 1 1 5 3 1 quarter where
  f := fun r hr => by interval_cases r <;> norm_num [orbitRegion, quarter, ocX, rowAt, List.range_succ]
  g := fun _ _ => trivial
  h := by norm_num [orbitRegion, quarter, ocX, rowAt, List.range_succ]

theorem quarter_feasible {col : Collocation ℝ} (hcol : lglCollocation 2 = .ok col) :
    ocConstraints (orbitFunctions { orbitConsts with Rfinal := 1 }) col.J [1] 1 1 5 3 1 quarter = List.replicate 10 0 := by
  obtain ⟨j0, j1, -, -⟩ := trapezoid hcol
  have e0 : ocX 5 quarter 0 = [1, 0, 0, 1, 1] := by simp [ocX, rowAt, quarter, List.range_succ]
  have e1 : ocX 5 quarter 1 = [0, 1, -1, 0, 999 / 1001] := by simp [ocX, rowAt, quarter, List.range_succ]
  have u0 : ocU 1 1 5 3 quarter 0 = [1, 1, 0] := by simp [ocU, rowAt, quarter, List.range_succ]
  have u1 : ocU 1 1 5 3 quarter 1 = [999 / 1001, -1, 0] := by simp [ocU, rowAt, quarter, List.range_succ]
  have p0 : ocP 1 1 5 3 1 quarter = [2] := by simp [ocP, rowAt, quarter, List.range_succ]
  have f0 : List.ofFn (orbitF { orbitConsts with Rfinal := 1 } (vec 5 [1, 0, 0, 1, 1]) (vec 3 [1, 1, 0]) 2) = [0, 2, -1.9, 0, -0.002] := by
    simp [orbitF, vec, orbitConsts, List.ofFn_succ]; norm_num
  have f1 : List.ofFn (orbitF { orbitConsts with Rfinal := 1 } (vec 5 [0, 1, -1, 0, 999 / 1001]) (vec 3 [999 / 1001, -1, 0]) 2) =
      [-2, 0, -0.1, -2, -0.002 * (999 / 1001)] := by
    simp [orbitF, vec, orbitConsts, List.ofFn_succ]; norm_num
  have h1 : List.ofFn (orbitH { orbitConsts with Rfinal := 1 } (final 5 [1, 0, 0, 1, 1, 0, 1, -1, 0, 999 / 1001])) = [0, 0, 0] := by
    simp [orbitH, final, orbitConsts, List.ofFn_succ]
  have r1 : List.range 1 = [0] := rfl
  have r2 : List.range (1 * 1 + 1) = [0, 1] := rfl
  have r5 : List.range 5 = [0, 1, 2, 3, 4] := rfl
  simp only [ocConstraints, defects, orbitFunctions, r1, r2, r5, List.flatMap_cons, List.flatMap_nil, List.map_cons, List.map_nil, Finset.sum_range_succ, Finset.sum_range_zero,
    Nat.zero_mul, Nat.mul_one, Nat.zero_add, Nat.add_zero, e0, e1, u0, u1, p0, List.getD_cons_zero, List.getD_cons_succ, f0, f1, j0, j1, List.cons_append, List.nil_append, h1]
  norm_num [orbitG, vec, List.replicate]

/-- All hypotheses of the three theorems above hold there: the derivatives are right, and the objective is 1250 times the fuel used, 2 / 1001 of the mass. -/
example {iter : String → List String} (hi : OrdersOK iter ocWrt) : ∃ s, symocInit SExpr.arith (orbit { orbitConsts with Rfinal := 1 }) iter orbitVars [] = .ok s ∧
    ∃ m, symocGen (exprCode (shapeOf s.vars)) (orbit { orbitConsts with Rfinal := 1 }) s = .ok m ∧ ∃ q, ocProblem m ⟨[2], [0, 1]⟩ = .ok q ∧
    q.prob.constr quarter = .ok (List.replicate 10 0) ∧ q.prob.obj quarter = .ok (2500 / 1001) ∧ DerivativesRight q.prob quarter := by
  have hR : ({ orbitConsts with Rfinal := 1 } : OrbitConsts).Rfinal ≠ 0 := one_ne_zero
  obtain ⟨s, h1, h2, m, h3, h4⟩ := C109_orbit (c := { orbitConsts with Rfinal := 1 }) (by norm_num [orbitConsts]) hR iter hi
  obtain ⟨q, q1, q2, q3⟩ := h4 ⟨[2], [0, 1]⟩ 1 (le_refl 1) rfl rfl (by simp)
  have hc := ((q3 quarter (by rw [q2]; rfl)).2 quarter_holds).1
  have ed : RK.diff ([0, 1] : List ℝ) = [1] := by simp [RK.diff]
  rw [ed, quarter_feasible h2] at hc
  have hz : ∀ a ∈ List.replicate 10 (0 : ℝ), a = 0 := fun a ha => List.eq_of_mem_replicate ha
  refine ⟨s, h1, m, h3, q, q1, hc, ?_, ?_⟩
  · rw [C109_orbit_fuel (t := ⟨[2], [0, 1]⟩) (P := 1) (by norm_num [orbitConsts]) hR hi h1 h3 (le_refl 1) rfl rfl (by simp) q1 rfl hc hz]
    norm_num [orbitConsts, quarter]
  · refine (C109_orbit_feasible (t := ⟨[2], [0, 1]⟩) (P := 1) one_ne_zero hi h1 h3 (le_refl 1) rfl rfl (by simp) rfl rfl q1 rfl quarter_bounds hc hz).2 fun r hr => ?_
    interval_cases r <;> norm_num [quarter]

/-! ### The shuttle -/

/-- **C109**, shuttle_reentry.py: all functions are defined, and thus all derivatives right, wherever the bounds of the script hold. -/
theorem C109_shuttle_bounds {iter : String → List String} (hi : OrdersOK iter ocWrt) : ∃ s,
    symocInit SExpr.arith (shuttle (shuttleConsts (Real.pi / 180)) (heatConsts (Real.pi / 180))) iter shuttleVars [] = .ok s ∧ lglCollocation 3 = .ok s.col ∧
    ∃ m, symocGen (exprCode (shapeOf s.vars)) (shuttle (shuttleConsts (Real.pi / 180)) (heatConsts (Real.pi / 180))) s = .ok m ∧
    ∀ (t : NDArray ℝ) (P : Nat), 1 ≤ P → t.shape = [P + 1] → t.WF → t.data.Pairwise (· < ·) →
    ∃ q, ocProblem m t = .ok q ∧ q.prob.ndec = (P * 2 + 1) * 8 + 1 ∧ ∀ d : List ℝ, d.length = q.prob.ndec → ShuttleBounds (Real.pi / 180) P d →
      q.prob.obj d = .ok (d.getD (P * 2 * 6 + 2) 0) ∧
      q.prob.constr d = .ok (ocConstraints (shuttleFunctions (shuttleConsts (Real.pi / 180)) (heatConsts (Real.pi / 180))) s.col.J (diff t.data) P 2 6 2 1 d) ∧
      DerivativesRight q.prob d := by
  obtain ⟨s, h1, h2, m, h3, h4⟩ := C109_shuttle (c := shuttleConsts (Real.pi / 180)) (k := heatConsts (Real.pi / 180)) (by norm_num [shuttleConsts])
    (by norm_num [shuttleConsts]) (by norm_num [shuttleConsts]) (by norm_num [heatConsts]) iter hi
  refine ⟨s, h1, h2, m, h3, fun t P hP hs hw hinc => ?_⟩
  obtain ⟨q, q1, q2, q3⟩ := h4 t P hP hs hw hinc
  refine ⟨q, q1, q2, fun d hd hb => ?_⟩
  obtain ⟨ho, hc⟩ := q3 d hd
  have hpi := Real.pi_pos
  have hH : (shuttleRegion (shuttleConsts (Real.pi / 180))).Holds P 2 6 2 1 d := by
    refine ⟨fun r hr => ?_, fun r hr => ?_, trivial⟩
    · change (shuttleConsts (Real.pi / 180)).Re + (ocX 6 d r).getD 0 0 ≠ 0 ∧ Real.cos ((ocX 6 d r).getD 2 0) ≠ 0 ∧ 0 < (ocX 6 d r).getD 3 0 ∧ Real.cos ((ocX 6 d r).getD 4 0) ≠ 0
      simp only [ocX, rowAt_getD (show 0 < 6 by norm_num), rowAt_getD (show 2 < 6 by norm_num), rowAt_getD (show 3 < 6 by norm_num), rowAt_getD (show 4 < 6 by norm_num), Nat.add_zero, Nat.zero_add]
      obtain ⟨t1, t2⟩ := hb.theta r hr
      obtain ⟨g1, g2⟩ := hb.gamma r hr
      refine ⟨?_, (Real.cos_pos_of_mem_Ioo ⟨by linarith, by linarith⟩).ne', by linarith [hb.v r hr], (Real.cos_pos_of_mem_Ioo ⟨by linarith, by linarith⟩).ne'⟩
      have := hb.h r hr
      simp only [shuttleConsts]
      linarith
    · change 0 < (ocX 6 d r).getD 3 0
      rw [ocX, rowAt_getD (by norm_num), Nat.zero_add]
      linarith [hb.v r hr]
  refine ⟨?_, hc hH⟩
  rw [ho]
  congr 1
  have e : final 6 (ocX 6 d 0 ++ ocX 6 d (P * 2)) 2 = d.getD (P * 2 * 6 + 2) 0 := by
    change (ocX 6 d 0 ++ ocX 6 d (P * 2)).getD 8 0 = _
    simp [ocX, rowAt, List.range_succ]
  simp only [ocCost, shuttleFunctions, zero_mul, Finset.sum_const_zero, zero_add, e]

/-- The initial state of the script is within the bounds. -/
example : ShuttleBounds (Real.pi / 180) 1 ((List.replicate 3 [260e3, 0, 0, 25.6e3, -1 * (Real.pi / 180), 90 * (Real.pi / 180)]).flatten ++ List.replicate 6 0 ++ [1000]) where
  h := fun r hr => by interval_cases r <;> norm_num [List.replicate]
  theta := fun r hr => by have := Real.pi_pos; interval_cases r <;> norm_num [List.replicate] <;> positivity
  v := fun r hr => by interval_cases r <;> norm_num [List.replicate]
  gamma := fun r hr => by
    have := Real.pi_pos
    interval_cases r <;> norm_num [List.replicate] <;> constructor <;> linarith

end ExModels
end Ceacoest
