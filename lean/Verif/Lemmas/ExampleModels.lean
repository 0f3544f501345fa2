import Verif.Props.TranscriptionOCExpr
import Verif.Spec.ExampleModels

/-! # Models whose functions agree with given ones on a region -/

namespace Ceacoest
open Spec RK

namespace ExModels
open SExpr

theorem ev_sy (l : List SExpr) (i : Nat) (env : Env) : ev (sy l i) env = (l.map (ev · env)).getD i 0 := (Pendulum.getD_map_ev l i env).symm
theorem ev_neg (a : SExpr) (env : Env) : ev (neg a) env = -ev a env := by rw [neg, ev, ev]; ring
theorem ev_sub (a b : SExpr) (env : Env) : ev (sub a b) env = ev a env - ev b env := by rw [sub, ev, ev_neg]; ring
theorem ev_div (a b : SExpr) (env : Env) : ev (div a b) env = ev a env / ev b env := by rw [div, ev, ev, div_eq_mul_inv]
theorem ev_sq (a : SExpr) (env : Env) : ev (sq a) env = ev a env ^ 2 := by rw [sq, ev]; ring
theorem ev_cube (a : SExpr) (env : Env) : ev (cube a) env = ev a env ^ 3 := by rw [cube, ev, ev]; ring
theorem ev_rpow (a : SExpr) (r : ℝ) (env : Env) : ev (rpow a r) env = Real.exp (r * Real.log (ev a env)) := rfl
theorem ev_sqrt (a : SExpr) (env : Env) : ev (sqrt a) env = Real.exp (1 / 2 * Real.log (ev a env)) := rfl
theorem ev_const (r : ℝ) (env : Env) : ev (const r) env = r := rfl

theorem exp_mul_log {a : ℝ} (h : 0 < a) (r : ℝ) : Real.exp (r * Real.log a) = a ^ r := by rw [Real.rpow_def_of_pos h, mul_comm]
theorem exp_half_log {a : ℝ} (h : 0 < a) : Real.exp (1 / 2 * Real.log a) = √a := by rw [exp_mul_log h, Real.sqrt_eq_rpow]

theorem map_ev_const (l : List ℝ) (env : Env) : (l.map const).map (ev · env) = l := by
  rw [List.map_map]; exact List.map_id l

theorem def_sy {l : List SExpr} {env : Env} (h : ∀ a ∈ l, a.Defined env) (i : Nat) : (sy l i).Defined env := defined_getD h i
theorem def_neg (a : SExpr) (env : Env) : (neg a).Defined env ↔ a.Defined env := by simp [neg, Defined]
theorem def_sub (a b : SExpr) (env : Env) : (sub a b).Defined env ↔ a.Defined env ∧ b.Defined env := by simp [sub, neg, Defined]
theorem def_div (a b : SExpr) (env : Env) : (div a b).Defined env ↔ a.Defined env ∧ b.Defined env ∧ ev b env ≠ 0 := by simp [div, Defined]
theorem def_sq (a : SExpr) (env : Env) : (sq a).Defined env ↔ a.Defined env := by simp [sq, Defined]
theorem def_cube (a : SExpr) (env : Env) : (cube a).Defined env ↔ a.Defined env := by simp [cube, Defined]
theorem def_rpow (a : SExpr) (r : ℝ) (env : Env) : (rpow a r).Defined env ↔ a.Defined env ∧ 0 < ev a env := by simp [rpow, Defined]
theorem def_sqrt (a : SExpr) (env : Env) : (sqrt a).Defined env ↔ a.Defined env ∧ 0 < ev a env := def_rpow a _ env

/-- **What a transcription is right about.** From the variables `vars` the constructor makes a model, for which code is generated, and on every mesh the
problem with the states, inputs and parameters as decision variables has the cost of the functions `F` as objective. Where these functions are defined, `D`, it has
the defects, path and end point constraints of `F` as constraints, and right gradients, Jacobians and Hessians. -/
def TranscribedOn (U : OCUser SExpr) (vars : Dict String SymVar) (F : OCFunctions) (D : OCRegion) (N nx nu np : Nat) : Prop :=
  ∀ iter : String → List String, OrdersOK iter ocWrt →
    ∃ c, symocInit SExpr.arith U iter vars [] = .ok c ∧ lglCollocation U.order = .ok c.col ∧
      ∃ m, symocGen (exprCode (shapeOf c.vars)) U c = .ok m ∧
      ∀ (t : NDArray ℝ) (P : Nat), 1 ≤ P → t.shape = [P + 1] → t.WF → t.data.Pairwise (· < ·) →
      ∃ q, ocProblem m t = .ok q ∧ q.prob.ndec = (P * N + 1) * (nx + nu) + np ∧
      ∀ d : List ℝ, d.length = q.prob.ndec →
        q.prob.obj d = .ok (ocCost F c.col.K (diff t.data) P N nx nu np d) ∧
        (D.Holds P N nx nu np d →
          q.prob.constr d = .ok (ocConstraints F c.col.J (diff t.data) P N nx nu np d) ∧ DerivativesRight q.prob d)

/-- The functions that symbolic methods compute from numbers. -/
noncomputable def ofUser (U : OCUser SExpr) : OCFunctions where
  f x u p := (U.f (x.map const) (u.map const) (p.map const)).map (ev · fun _ _ => 0)
  L x u p := ev (U.L (x.map const) (u.map const) (p.map const)) fun _ _ => 0
  M xe p := ev (U.M (xe.map const) (p.map const)) fun _ _ => 0
  g x u p := (U.g (x.map const) (u.map const) (p.map const)).map (ev · fun _ _ => 0)
  h xe p := (U.h (xe.map const) (p.map const)).map (ev · fun _ _ => 0)

/-- The region as a domain of all functions; running cost and cost of the end points are defined everywhere. -/
def domainOf (D : OCRegion) : OCDomain where
  f := D.f
  L _ _ _ := True
  M _ _ := True
  g := D.g
  h xe _ := D.h xe

/-- On a region the symbolic methods compute given functions. -/
structure AgreesOn (U : OCUser SExpr) (F : OCFunctions) (D : OCRegion) : Prop where
  f : ∀ x u p, D.f x u p → (ofUser U).f x u p = F.f x u p
  L : ∀ x u p, (ofUser U).L x u p = F.L x u p
  M : ∀ xe p, (ofUser U).M xe p = F.M xe p
  g : ∀ x u p, D.g x u p → (ofUser U).g x u p = F.g x u p
  h : ∀ xe p, D.h xe → (ofUser U).h xe p = F.h xe p

theorem ocCost_agrees {U : OCUser SExpr} {F : OCFunctions} {D : OCRegion} (h : AgreesOn U F D) (K len : List ℝ) (P N nx nu np : Nat) (d : List ℝ) :
    ocCost (ofUser U) K len P N nx nu np d = ocCost F K len P N nx nu np d := by
  simp only [ocCost, h.L, h.M]

theorem ocConstraints_agrees {U : OCUser SExpr} {F : OCFunctions} {D : OCRegion} (h : AgreesOn U F D) (J : List (List ℝ)) (len : List ℝ)
    {P N nx nu np : Nat} {d : List ℝ} (hd : D.Holds P N nx nu np d) :
    ocConstraints (ofUser U) J len P N nx nu np d = ocConstraints F J len P N nx nu np d := by
  unfold ocConstraints
  congr 1
  · congr 1
    · refine List.flatMap_congr fun i hi => defects_congr (fun l hl => h.f _ _ _ (hd.f _ ?_)) fun _ _ => rfl
      have hi := List.mem_range.1 hi
      have : (i + 1) * N ≤ P * N := Nat.mul_le_mul_right _ hi
      rw [Nat.add_mul] at this
      omega
    · exact List.flatMap_congr fun r hr => h.g _ _ _ (hd.g _ (by have := List.mem_range.1 hr; omega))
  · exact h.h _ _ hd.h

/-- The nonlinear program of a model whose methods compute the functions `F` on the region `D`. -/
theorem isTranscription {U : OCUser SExpr} {F : OCFunctions} {D : OCRegion} {xn un pn : List String} {ng nh N : Nat}
    (hU : OCDenotes ev U (ofUser U) xn.length un.length pn.length ng nh) (hD : OCDefinedOn U (domainOf D)) (hF : AgreesOn U F D)
    (hN : (N : Int) + 1 = U.order) (hN1 : 1 ≤ N) {vars : Dict String SymVar} (hv : ColVars vars xn un pn) :
    TranscribedOn U vars F D N xn.length un.length pn.length := by
  intro iter hi
  obtain ⟨c, h1, h2, m, h3, h4⟩ := C70_oc_expr_at U (domainOf D) hD (ofUser U) hU hN hN1 hv (decision := []) (fun n hn => by cases hn) hi
  refine ⟨c, h1, h2, m, h3, fun t P hP hs hw hinc => ?_⟩
  obtain ⟨q, q1, q2, q3⟩ := h4 t P hP hs hw hinc
  refine ⟨q, q1, q2, fun d hd => ?_⟩
  obtain ⟨r1, r2, r3⟩ := q3 d hd
  rw [ocCost_agrees hF] at r1
  refine ⟨r1, fun hr => ⟨?_, r3 ⟨hr.f, fun _ _ => trivial, trivial, hr.g, hr.h⟩⟩⟩
  rw [r2, ocConstraints_agrees hF _ _ hr]

end ExModels
end Ceacoest
