import Verif.Lemmas.SymOC

/-! # C70 for optimal control: from the methods of the user to the nonlinear program -/

namespace Ceacoest
open Spec RK
variable {X : Type}

theorem shapeOf_of {v : Dict String SymVar} {n : String} {w : SymVar} (h : Dict.get? v n = some w) : shapeOf v n = w.shape := by
  rw [shapeOf, h]; rfl

theorem defects_congr {J : List (List ℝ)} {rhs rhs' : Nat → List ℝ} {x x' : Nat → List ℝ} {N nx s s' : Nat} {len : ℝ}
    (hr : ∀ l < N + 1, rhs (s + l) = rhs' (s' + l)) (hx : ∀ l < N + 1, x (s + l) = x' (s' + l)) :
    defects J rhs x N nx s len = defects J rhs' x' N nx s' len := by
  unfold defects
  refine List.flatMap_congr fun k hk => List.map_congr_left fun j _ => ?_
  have hk := List.mem_range.1 hk
  rw [Nat.add_assoc, Nat.add_assoc, hx (k + 1) (by omega), hx k (by omega),
    Finset.sum_congr rfl fun l hl => by rw [hr l (Finset.mem_range.1 hl)]]

theorem list_sum_range (n : Nat) (f : Nat → ℝ) : ((List.range n).map f).sum = ∑ i ∈ Finset.range n, f i := by
  rw [sum_getD_range]
  simp only [List.length_map, List.length_range]
  exact Finset.sum_congr rfl fun i hi => by simp [List.getD_eq_getElem?_getD, Finset.mem_range.1 hi]

/-- The value of the quadrature of the running cost. -/
theorem symocIL_val {A : SymArith X} {ev : X → Env → ℝ} (hA : ArithOK A ev) {U : OCUser X} {F : OCFunctions} {nx nu np ng nh N : Nat}
    (hU : OCDenotes ev U F nx nu np ng nh) {col : Collocation ℝ} (hn : col.n = N + 1) (hK : col.K.length = N + 1) (env : Env) :
    (symocIL A col U.L nx nu np).out.map (ev · env) =
      [(∑ l ∈ Finset.range (N + 1), F.L (envRow env "xp" nx l) (envRow env "up" nu l) (envRow env "p" np 0) * col.K.getD l 0) *
        env "piece_len" 0] := by
  simp only [symocIL, SymFn.scalar, List.map_cons, List.map_nil, hA.mul, hA.sym]
  rw [ev_dot hA (n := N + 1) _ _ (by simp [hn]) (by simp [hK])]
  congr 2
  refine Finset.sum_congr rfl fun l hl => ?_
  have hl := Finset.mem_range.1 hl
  rw [← ev_row hA, ← ev_row hA, ← ev_row hA, ← hU.L _ _ _ env (row_length _ _ _) (row_length _ _ _) (row_length _ _ _)]
  have hlK : l < col.K.length := by omega
  have hln : l < col.n := by omega
  simp [List.getD_eq_getElem?_getD, hln, hlK, hA.num]

/-- What the functions of an optimal control problem see of the decision vector. -/
def OCPoint (P N nx nu np : Nat) (d : List ℝ) (n : String) (env : Env) : Prop :=
  ((n = "e" ∨ n = "IL") ∧ ∃ i < P, (∀ l < N + 1, envRow env "xp" nx l = ocX nx d (i * N + l)) ∧
    (∀ l < N + 1, envRow env "up" nu l = ocU P N nx nu d (i * N + l)) ∧ envRow env "p" np 0 = ocP P N nx nu np d) ∨
  (n = "g" ∧ ∃ i < P * N + 1, envRow env "x" nx 0 = ocX nx d i ∧ envRow env "u" nu 0 = ocU P N nx nu d i ∧ envRow env "p" np 0 = ocP P N nx nu np d) ∨
  ((n = "M" ∨ n = "h") ∧ envRow env "xe" (2 * nx) 0 = ocX nx d 0 ++ ocX nx d (P * N) ∧ envRow env "p" np 0 = ocP P N nx nu np d)

set_option maxHeartbeats 1000000 in
/-- From the methods of the user to the problem. -/
theorem oc_nlp {A : SymArith X} {ev : X → Env → ℝ} (hA : ArithOK A ev) (U : OCUser X) (F : OCFunctions) {xn un pn : List String} {ng nh N : Nat}
    (hU : OCDenotes ev U F xn.length un.length pn.length ng nh) (hN : (N : Int) + 1 = U.order) (hN1 : 1 ≤ N) {vars : Dict String SymVar}
    (hv : ColVars vars xn un pn) {decision : List String}
    (hd : DecisionOK vars ["x", "u", "p", "xp", "up", "xe"] ["piece_len"] decision) {iter : String → List String} (hi : OrdersOK iter ocWrt) :
    ∃ c, symocInit A U iter vars decision = .ok c ∧ lglCollocation U.order = .ok c.col ∧
      (∃ out, symcolE A c.col U.f xn.length un.length pn.length = .ok ⟨["xp", "up", "p", "piece_len"], [N, xn.length], out⟩ ∧
        out.length = N * xn.length ∧ ∀ n ∈ ["e", "IL", "M", "g", "h"], Dict.get? c.model.funcs n =
        Dict.get? (ocFns A U c.col xn.length un.length pn.length ⟨["xp", "up", "p", "piece_len"], [N, xn.length], out⟩) n) ∧
      ∀ codegen : SymFn X → List (NDArray ℝ) → NDArray ℝ,
      (∀ name g, Dict.get? c.model.funcs name = some g → CodegenOK ev (shapeOf c.vars) codegen g) →
      ∃ m s, symocGen codegen U c = .ok m ∧ m.nx = xn.length ∧ m.nu = un.length ∧ m.np = pn.length ∧ m.ng = ng ∧ m.nh = nh ∧
      ∀ (t : NDArray ℝ) (P : Nat), 1 ≤ P → t.shape = [P + 1] → t.WF → t.data.Pairwise (· < ·) →
      ∃ q, ocProblem m t = .ok q ∧ q.prob.ndec = (P * N + 1) * (xn.length + un.length) + pn.length ∧
      (∀ o ∈ q.prob.objectives, o.fn.name ∈ ["e", "IL", "M", "g", "h"]) ∧ (∀ o ∈ q.prob.constraints, o.fn.fn.name ∈ ["e", "IL", "M", "g", "h"]) ∧
      (∀ d : List ℝ, d.length = q.prob.ndec → Sees (c.side A ev s) (ocTable P N xn.length un.length pn.length) q.prob d
        (OCPoint P N xn.length un.length pn.length d)) ∧
      ∀ d : List ℝ, d.length = q.prob.ndec →
        q.prob.obj d = .ok (ocCost F c.col.K (diff t.data) P N xn.length un.length pn.length d) ∧
        q.prob.constr d = .ok (ocConstraints F c.col.J (diff t.data) P N xn.length un.length pn.length d) ∧
        (SmoothProblem (c.side A ev s) (ocTable P N xn.length un.length pn.length) q.prob d → DerivativesRight q.prob d) := by
  obtain ⟨c, hinit, hcol, hJ, hK, hcn, hdec, hsh, hget, out, hout, hsymE, hfn, s, hs⟩ := symoc_ok hA U F hU hN hN1 hv hd hi
  refine ⟨c, hinit, hcol, ⟨out, hsymE, hout.1, hfn⟩, fun codegen hcg => ?_⟩
  have hgen := hs codegen hcg
  obtain ⟨e, e1, e2, e3⟩ := hgen "e" false (by simp)
  obtain ⟨IL, IL1, IL2, IL3⟩ := hgen "IL" true (by simp)
  obtain ⟨M, M1, M2, M3⟩ := hgen "M" true (by simp)
  obtain ⟨g, g1, g2, g3⟩ := hgen "g" false (by simp)
  obtain ⟨h, h1, h2, h3⟩ := hgen "h" false (by simp)
  set nx := xn.length with hnx
  set nu := un.length with hnu
  set np := pn.length with hnp
  set efn : SymFn X := ⟨["xp", "up", "p", "piece_len"], [N, nx], out⟩ with hefn
  have f_e : Dict.get? c.model.funcs "e" = some efn := by rw [hfn _ (by simp)]; rfl
  have f_IL : Dict.get? c.model.funcs "IL" = some (symocIL A c.col U.L nx nu np) := by rw [hfn _ (by simp)]; rfl
  have f_M : Dict.get? c.model.funcs "M" = some (.scalar ["xe", "p"] (U.M (A.row "xe" (2 * nx) 0) (A.row "p" np 0))) := by
    rw [hfn _ (by simp)]; rfl
  have f_g : Dict.get? c.model.funcs "g" = some (.vec ["x", "u", "p"] (U.g (A.row "x" nx 0) (A.row "u" nu 0) (A.row "p" np 0))) := by
    rw [hfn _ (by simp)]; rfl
  have f_h : Dict.get? c.model.funcs "h" = some (.vec ["xe", "p"] (U.h (A.row "xe" (2 * nx) 0) (A.row "p" np 0))) := by
    rw [hfn _ (by simp)]; rfl
  have lg : (U.g (A.row "x" nx 0) (A.row "u" nu 0) (A.row "p" np 0)).length = ng :=
    hU.leng _ _ _ (row_length _ _ _) (row_length _ _ _) (row_length _ _ _)
  have lh : (U.h (A.row "xe" (2 * nx) 0) (A.row "p" np 0)).length = nh := hU.lenh _ _ (row_length _ _ _) (row_length _ _ _)
  set S := c.side A ev s with hS
  have F_e : S.fn "e" = efn := by change (Dict.get? _ _).getD _ = _; rw [f_e]; rfl
  have F_IL : S.fn "IL" = symocIL A c.col U.L nx nu np := by change (Dict.get? _ _).getD _ = _; rw [f_IL]; rfl
  have F_M : S.fn "M" = .scalar ["xe", "p"] (U.M (A.row "xe" (2 * nx) 0) (A.row "p" np 0)) := by
    change (Dict.get? _ _).getD _ = _; rw [f_M]; rfl
  have F_g : S.fn "g" = .vec ["x", "u", "p"] (U.g (A.row "x" nx 0) (A.row "u" nu 0) (A.row "p" np 0)) := by
    change (Dict.get? _ _).getD _ = _; rw [f_g]; rfl
  have F_h : S.fn "h" = .vec ["xe", "p"] (U.h (A.row "xe" (2 * nx) 0) (A.row "p" np 0)) := by
    change (Dict.get? _ _).getD _ = _; rw [f_h]; rfl
  set m : OCModel := { collocationOrder := U.order, nx, e, nu, np, ng, nh, IL, M, g, h } with hm
  have hgenm : symocGen codegen U c = .ok m := by
    have lx : varLen c.vars "x" = .ok nx := varLen_vec (by rw [hget]; simp [ocVar, colVar, hv.x])
    have lu : varLen c.vars "u" = .ok nu := varLen_vec (by rw [hget]; simp [ocVar, colVar])
    have lp : varLen c.vars "p" = .ok np := varLen_vec (by rw [hget]; simp [ocVar, colVar])
    have og : outLen c.model "g" = .ok ng := by
      rw [outLen, SymModel.getFn, f_g, ← lg]; rfl
    have oh : outLen c.model "h" = .ok nh := by
      rw [outLen, SymModel.getFn, f_h, ← lh]; rfl
    simp only [if_true, Bool.false_eq_true, if_false] at e1 IL1 M1 g1 h1
    unfold symocGen
    simp only [lx, lu, lp, og, oh, e1, IL1, M1, g1, h1, py_bind_ok, py_pure, hm]
  refine ⟨m, s, hgenm, rfl, rfl, rfl, rfl, rfl, fun t P hP hts htw hinc => ?_⟩
  set T := ocTable P N nx nu np with hT
  have hshape : ∀ n w, ocVar vars (N + 1) xn un pn n = some w → S.shape n = w.shape := fun n w hw => shapeOf_of (by rw [hget, hw])
  have hmemd : ∀ n, n ∈ S.decision ↔ n ∈ ["p", "u", "up", "xe", "x", "xp"] ∨ n ∈ decision := by
    intro a
    change a ∈ c.model.decision ↔ _
    rw [hdec]
    simp only [ocDecision, List.mem_union_iff, List.mem_cons, List.not_mem_nil, or_false]
    tauto
  have hagree : AgreesOn S T ocNames := by
    intro n hn
    simp only [ocNames, List.mem_cons, List.not_mem_nil, or_false] at hn
    have hb : S.shape n = T.bs n := by
      rcases hn with rfl | rfl | rfl | rfl | rfl | rfl | rfl
      · rw [hshape _ (.vec xn) (by simp [ocVar, colVar, hv.x])]; rfl
      · rw [hshape _ (.vec un) (by simp [ocVar, colVar])]; rfl
      · rw [hshape _ (.vec pn) (by simp [ocVar, colVar])]; rfl
      · rw [hshape _ (.piece xn (N + 1)) (by simp [ocVar, colVar])]; rfl
      · rw [hshape _ (.piece un (N + 1)) (by simp [ocVar, colVar])]; rfl
      · rw [hshape _ (.ends xn) (by simp [ocVar, colVar])]; rfl
      · rw [hshape _ ((Dict.get? vars "piece_len").getD (.scalar "piece_len")) (by simp [ocVar, colVar])]
        cases hp : Dict.get? vars "piece_len" with
        | none => rfl
        | some w => exact hv.pieceLen w hp
    refine ⟨hb, ?_⟩
    rw [hmemd]
    rcases hn with rfl | rfl | rfl | rfl | rfl | rfl | rfl
    iterate 6 simp [T, ocTable]
    have : "piece_len" ∉ decision := fun h => (hd _ h).1 (by simp)
    simp [T, ocTable, this]
  have hFe : Fits S false m.e ["xp", "up", "p", "piece_len"] ["xp", "up", "piece_len"] [N, m.nx] := by
    have a : e.argNames = ["xp", "up", "p", "piece_len"] := by rw [e3.args]; change (S.fn "e").args = _; rw [F_e]
    refine ⟨by change Meets _ _ _ _ (S.fn e.name) _ _ (s (S.fn e.name)); rw [e2]; exact e3, ?_, ?_, ⟨"xp", ?_, by simp⟩, ?_⟩
    · change e.argNames.Nodup; rw [a]; decide
    · change ∀ n ∈ e.argNames, _; rw [a]; exact fun _ h => h
    · change _ ∈ e.argNames; rw [a]; simp
    · change e.outShape = _; rw [e3.outShape]; change (S.fn "e").outShape = _; rw [F_e]
  have hFIL : Fits S true m.IL ["xp", "up", "p", "piece_len"] ["xp", "up", "piece_len"] [] := by
    have a : IL.argNames = ["xp", "up", "p", "piece_len"] := by rw [IL3.args]; change (S.fn "IL").args = _; rw [F_IL]; rfl
    refine ⟨by change Meets _ _ _ _ (S.fn IL.name) _ _ (s (S.fn IL.name)); rw [IL2]; exact IL3, ?_, ?_, ⟨"xp", ?_, by simp⟩, ?_⟩
    · change IL.argNames.Nodup; rw [a]; decide
    · change ∀ n ∈ IL.argNames, _; rw [a]; exact fun _ h => h
    · change _ ∈ IL.argNames; rw [a]; simp
    · change IL.outShape = _; rw [IL3.outShape]; change (S.fn "IL").outShape = _; rw [F_IL]; rfl
  have hFM : Fits S true m.M ["xe", "p"] ["xe", "p"] [] := by
    have a : M.argNames = ["xe", "p"] := by rw [M3.args]; change (S.fn "M").args = _; rw [F_M]; rfl
    refine ⟨by change Meets _ _ _ _ (S.fn M.name) _ _ (s (S.fn M.name)); rw [M2]; exact M3, ?_, ?_, ⟨"xe", ?_, by simp⟩, ?_⟩
    · change M.argNames.Nodup; rw [a]; decide
    · change ∀ n ∈ M.argNames, _; rw [a]; exact fun _ h => h
    · change _ ∈ M.argNames; rw [a]; simp
    · change M.outShape = _; rw [M3.outShape]; change (S.fn "M").outShape = _; rw [F_M]; rfl
  have hFg : Fits S false m.g ["x", "u", "p"] ["x", "u"] [m.ng] := by
    have a : g.argNames = ["x", "u", "p"] := by rw [g3.args]; change (S.fn "g").args = _; rw [F_g]; rfl
    refine ⟨by change Meets _ _ _ _ (S.fn g.name) _ _ (s (S.fn g.name)); rw [g2]; exact g3, ?_, ?_, ⟨"x", ?_, by simp⟩, ?_⟩
    · change g.argNames.Nodup; rw [a]; decide
    · change ∀ n ∈ g.argNames, _; rw [a]; exact fun _ h => h
    · change _ ∈ g.argNames; rw [a]; simp
    · change g.outShape = [ng]; rw [g3.outShape]; change (S.fn "g").outShape = _; rw [F_g, ← lg]; rfl
  have hFh : Fits S false m.h ["xe", "p"] ["xe", "p"] [m.nh] := by
    have a : h.argNames = ["xe", "p"] := by rw [h3.args]; change (S.fn "h").args = _; rw [F_h]; rfl
    refine ⟨by change Meets _ _ _ _ (S.fn h.name) _ _ (s (S.fn h.name)); rw [h2]; exact h3, ?_, ?_, ⟨"xe", ?_, by simp⟩, ?_⟩
    · change h.argNames.Nodup; rw [a]; decide
    · change ∀ n ∈ h.argNames, _; rw [a]; exact fun _ h => h
    · change _ ∈ h.argNames; rw [a]; simp
    · change h.outShape = [nh]; rw [h3.outShape]; change (S.fn "h").outShape = _; rw [F_h, ← lh]; rfl
  have horder : 2 ≤ m.collocationOrder := by change 2 ≤ U.order; omega
  obtain ⟨q, hq, hndec, hused⟩ := oc_used S m t P N horder hN hP hts htw hinc hagree hFe hFIL hFM hFg hFh
  obtain ⟨q', N', hq', hN', -, -, hnpt, -, -, hqd, -, hrem, hcon, -, hobj, hext, -⟩ := C21_oc m horder t P hts htw hinc
  obtain rfl : q = q' := Except.ok.inj (hq.symm.trans hq')
  obtain rfl : N' = N := by have : (N' : Int) + 1 = U.order := hN'; omega
  rw [hnpt] at hqd hrem hcon
  have hboth : ∀ A B : List ℝ → Prop, (∀ d : List ℝ, d.length = q.prob.ndec → A d ∧ B d) →
      (∀ d : List ℝ, d.length = q.prob.ndec → A d) ∧ ∀ d : List ℝ, d.length = q.prob.ndec → B d :=
    fun A B h => ⟨fun d hd => (h d hd).1, fun d hd => (h d hd).2⟩
  refine ⟨q, hq, hndec, ?_, ?_, hboth _ _ fun d hl => ?_⟩
  · rw [hobj]
    intro o ho
    simp only [List.mem_cons, List.not_mem_nil, or_false] at ho
    rcases ho with rfl | rfl
    · change IL.name ∈ _; rw [IL2]; simp
    · change M.name ∈ _; rw [M2]; simp
  · rw [hcon]
    intro o ho
    simp only [List.mem_cons, List.not_mem_nil, or_false] at ho
    rcases ho with rfl | rfl | rfl
    · change e.name ∈ _; rw [e2]; simp
    · change g.name ∈ _; rw [g2]; simp
    · change h.name ∈ _; rw [h2]; simp
  have sx : q.prob.variableSpec "x" = .ok (.comp ⟨[P * N' + 1, nx], 0⟩) := by simp only [Problem.variableSpec, hqd]; rfl
  have su : q.prob.variableSpec "u" = .ok (.comp ⟨[P * N' + 1, nu], (P * N' + 1) * nx⟩) := by simp only [Problem.variableSpec, hqd]; rfl
  have sp : q.prob.variableSpec "p" = .ok (.comp ⟨[np], (P * N' + 1) * (nx + nu)⟩) := by simp only [Problem.variableSpec, hqd]; rfl
  have sxp : q.prob.variableSpec "xp" = .ok (.piece ⟨⟨[P * N' + 1, nx], 0⟩, P, N' + 1⟩) := by
    simp only [Problem.variableSpec, hqd, hrem]; rfl
  have sup : q.prob.variableSpec "up" = .ok (.piece ⟨⟨[P * N' + 1, nu], (P * N' + 1) * nx⟩, P, N' + 1⟩) := by
    simp only [Problem.variableSpec, hqd, hrem]; rfl
  have sxe : q.prob.variableSpec "xe" = .ok (.xe ⟨⟨[P * N' + 1, nx], 0⟩⟩) := by simp only [Problem.variableSpec, hqd, hrem]; rfl
  have xpl : Dict.get? q.prob.extra "piece_len" = some ⟨[P], diff t.data⟩ := by rw [hext]; rfl
  have hPN : 2 ≤ P * N' + 1 := by have := Nat.mul_le_mul hP hN1; omega
  have he' : Dict.get? c.model.funcs "e" = some efn := f_e
  -- lengths of the outputs
  have lens : ∀ n ∈ ["e", "IL", "M", "g", "h"], (S.fn n).out.length = (S.fn n).outShape.prod := by
    intro n hn
    simp only [List.mem_cons, List.not_mem_nil, or_false] at hn
    rcases hn with rfl | rfl | rfl | rfl | rfl
    · rw [F_e]; simp [efn, hout.1]
    · rw [F_IL]; rfl
    · rw [F_M]; rfl
    · rw [F_g]; exact vec_size _ _
    · rw [F_h]; exact vec_size _ _
  obtain ⟨vo, vc⟩ := hused.values (by
      intro o ho
      rw [hobj] at ho
      simp only [List.mem_cons, List.not_mem_nil, or_false] at ho
      rcases ho with rfl | rfl
      · change (S.fn IL.name).out.length = (S.fn IL.name).outShape.prod; rw [IL2]; exact lens "IL" (by simp)
      · change (S.fn M.name).out.length = (S.fn M.name).outShape.prod; rw [M2]; exact lens "M" (by simp))
    (by
      intro o ho
      rw [hcon] at ho
      simp only [List.mem_cons, List.not_mem_nil, or_false] at ho
      rcases ho with rfl | rfl | rfl
      · change (S.fn e.name).out.length = (S.fn e.name).outShape.prod; rw [e2]; exact lens "e" (by simp)
      · change (S.fn g.name).out.length = (S.fn g.name).outShape.prod; rw [g2]; exact lens "g" (by simp)
      · change (S.fn h.name).out.length = (S.fn h.name).outShape.prod; rw [h2]; exact lens "h" (by simp)) hl
  -- values
  have he_out : e.outShape = [N', nx] := hFe.out
  have hIL_out : IL.outShape = [] := hFIL.out
  have hM_out : M.outShape = [] := hFM.out
  have hg_out : g.outShape = [ng] := hFg.out
  have hh_out : h.outShape = [nh] := hFh.out
  have E_e : (T.reg (OptFun.mk' [P, N', nx] e none)).E = [P] := Table.reg_E T _ (by change _ = _ ++ e.outShape; rw [he_out]; rfl)
  have E_IL : (T.reg (OptFun.mk' [P] IL none)).E = [P] := Table.reg_E T _ (by change _ = _ ++ IL.outShape; rw [hIL_out]; rfl)
  have E_M : (T.reg (OptFun.mk' [] M none)).E = [] := Table.reg_E T _ (by change _ = _ ++ M.outShape; rw [hM_out]; rfl)
  have E_g : (T.reg (OptFun.mk' [P * N' + 1, ng] g none)).E = [P * N' + 1] := Table.reg_E T _ (by change _ = _ ++ g.outShape; rw [hg_out]; rfl)
  have E_h : (T.reg (OptFun.mk' [nh] h none)).E = [] := Table.reg_E T _ (by change _ = _ ++ h.outShape; rw [hh_out]; rfl)
  have a_e : e.argNames = ["xp", "up", "p", "piece_len"] := by rw [e3.args]; change (S.fn "e").args = _; rw [F_e]
  have a_IL : IL.argNames = ["xp", "up", "p", "piece_len"] := by rw [IL3.args]; change (S.fn "IL").args = _; rw [F_IL]; rfl
  have a_M : M.argNames = ["xe", "p"] := by rw [M3.args]; change (S.fn "M").args = _; rw [F_M]; rfl
  have a_g : g.argNames = ["x", "u", "p"] := by rw [g3.args]; change (S.fn "g").args = _; rw [F_g]; rfl
  have a_h : h.argNames = ["xe", "p"] := by rw [h3.args]; change (S.fn "h").args = _; rw [F_h]; rfl
  have r_e : ∀ i < P, (∀ l < N' + 1, envRow (argEnv efn.args (argsOf q.prob (OptFun.mk' [P, N', nx] e none) (T.reg (OptFun.mk' [P, N', nx] e none)) i d))
      "xp" nx l = ocX nx d (i * N' + l)) ∧
      (∀ l < N' + 1, envRow (argEnv efn.args (argsOf q.prob (OptFun.mk' [P, N', nx] e none) (T.reg (OptFun.mk' [P, N', nx] e none)) i d)) "up" nu l =
        ocU P N' nx nu d (i * N' + l)) ∧
      envRow (argEnv efn.args (argsOf q.prob (OptFun.mk' [P, N', nx] e none) (T.reg (OptFun.mk' [P, N', nx] e none)) i d)) "p" np 0 =
        ocP P N' nx nu np d := by
    intro i hi
    have ix : ∀ n ∈ ["xp", "up", "p", "piece_len"], efn.args.idxOf n < (OptFun.mk' [P, N', nx] e none).fn.argNames.length ∧
        (OptFun.mk' [P, N', nx] e none).args.getD (efn.args.idxOf n) "" = n := by
      change ∀ n ∈ ["xp", "up", "p", "piece_len"], List.idxOf n ["xp", "up", "p", "piece_len"] < e.argNames.length ∧ e.argNames.getD (List.idxOf n ["xp", "up", "p", "piece_len"]) "" = n
      rw [a_e]; decide
    exact ⟨fun l hl =>
      row_piece (d := d) (ix "xp" (by simp)).1 (ix "xp" (by simp)).2 (by simp [T, ocTable]) sxp (by simp [T, ocTable]) (by simp [T, ocTable]) E_e hi hl,
      fun l hl => row_piece (d := d) (ix "up" (by simp)).1 (ix "up" (by simp)).2 (by simp [T, ocTable]) sup (by simp [T, ocTable]) (by simp [T, ocTable]) E_e hi hl,
      row_single (d := d) (e := i) (ix "p" (by simp)).1 (ix "p" (by simp)).2 (by simp [T, ocTable]) sp (by simp [T, ocTable]) (by simp [T, ocTable]) E_e (by simpa using hi)⟩
  have o_e : ∀ i < P, outAt S T q.prob d (OptFun.mk' [P, N', nx] e none) i =
      defects c.col.J (fun r => F.f (ocX nx d r) (ocU P N' nx nu d r) (ocP P N' nx nu np d)) (ocX nx d) N' nx (i * N') ((diff t.data).getD i 0) := by
    intro i hi
    have : S.fn (OptFun.mk' [P, N', nx] e none).fn.name = efn := by change S.fn e.name = _; rw [e2, F_e]
    unfold outAt
    rw [this, hS]
    refine (hout.2 _).trans ?_
    have ix : ∀ n ∈ ["xp", "up", "p", "piece_len"], efn.args.idxOf n < (OptFun.mk' [P, N', nx] e none).fn.argNames.length ∧
        (OptFun.mk' [P, N', nx] e none).args.getD (efn.args.idxOf n) "" = n := by
      change ∀ n ∈ ["xp", "up", "p", "piece_len"], List.idxOf n ["xp", "up", "p", "piece_len"] < e.argNames.length ∧ e.argNames.getD (List.idxOf n ["xp", "up", "p", "piece_len"]) "" = n
      rw [a_e]; decide
    obtain ⟨rx, ru, rp⟩ := r_e i hi
    have rl := cscalar (d := d) (ix "piece_len" (by simp)).1 (ix "piece_len" (by simp)).2 (by simp [T, ocTable]) xpl (by simp [T, ocTable]) (by simp [T, ocTable]) E_e hi
    rw [rl]
    refine defects_congr (fun l hl => ?_) fun l hl => ?_
    · simp only [Nat.zero_add]
      rw [rx l hl, ru l hl, rp]
    · rw [Nat.zero_add, rx l hl]
  have r_IL : ∀ i < P, (∀ l < N' + 1, envRow (argEnv (symocIL A c.col U.L nx nu np).args (argsOf q.prob (OptFun.mk' [P] IL none) (T.reg (OptFun.mk' [P] IL none)) i d))
      "xp" nx l = ocX nx d (i * N' + l)) ∧
      (∀ l < N' + 1, envRow (argEnv (symocIL A c.col U.L nx nu np).args (argsOf q.prob (OptFun.mk' [P] IL none) (T.reg (OptFun.mk' [P] IL none)) i d)) "up" nu l =
        ocU P N' nx nu d (i * N' + l)) ∧
      envRow (argEnv (symocIL A c.col U.L nx nu np).args (argsOf q.prob (OptFun.mk' [P] IL none) (T.reg (OptFun.mk' [P] IL none)) i d)) "p" np 0 =
        ocP P N' nx nu np d := by
    intro i hi
    have ix : ∀ n ∈ ["xp", "up", "p", "piece_len"], (symocIL A c.col U.L nx nu np).args.idxOf n < (OptFun.mk' [P] IL none).fn.argNames.length ∧
        (OptFun.mk' [P] IL none).args.getD ((symocIL A c.col U.L nx nu np).args.idxOf n) "" = n := by
      change ∀ n ∈ ["xp", "up", "p", "piece_len"], List.idxOf n ["xp", "up", "p", "piece_len"] < IL.argNames.length ∧ IL.argNames.getD (List.idxOf n ["xp", "up", "p", "piece_len"]) "" = n
      rw [a_IL]; decide
    exact ⟨fun l hl =>
      row_piece (d := d) (ix "xp" (by simp)).1 (ix "xp" (by simp)).2 (by simp [T, ocTable]) sxp (by simp [T, ocTable]) (by simp [T, ocTable]) E_IL hi hl,
      fun l hl => row_piece (d := d) (ix "up" (by simp)).1 (ix "up" (by simp)).2 (by simp [T, ocTable]) sup (by simp [T, ocTable]) (by simp [T, ocTable]) E_IL hi hl,
      row_single (d := d) (e := i) (ix "p" (by simp)).1 (ix "p" (by simp)).2 (by simp [T, ocTable]) sp (by simp [T, ocTable]) (by simp [T, ocTable]) E_IL (by simpa using hi)⟩
  have o_IL : ∀ i < P, outAt S T q.prob d (OptFun.mk' [P] IL none) i =
      [(∑ l ∈ Finset.range (N' + 1), F.L (ocX nx d (i * N' + l)) (ocU P N' nx nu d (i * N' + l)) (ocP P N' nx nu np d) * c.col.K.getD l 0) *
        (diff t.data).getD i 0] := by
    intro i hi
    have : S.fn (OptFun.mk' [P] IL none).fn.name = symocIL A c.col U.L nx nu np := by change S.fn IL.name = _; rw [IL2, F_IL]
    unfold outAt
    rw [this, hS]
    refine (symocIL_val hA hU hcn hK _).trans ?_
    have ix : ∀ n ∈ ["xp", "up", "p", "piece_len"], (symocIL A c.col U.L nx nu np).args.idxOf n < (OptFun.mk' [P] IL none).fn.argNames.length ∧
        (OptFun.mk' [P] IL none).args.getD ((symocIL A c.col U.L nx nu np).args.idxOf n) "" = n := by
      change ∀ n ∈ ["xp", "up", "p", "piece_len"], List.idxOf n ["xp", "up", "p", "piece_len"] < IL.argNames.length ∧ IL.argNames.getD (List.idxOf n ["xp", "up", "p", "piece_len"]) "" = n
      rw [a_IL]; decide
    obtain ⟨rx, ru, rp⟩ := r_IL i hi
    have rl := cscalar (d := d) (ix "piece_len" (by simp)).1 (ix "piece_len" (by simp)).2 (by simp [T, ocTable]) xpl (by simp [T, ocTable]) (by simp [T, ocTable]) E_IL hi
    rw [rl, rp]
    congr 2
    refine Finset.sum_congr rfl fun l hl => ?_
    have hl := Finset.mem_range.1 hl
    rw [rx l hl, ru l hl]
  have r_M : envRow (argEnv ["xe", "p"] (argsOf q.prob (OptFun.mk' [] M none) (T.reg (OptFun.mk' [] M none)) 0 d)) "xe" (2 * nx) 0 =
        ocX nx d 0 ++ ocX nx d (P * N') ∧
      envRow (argEnv ["xe", "p"] (argsOf q.prob (OptFun.mk' [] M none) (T.reg (OptFun.mk' [] M none)) 0 d)) "p" np 0 =
        ocP P N' nx nu np d := by
    have ix : ∀ n ∈ ["xe", "p"], List.idxOf n ["xe", "p"] < (OptFun.mk' [] M none).fn.argNames.length ∧
        (OptFun.mk' [] M none).args.getD (List.idxOf n ["xe", "p"]) "" = n := by
      change ∀ n ∈ ["xe", "p"], List.idxOf n ["xe", "p"] < M.argNames.length ∧ M.argNames.getD (List.idxOf n ["xe", "p"]) "" = n
      rw [a_M]; decide
    exact ⟨row_xe (d := d) (e := 0) (ix "xe" (by simp)).1 (ix "xe" (by simp)).2 hPN (by simp [T, ocTable]) sxe (by simp [T, ocTable]) (by simp [T, ocTable]) E_M (by simp),
      row_single (d := d) (e := 0) (ix "p" (by simp)).1 (ix "p" (by simp)).2 (by simp [T, ocTable]) sp (by simp [T, ocTable]) (by simp [T, ocTable]) E_M (by simp)⟩
  have o_M : outAt S T q.prob d (OptFun.mk' [] M none) 0 = [F.M (ocX nx d 0 ++ ocX nx d (P * N')) (ocP P N' nx nu np d)] := by
    have : S.fn (OptFun.mk' [] M none).fn.name = .scalar ["xe", "p"] (U.M (A.row "xe" (2 * nx) 0) (A.row "p" np 0)) := by
      change S.fn M.name = _; rw [M2, F_M]
    unfold outAt
    rw [this, hS]
    obtain ⟨rx, rp⟩ := r_M
    change [ev (U.M _ _) _] = _
    rw [hU.M _ _ _ (row_length _ _ _) (row_length _ _ _), ev_row hA, ev_row hA]
    change [F.M (envRow (argEnv ["xe", "p"] _) _ _ _) (envRow (argEnv ["xe", "p"] _) _ _ _)] = _
    rw [rx, rp]
  have r_g : ∀ i < P * N' + 1, envRow (argEnv ["x", "u", "p"] (argsOf q.prob (OptFun.mk' [P * N' + 1, ng] g none) (T.reg (OptFun.mk' [P * N' + 1, ng] g none)) i d)) "x" nx 0 = ocX nx d i ∧
      envRow (argEnv ["x", "u", "p"] (argsOf q.prob (OptFun.mk' [P * N' + 1, ng] g none) (T.reg (OptFun.mk' [P * N' + 1, ng] g none)) i d)) "u" nu 0 = ocU P N' nx nu d i ∧
      envRow (argEnv ["x", "u", "p"] (argsOf q.prob (OptFun.mk' [P * N' + 1, ng] g none) (T.reg (OptFun.mk' [P * N' + 1, ng] g none)) i d)) "p" np 0 = ocP P N' nx nu np d := by
    intro i hi
    have ix : ∀ n ∈ ["x", "u", "p"], List.idxOf n ["x", "u", "p"] < (OptFun.mk' [P * N' + 1, ng] g none).fn.argNames.length ∧
        (OptFun.mk' [P * N' + 1, ng] g none).args.getD (List.idxOf n ["x", "u", "p"]) "" = n := by
      change ∀ n ∈ ["x", "u", "p"], List.idxOf n ["x", "u", "p"] < g.argNames.length ∧ g.argNames.getD (List.idxOf n ["x", "u", "p"]) "" = n
      rw [a_g]; decide
    have rx := row_comp (d := d) (ix "x" (by simp)).1 (ix "x" (by simp)).2 (by simp [T, ocTable]) sx (by simp [T, ocTable]) (by simp [T, ocTable]) E_g hi
    have ru := row_comp (d := d) (ix "u" (by simp)).1 (ix "u" (by simp)).2 (by simp [T, ocTable]) su (by simp [T, ocTable]) (by simp [T, ocTable]) E_g hi
    have rp := row_single (d := d) (e := i) (ix "p" (by simp)).1 (ix "p" (by simp)).2 (by simp [T, ocTable]) sp (by simp [T, ocTable]) (by simp [T, ocTable]) E_g (by simpa using hi)
    exact ⟨rx, ru, rp⟩
  have o_g : ∀ i < P * N' + 1, outAt S T q.prob d (OptFun.mk' [P * N' + 1, ng] g none) i =
      F.g (ocX nx d i) (ocU P N' nx nu d i) (ocP P N' nx nu np d) := by
    intro i hi
    have : S.fn (OptFun.mk' [P * N' + 1, ng] g none).fn.name = .vec ["x", "u", "p"] (U.g (A.row "x" nx 0) (A.row "u" nu 0) (A.row "p" np 0)) := by
      change S.fn g.name = _; rw [g2, F_g]
    unfold outAt
    rw [this, hS]
    obtain ⟨rx, ru, rp⟩ := r_g i hi
    refine (hU.g _ _ _ _ (row_length _ _ _) (row_length _ _ _) (row_length _ _ _)).trans ?_
    rw [ev_row hA, ev_row hA, ev_row hA]
    change F.g (envRow (argEnv ["x", "u", "p"] _) _ _ _) (envRow (argEnv ["x", "u", "p"] _) _ _ _) (envRow (argEnv ["x", "u", "p"] _) _ _ _) = _
    rw [rx, ru, rp]
  have r_h : envRow (argEnv ["xe", "p"] (argsOf q.prob (OptFun.mk' [nh] h none) (T.reg (OptFun.mk' [nh] h none)) 0 d)) "xe" (2 * nx) 0 =
        ocX nx d 0 ++ ocX nx d (P * N') ∧
      envRow (argEnv ["xe", "p"] (argsOf q.prob (OptFun.mk' [nh] h none) (T.reg (OptFun.mk' [nh] h none)) 0 d)) "p" np 0 =
        ocP P N' nx nu np d := by
    have ix : ∀ n ∈ ["xe", "p"], List.idxOf n ["xe", "p"] < (OptFun.mk' [nh] h none).fn.argNames.length ∧
        (OptFun.mk' [nh] h none).args.getD (List.idxOf n ["xe", "p"]) "" = n := by
      change ∀ n ∈ ["xe", "p"], List.idxOf n ["xe", "p"] < h.argNames.length ∧ h.argNames.getD (List.idxOf n ["xe", "p"]) "" = n
      rw [a_h]; decide
    exact ⟨row_xe (d := d) (e := 0) (ix "xe" (by simp)).1 (ix "xe" (by simp)).2 hPN (by simp [T, ocTable]) sxe (by simp [T, ocTable]) (by simp [T, ocTable]) E_h (by simp),
      row_single (d := d) (e := 0) (ix "p" (by simp)).1 (ix "p" (by simp)).2 (by simp [T, ocTable]) sp (by simp [T, ocTable]) (by simp [T, ocTable]) E_h (by simp)⟩
  have o_h : outAt S T q.prob d (OptFun.mk' [nh] h none) 0 = F.h (ocX nx d 0 ++ ocX nx d (P * N')) (ocP P N' nx nu np d) := by
    have : S.fn (OptFun.mk' [nh] h none).fn.name = .vec ["xe", "p"] (U.h (A.row "xe" (2 * nx) 0) (A.row "p" np 0)) := by
      change S.fn h.name = _; rw [h2, F_h]
    unfold outAt
    rw [this, hS]
    obtain ⟨rx, rp⟩ := r_h
    refine (hU.h _ _ _ (row_length _ _ _) (row_length _ _ _)).trans ?_
    rw [ev_row hA, ev_row hA]
    change F.h (envRow (argEnv ["xe", "p"] _) _ _ _) (envRow (argEnv ["xe", "p"] _) _ _ _) = _
    rw [rx, rp]
  refine ⟨hused.sees hl ?_ ?_, ?_, ?_, fun hsm => hused.right hl hsm⟩
  · rw [hobj]
    intro o ho el he
    simp only [List.mem_cons, List.not_mem_nil, or_false] at ho
    rcases ho with rfl | rfl
    · rw [E_IL] at he
      have hi : el < P := by simpa using he
      have hnm : (OptFun.mk' [P] IL none).fn.name = "IL" := IL2
      rw [hnm, F_IL]
      exact Or.inl ⟨Or.inr rfl, el, hi, r_IL el hi⟩
    · rw [E_M] at he
      have hnm : (OptFun.mk' [] M none).fn.name = "M" := M2
      rw [hnm, F_M]
      obtain rfl : el = 0 := by simpa using he
      exact Or.inr (Or.inr ⟨Or.inl rfl, r_M⟩)
  · rw [hcon]
    intro o ho el he
    simp only [List.mem_cons, List.not_mem_nil, or_false] at ho
    rcases ho with rfl | rfl | rfl
    · rw [E_e] at he
      have hi : el < P := by simpa using he
      have hnm : (OptFun.mk' [P, N', nx] e none).fn.name = "e" := e2
      rw [hnm, F_e]
      exact Or.inl ⟨Or.inl rfl, el, hi, r_e el hi⟩
    · rw [E_g] at he
      have hi : el < P * N' + 1 := by simpa using he
      have hnm : (OptFun.mk' [P * N' + 1, ng] g none).fn.name = "g" := g2
      rw [hnm, F_g]
      exact Or.inr (Or.inl ⟨rfl, el, hi, r_g el hi⟩)
    · rw [E_h] at he
      have hnm : (OptFun.mk' [nh] h none).fn.name = "h" := h2
      rw [hnm, F_h]
      obtain rfl : el = 0 := by simpa using he
      exact Or.inr (Or.inr ⟨Or.inr rfl, r_h⟩)
  · rw [vo, hobj]
    simp only [List.map_cons, List.map_nil, List.sum_cons, List.sum_nil, add_zero]
    change Except.ok ((List.map _ (List.range (T.reg (OptFun.mk' [P] IL none)).E.prod)).sum +
      (List.map _ (List.range (T.reg (OptFun.mk' [] M none)).E.prod)).sum) = _
    rw [E_IL, E_M, ocCost]
    simp only [List.prod_singleton, List.prod_nil, list_sum_range, Finset.sum_range_one]
    congr 2
    · exact Finset.sum_congr rfl fun i hi => by
        change (outAt S T q.prob d (OptFun.mk' [P] IL none) i).sum = _
        rw [o_IL i (Finset.mem_range.1 hi)]; simp
    · change (outAt S T q.prob d (OptFun.mk' [] M none) 0).sum = _
      rw [o_M]; simp
  · rw [vc, hcon]
    simp only [List.flatMap_cons, List.flatMap_nil, List.append_nil]
    change Except.ok ((List.range (T.reg (OptFun.mk' [P, N', nx] e none)).E.prod).flatMap _ ++
      ((List.range (T.reg (OptFun.mk' [P * N' + 1, ng] g none)).E.prod).flatMap _ ++
      (List.range (T.reg (OptFun.mk' [nh] h none)).E.prod).flatMap _)) = _
    rw [E_e, E_g, E_h, ocConstraints, List.append_assoc]
    simp only [List.prod_singleton, List.prod_nil, List.range_one, List.flatMap_cons, List.flatMap_nil, List.append_nil]
    congr 2
    · exact List.flatMap_congr fun i hi => o_e i (List.mem_range.1 hi)
    · congr 1
      exact List.flatMap_congr fun i hi => o_g i (List.mem_range.1 hi)

/-- **C70** for optimal control.  From the symbolic methods `f`, `L`, `M`, `g`, `h` of the user, which compute the functions `F`, the
constructor of the model, the generated class and the constructor of the problem lead to a nonlinear program whose cost and
constraints are the direct transcription of the optimal control problem for `F`, and whose derivatives are right wherever the
symbolic derivatives are. -/
theorem C70_oc {A : SymArith X} {ev : X → Env → ℝ} (hA : ArithOK A ev) (U : OCUser X) (F : OCFunctions) {xn un pn : List String} {ng nh N : Nat}
    (hU : OCDenotes ev U F xn.length un.length pn.length ng nh) (hN : (N : Int) + 1 = U.order) (hN1 : 1 ≤ N) {vars : Dict String SymVar}
    (hv : ColVars vars xn un pn) {decision : List String}
    (hd : DecisionOK vars ["x", "u", "p", "xp", "up", "xe"] ["piece_len"] decision) {iter : String → List String} (hi : OrdersOK iter ocWrt) :
    ∃ c, symocInit A U iter vars decision = .ok c ∧ lglCollocation U.order = .ok c.col ∧
      ∀ codegen : SymFn X → List (NDArray ℝ) → NDArray ℝ,
      (∀ name g, Dict.get? c.model.funcs name = some g → CodegenOK ev (shapeOf c.vars) codegen g) →
      ∃ m s, symocGen codegen U c = .ok m ∧ m.nx = xn.length ∧ m.nu = un.length ∧ m.np = pn.length ∧ m.ng = ng ∧ m.nh = nh ∧
      ∀ (t : NDArray ℝ) (P : Nat), 1 ≤ P → t.shape = [P + 1] → t.WF → t.data.Pairwise (· < ·) →
      ∃ q, ocProblem m t = .ok q ∧ q.prob.ndec = (P * N + 1) * (xn.length + un.length) + pn.length ∧
      ∀ d : List ℝ, d.length = q.prob.ndec →
        q.prob.obj d = .ok (ocCost F c.col.K (diff t.data) P N xn.length un.length pn.length d) ∧
        q.prob.constr d = .ok (ocConstraints F c.col.J (diff t.data) P N xn.length un.length pn.length d) ∧
        (SmoothProblem (c.side A ev s) (ocTable P N xn.length un.length pn.length) q.prob d → DerivativesRight q.prob d) := by
  obtain ⟨c, h1, h2, -, h3⟩ := oc_nlp hA U F hU hN hN1 hv hd hi
  refine ⟨c, h1, h2, fun codegen hcg => ?_⟩
  obtain ⟨m, s, g1, g2, g3, g4, g5, g6, h4⟩ := h3 codegen hcg
  refine ⟨m, s, g1, g2, g3, g4, g5, g6, fun t P hP hs hw hinc => ?_⟩
  obtain ⟨q, q1, q2, -, -, -, q3⟩ := h4 t P hP hs hw hinc
  exact ⟨q, q1, q2, q3⟩

end Ceacoest
