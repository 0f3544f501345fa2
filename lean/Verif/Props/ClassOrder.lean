import Verif.Model.ClassOrder
import Verif.Props.TranscriptionOCExpr

/-! # C120: the order of collocation of generated classes -/

namespace Ceacoest
open Spec RK OrderObj

theorem nearest_none {l : List (Option Int)} (h : ∀ v ∈ l, v = none) : nearest l = none := by
  unfold nearest
  exact List.findSome?_eq_none_iff.2 fun v hv => h v hv

theorem nearest_some {l r : List (Option Int)} {v : Int} (h : ∀ w ∈ l, w = none) : nearest (l ++ some v :: r) = some v := by
  unfold nearest
  rw [List.findSome?_append, show l.findSome? id = none from nearest_none h]
  rfl

/-- **C120** (lookup). The order is the number of the first derived class that has one, unless the object has its own; otherwise that of the first class after `symcol.Model`; otherwise two. -/
theorem C120_order (m : OrderObj) :
    (∀ l v r, m.mro.before = l ++ some v :: r → (∀ w ∈ l, w = none) → m.order = (match m.own with | some w => w | none => v)) ∧
    ((∀ w ∈ m.mro.before, w = none) → (∀ l v r, m.mro.after = l ++ some v :: r → (∀ w ∈ l, w = none) → m.order = v) ∧ ((∀ w ∈ m.mro.after, w = none) → m.order = 2)) := by
  unfold OrderObj.order
  refine ⟨fun l v r h hl => ?_, fun h => ⟨fun l v r h' hl => ?_, fun h' => ?_⟩⟩
  · rw [h, nearest_some hl]
    cases m.own <;> rfl
  · rw [nearest_none h, h', nearest_some hl]
    rfl
  · rw [nearest_none h, nearest_none h']
    rfl

/-- **C120** (construction). The constructor raises ValueError for orders below two; otherwise the collocation method is the one of the order of the class. -/
theorem C120_make (mro : Mro) : (({ mro } : OrderObj).order < 2 → make mro = .error .valueError) ∧
    (2 ≤ ({ mro } : OrderObj).order → ∃ m col, make mro = .ok m ∧ m.mro = mro ∧ m.own = none ∧ m.cache = some col ∧ lglCollocation ({ mro } : OrderObj).order = .ok col ∧
      (col.n : Int) = ({ mro } : OrderObj).order) := by
  refine ⟨fun h => ?_, fun h => ?_⟩
  · unfold make OrderObj.collocation lglCollocation lglPoints
    simp only [if_pos h]
    rfl
  · obtain ⟨col, N, h1, h2, h3, -⟩ := lgl_lengths h
    refine ⟨{ mro, cache := some col }, col, ?_, rfl, rfl, rfl, h1, by omega⟩
    unfold make OrderObj.collocation
    rw [h1]
    rfl

/-- What a sequence of operations leaves: the cache, and the last assigned number. -/
theorem steps_of {ops : List Op} {m m' : OrderObj} {col : Collocation ℝ} (hc : m.cache = some col) (h : ops.foldlM step m = .ok m') :
    m'.mro = m.mro ∧ m'.cache = some col ∧ m'.own = ops.foldl (fun o op => match op with | .setOrder v => some v | .collocation => o) m.own := by
  induction ops generalizing m with
  | nil =>
    cases h
    exact ⟨rfl, hc, rfl⟩
  | cons op ops ih =>
    rw [List.foldlM_cons] at h
    obtain ⟨m1, h1, h2⟩ := py_bind_eq_ok h
    cases op with
    | setOrder v =>
      unfold step OrderObj.setOrder at h1
      dsimp only at h1
      split at h1
      · cases h1
        exact ih (m := { m with own := some v }) hc h2
      · cases h1
    | collocation =>
      unfold step OrderObj.collocation at h1
      rw [hc] at h1
      cases h1
      exact ih hc h2

/-- **C120** (cache). Whatever is done with the object after it is made, its method, with which the defects are made, is the one of the order at construction. If a derived class has the attribute, the order
that the generated class gets is the number assigned last; if none has, it cannot be assigned, and the two always agree. -/
theorem C120_cache {mro : Mro} {m m' : OrderObj} (hm : make mro = .ok m) {ops : List Op} (h : ops.foldlM step m = .ok m') :
    (∃ col, m'.collocation = .ok (col, m') ∧ (col.n : Int) = ({ mro } : OrderObj).order) ∧
    ((∀ op ∈ ops, op = .collocation) → m'.order = ({ mro } : OrderObj).order) ∧
    (∀ o1 v o2, ops = o1 ++ .setOrder v :: o2 → (∀ op ∈ o2, op = .collocation) → m'.order = v) ∧
    ((∀ w ∈ mro.before, w = none) → ∀ op ∈ ops, op = .collocation) := by
  have ho : 2 ≤ ({ mro } : OrderObj).order := by
    by_contra hlt
    rw [(C120_make mro).1 (by omega)] at hm
    cases hm
  obtain ⟨m0, col, e, h1, h2, h3, h4, h5⟩ := (C120_make mro).2 ho
  obtain rfl : m = m0 := Except.ok.inj (hm.symm.trans e)
  obtain ⟨g1, g2, g3⟩ := steps_of h3 h
  have skip : ∀ (o2 : List Op) (o : Option Int), (∀ op ∈ o2, op = .collocation) → o2.foldl (fun o op => match op with | .setOrder v => some v | .collocation => o) o = o := fun o2 => by
    induction o2 with
    | nil => exact fun _ _ => rfl
    | cons a l ih =>
      intro o ho
      rw [ho a (by simp)] 
      exact ih o fun b hb => ho b (by simp [hb])
  have novals : (∀ w ∈ mro.before, w = none) → ∀ op ∈ ops, op = .collocation := fun hb op hop => by
    cases op with
    | collocation => rfl
    | setOrder v =>
      exfalso
      obtain ⟨i, hi, hi'⟩ := List.getElem_of_mem hop
      have hsplit : ops = ops.take i ++ .setOrder v :: ops.drop (i + 1) := by rw [← hi', List.getElem_cons_drop, List.take_append_drop]
      rw [hsplit, List.foldlM_append] at h
      obtain ⟨m1, h6, h7⟩ := py_bind_eq_ok h
      rw [List.foldlM_cons] at h7
      obtain ⟨m2, h8, -⟩ := py_bind_eq_ok h7
      unfold step OrderObj.setOrder at h8
      dsimp only at h8
      rw [(steps_of h3 h6).1, h1, nearest_none hb] at h8
      cases h8
  refine ⟨⟨col, ?_, h5⟩, fun hop => ?_, fun o1 v o2 hops ho2 => ?_, novals⟩
  · unfold OrderObj.collocation
    rw [g2]
  · rw [skip ops _ hop, h2] at g3
    unfold OrderObj.order
    rw [g1, h1, g3]
  · rw [hops, List.foldl_append, List.foldl_cons, skip o2 _ ho2] at g3
    unfold OrderObj.order
    rw [g1, h1]
    cases hb : nearest mro.before with
    | some w => rw [g3]; rfl
    | none =>
      exfalso
      have hb' : ∀ w ∈ mro.before, w = none := fun w hw => (List.findSome?_eq_none_iff.1 hb) w hw
      have := novals hb' (.setOrder v) (by rw [hops]; simp)
      cases this

/-! ### What a generated class of another order does -/

theorem addDecision_constraints {p q : Problem ℝ} {n : String} {s : ShapeArg} {c : Component} (h : p.addDecision' n s = .ok (q, c)) : q.constraints = p.constraints := by
  unfold Problem.addDecision' Problem.addDecision at h
  dsimp only at h
  split at h
  · cases h
  · split at h
    · cases h
    · cases h
      rfl

theorem addDependent_constraints {p q : Problem ℝ} {n : String} {s : VarSpec} (h : p.addDependent' n s = .ok q) : q.constraints = p.constraints := by
  unfold Problem.addDependent' Problem.addDependent at h
  dsimp only at h
  split at h
  · cases h
  · split at h
    · cases h
    · cases h
      rfl

theorem create_constraints {model : ColModel} {t : NDArray ℝ} {q : ColProblem} (h : ColProblem.create ColProblem.initVars model t = .ok q) :
    ∃ n off, q.prob.constraints = [⟨OptFun.mk' [n, (model.collocationOrder - 1).toNat, model.nx] model.e none, off⟩] ∧ 2 ≤ model.collocationOrder := by
  unfold ColProblem.create at h
  obtain ⟨col, h1, h⟩ := py_bind_eq_ok h
  have ho : 2 ≤ model.collocationOrder := by
    by_contra hlt
    unfold lglCollocation lglPoints at h1
    rw [if_pos (by omega)] at h1
    cases h1
  obtain ⟨col', N, e1, e2, e3, e4, -⟩ := lgl_lengths ho
  obtain rfl : col = col' := Except.ok.inj (h1.symm.trans e1)
  obtain ⟨_, -, h⟩ := py_bind_eq_ok h
  obtain ⟨_, -, h⟩ := py_bind_eq_ok h
  obtain ⟨tc, -, h⟩ := py_bind_eq_ok h
  obtain ⟨q0, h2, h⟩ := py_bind_eq_ok h
  cases h
  unfold ColProblem.initVars at h2
  obtain ⟨⟨p1, x⟩, h3, h2⟩ := py_bind_eq_ok h2
  obtain ⟨p2, h4, h2⟩ := py_bind_eq_ok h2
  cases h2
  have hp : p2.constraints = [] := by
    rw [addDependent_constraints h4, addDecision_constraints h3]
    rfl
  refine ⟨(diff t.data).length, p2.ncons, ?_, ho⟩
  dsimp only [Problem.addConstraint]
  rw [hp]
  have : col.ninterv = (model.collocationOrder - 1).toNat := by omega
  rw [this]
  rfl

theorem sumNnz_error {C : Type} {p : Problem ℝ} {c : C} {r : List C} {nnz : C → Dict String (List Nat) → Py Nat} {e : PyErr} (h : nnz c p.variableShapes = .error e) :
    p.sumNnz (c :: r) nnz = .error e := by
  unfold Problem.sumNnz
  rw [List.foldlM_cons, h]
  rfl

/-- **C120** (mismatch). A problem of a generated class whose order is not that of its defects cannot be solved: its constraints have no derivatives, for all grids. -/
theorem C120_mismatch {model : OCModel} {t : NDArray ℝ} {q : ColProblem} (hq : ocProblem model t = .ok q) {N : Nat} (he : model.e.outShape = [N, model.nx])
    (hne : (N : Int) + 1 ≠ model.collocationOrder) :
    q.prob.constrJacNnz = .error .assertionError ∧ q.prob.constrJacInd = .error .assertionError ∧ (∀ dvec, q.prob.constrJacVal dvec = .error .assertionError) ∧
      q.prob.constrHessNnz = .error .assertionError ∧ q.prob.constrHessInd = .error .assertionError ∧ q.prob.ipoptJacInd = .error .assertionError := by
  unfold ocProblem at hq
  obtain ⟨q0, h0, hq⟩ := py_bind_eq_ok hq
  obtain ⟨n, off, hc, ho⟩ := create_constraints h0
  dsimp only at hq
  obtain ⟨x, -, hq⟩ := py_bind_eq_ok hq
  obtain ⟨⟨p1, u⟩, h1, hq⟩ := py_bind_eq_ok hq
  obtain ⟨⟨p2, _⟩, h2, hq⟩ := py_bind_eq_ok hq
  obtain ⟨p3, h3, hq⟩ := py_bind_eq_ok hq
  obtain ⟨p4, h4, hq⟩ := py_bind_eq_ok hq
  cases hq
  have hcs : p4.constraints = [⟨OptFun.mk' [n, (model.collocationOrder - 1).toNat, model.nx] model.e none, off⟩] := by
    rw [addDependent_constraints h4, addDependent_constraints h3, addDecision_constraints h2, addDecision_constraints h1, hc]
  have hshape : ∀ d, model.e.sparseNnz d [n, (model.collocationOrder - 1).toNat, model.nx] = .error .assertionError := fun d => by
    unfold GenFun.sparseNnz GenFun.extOut shapeExt
    rw [he]
    have : ¬ ([n, (model.collocationOrder - 1).toNat, model.nx].drop ([n, (model.collocationOrder - 1).toNat, model.nx].length - [N, model.nx].length) = [N, model.nx]) := by
      simp
      omega
    dsimp only
    rw [if_neg (by simp)]
    unfold pyAssert
    rw [if_neg this]
    rfl
  set P := ((p4.addObjective model.IL (.int q0.npieces) none).addObjective model.M (.tuple []) none).addConstraint model.g (.tuple [q0.npoints, model.ng]) none with hP
  have hPc : ∃ r : List (Constr ℝ), (P.addConstraint model.h (.int model.nh) none).constraints = ⟨OptFun.mk' [n, (model.collocationOrder - 1).toNat, model.nx] model.e none, off⟩ :: r := by
    have : (P.addConstraint model.h (.int model.nh) none).constraints = p4.constraints ++ [_] ++ [_] := rfl
    rw [this, hcs]
    exact ⟨_, rfl⟩
  obtain ⟨r, hr⟩ := hPc
  have j : (P.addConstraint model.h (.int model.nh) none).constrJacNnz = .error .assertionError := by
    unfold Problem.constrJacNnz
    rw [hr]
    exact sumNnz_error (hshape _)
  have k : (P.addConstraint model.h (.int model.nh) none).constrHessNnz = .error .assertionError := by
    unfold Problem.constrHessNnz
    rw [hr]
    exact sumNnz_error (hshape _)
  have ji : (P.addConstraint model.h (.int model.nh) none).constrJacInd = .error .assertionError := by
    unfold Problem.constrJacInd
    rw [j]
    rfl
  refine ⟨j, ji, fun dvec => ?_, k, ?_, ?_⟩
  · unfold Problem.constrJacVal
    rw [j]
    rfl
  · unfold Problem.constrHessInd
    rw [k]
    rfl
  · unfold Problem.ipoptJacInd
    rw [ji]
    rfl

theorem symocGenAt_of {X : Type} {codegen : SymFn X → List (NDArray ℝ) → NDArray ℝ} {U : OCUser X} {c : SymClass X} {m : OCModel} (h : symocGen codegen U c = .ok m) (v : Int) :
    symocGenAt codegen U v c = .ok { m with collocationOrder := v } := by
  unfold symocGen at h
  obtain ⟨nx, h1, h⟩ := py_bind_eq_ok h
  obtain ⟨nu, h2, h⟩ := py_bind_eq_ok h
  obtain ⟨np, h3, h⟩ := py_bind_eq_ok h
  obtain ⟨ng, h4, h⟩ := py_bind_eq_ok h
  obtain ⟨nh, h5, h⟩ := py_bind_eq_ok h
  obtain ⟨e, h6, h⟩ := py_bind_eq_ok h
  obtain ⟨g, h7, h⟩ := py_bind_eq_ok h
  obtain ⟨hh, h8, h⟩ := py_bind_eq_ok h
  obtain ⟨IL, h9, h⟩ := py_bind_eq_ok h
  obtain ⟨M, h10, h⟩ := py_bind_eq_ok h
  cases h
  unfold symocGenAt symocGen
  rw [h1, py_bind_ok, h2, py_bind_ok, h3, py_bind_ok, h4, py_bind_ok, h5, py_bind_ok, h6, py_bind_ok, h7, py_bind_ok, h8, py_bind_ok, h9, py_bind_ok, h10, py_bind_ok]
  rfl

theorem genConstraint_of_gen {X : Type} {codegen : SymFn X → List (NDArray ℝ) → NDArray ℝ} {U : OCUser X} {c : SymClass X} {m : OCModel} (h : symocGen codegen U c = .ok m) :
    c.model.genConstraint codegen "e" = .ok m.e := by
  unfold symocGen at h
  obtain ⟨nx, h1, h⟩ := py_bind_eq_ok h
  obtain ⟨nu, h2, h⟩ := py_bind_eq_ok h
  obtain ⟨np, h3, h⟩ := py_bind_eq_ok h
  obtain ⟨ng, h4, h⟩ := py_bind_eq_ok h
  obtain ⟨nh, h5, h⟩ := py_bind_eq_ok h
  obtain ⟨e, h6, h⟩ := py_bind_eq_ok h
  obtain ⟨g, h7, h⟩ := py_bind_eq_ok h
  obtain ⟨hh, h8, h⟩ := py_bind_eq_ok h
  obtain ⟨IL, h9, h⟩ := py_bind_eq_ok h
  obtain ⟨M, h10, h⟩ := py_bind_eq_ok h
  cases h
  exact h6

/-- **C120** (from the model to the problem). A model made at one order, and generated when its attribute is another: constructor, generation and the constructor of the problem succeed on all grids,
but the problem has no Jacobian and no Hessian of the constraints. -/
theorem C120_generated {X : Type} {A : SymArith X} {ev : X → Env → ℝ} (hA : ArithOK A ev) (U : OCUser X) (F : OCFunctions) {xn un pn : List String} {ng nh N : Nat}
    (hU : OCDenotes ev U F xn.length un.length pn.length ng nh) (hN : (N : Int) + 1 = U.order) (hN1 : 1 ≤ N) {vars : Dict String SymVar}
    (hv : ColVars vars xn un pn) {decision : List String}
    (hd : DecisionOK vars ["x", "u", "p", "xp", "up", "xe"] ["piece_len"] decision) {iter : String → List String} (hi : OrdersOK iter ocWrt)
    {v : Int} (hv2 : 2 ≤ v) (hne : v ≠ U.order) :
    ∃ c, symocInit A U iter vars decision = .ok c ∧ ∀ codegen : SymFn X → List (NDArray ℝ) → NDArray ℝ,
      (∀ name g, Dict.get? c.model.funcs name = some g → CodegenOK ev (shapeOf c.vars) codegen g) →
      ∃ m, symocGenAt codegen U v c = .ok m ∧ ∀ (t : NDArray ℝ) (P : Nat), 1 ≤ P → t.shape = [P + 1] → t.WF → t.data.Pairwise (· < ·) →
      ∃ q, ocProblem m t = .ok q ∧ q.prob.constrJacNnz = .error .assertionError ∧ q.prob.constrJacInd = .error .assertionError ∧
        (∀ dvec, q.prob.constrJacVal dvec = .error .assertionError) ∧ q.prob.constrHessNnz = .error .assertionError ∧ q.prob.constrHessInd = .error .assertionError ∧
        q.prob.ipoptJacInd = .error .assertionError := by
  obtain ⟨c, h1, -, -, h2⟩ := oc_nlp hA U F hU hN hN1 hv hd hi
  obtain ⟨c', h1', -, -, -, -, -, -, -, out, -, -, hfn, s, hs⟩ := symoc_ok hA U F hU hN hN1 hv hd hi
  obtain rfl : c = c' := Except.ok.inj (h1.symm.trans h1')
  refine ⟨c, h1, fun codegen hcg => ?_⟩
  obtain ⟨m, -, g1, g2, -⟩ := h2 codegen hcg
  refine ⟨_, symocGenAt_of g1 v, fun t P hP ht hw hinc => ?_⟩
  obtain ⟨q, _, hq, -⟩ := C21_oc { m with collocationOrder := v } hv2 t P ht hw hinc
  have he : m.e.outShape = [N, m.nx] := by
    obtain ⟨g, e1, -, e2⟩ := hs codegen hcg "e" false (by simp)
    obtain rfl : g = m.e := Except.ok.inj (e1.symm.trans (genConstraint_of_gen g1))
    rw [e2.outShape, g2]
    have : (c.side A ev s).fn "e" = ⟨["xp", "up", "p", "piece_len"], [N, xn.length], out⟩ := by
      change (Dict.get? _ _).getD _ = _
      rw [hfn _ (by simp)]
      rfl
    rw [this]
  exact ⟨q, hq, C120_mismatch hq he (by rw [hN]; exact hne.symm)⟩

/-- The pendulum, made with three points and generated as of order two. -/
example : ∃ c, symocInit SExpr.arith Pendulum.user Pendulum.iter Pendulum.vars ["xe", "y"] = .ok c ∧ ∃ m, symocGenAt (exprCode (shapeOf c.vars)) Pendulum.user 2 c = .ok m ∧
    ∃ q, ocProblem m ⟨[3], [0, 1, 3]⟩ = .ok q ∧ q.prob.constrJacInd = .error .assertionError := by
  obtain ⟨c, h1, h2⟩ := C120_generated arith_ok Pendulum.user Pendulum.functions (xn := ["angle", "speed"]) (un := ["torque"])
    (pn := ["friction"]) (N := 2) Pendulum.denotes rfl (by decide) Pendulum.vars_ok (decision := ["xe", "y"]) (by unfold DecisionOK; decide)
    Pendulum.iter_ok (v := 2) le_rfl (by decide)
  obtain ⟨m, h3, h4⟩ := h2 (exprCode (shapeOf c.vars)) fun _ g _ => C66_expr_code _ g
  obtain ⟨q, h5, -, h6, -⟩ := h4 ⟨[3], [0, 1, 3]⟩ 2 (by decide) rfl (by simp [NDArray.WF]) (by norm_num)
  exact ⟨c, h1, m, h3, q, h5, h6⟩

/-- The classes of the examples: `collocation_order = 3` in the class, nothing in `symoptim.Model` and the bases after it. -/
example : (⟨⟨[some 3, none], [none, none]⟩, none, none⟩ : OrderObj).order = 3 ∧ (⟨⟨[none, none], [none, none]⟩, none, none⟩ : OrderObj).order = 2 ∧
    OrderObj.setOrder 4 ⟨⟨[none, none], [none, none]⟩, none, none⟩ = .error .attributeError := ⟨rfl, rfl, rfl⟩

/-- A class of order three, changed to two after construction: the defects keep three points, the generated class has order two. -/
example : ∃ m m' col, make ⟨[some 3, none], [none]⟩ = .ok m ∧ [Op.setOrder 2].foldlM step m = .ok m' ∧ m'.order = 2 ∧ m'.collocation = .ok (col, m') ∧ col.n = 3 := by
  obtain ⟨m, col, h1, h2, h3, h4, h5, h6⟩ := (C120_make ⟨[some 3, none], [none]⟩).2 (by show (2 : Int) ≤ 3; norm_num)
  have hs : [Op.setOrder 2].foldlM step m = .ok { m with own := some 2 } := by
    show (m.setOrder 2 >>= fun m => pure m) = _
    unfold OrderObj.setOrder
    rw [h2]
    rfl
  obtain ⟨⟨col', e1, e2⟩, -, e3, -⟩ := C120_cache h1 hs
  refine ⟨m, _, col', h1, hs, e3 [] 2 [] rfl (by simp), e1, ?_⟩
  have : (col'.n : Int) = 3 := e2
  omega

end Ceacoest
