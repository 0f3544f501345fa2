import Verif.Lemmas.SymOEM
import Verif.Props.TranscriptionOC

/-! # C70 for output error problems: from the methods of the user to the nonlinear program -/

namespace Ceacoest
open Spec RK
variable {X : Type}

theorem fits_of {S : SymSide X} {b : Bool} {g : GenFun ℝ} {n : String} {args names some : List String} {out : List Nat} (hn : g.name = n)
    (hm : Meets S.S S.ev S.shape S.decision (S.fn n) b g (S.s (S.fn n))) (ha : (S.fn n).args = args) (ho : (S.fn n).outShape = out)
    (hnd : args.Nodup) (hsub : ∀ a ∈ args, a ∈ names) (hsome : ∃ a ∈ args, a ∈ some) :
    Fits S b g names some out ∧ g.argNames = args ∧ g.outShape = out := by
  subst hn
  have h1 : g.argNames = args := by rw [hm.args, ha]
  have h2 : g.outShape = out := by rw [hm.outShape, ho]
  exact ⟨⟨hm, by rw [h1]; exact hnd, by rw [h1]; exact hsub, by rw [h1]; exact hsome, h2⟩, h1, h2⟩

/-- Where a function registered without other names finds its arguments. -/
theorem ix_of {g : GenFun ℝ} {sh : List Nat} {args : List String} (ha : g.argNames = args) {n : String} (hn : n ∈ args) :
    args.idxOf n < (OptFun.mk' sh g none).fn.argNames.length ∧ (OptFun.mk' sh g none).args.getD (args.idxOf n) "" = n := by
  change args.idxOf n < g.argNames.length ∧ g.argNames.getD (args.idxOf n) "" = n
  rw [ha]
  have h := List.idxOf_lt_length_of_mem hn
  exact ⟨h, by simp [List.getD_eq_getElem?_getD, h]⟩

theorem rowAt_congr {a b : List ℝ} {o o' w r r' : Nat} (h : ∀ j < w, a.getD (o + (r * w + j)) 0 = b.getD (o' + (r' * w + j)) 0) :
    rowAt a o w r = rowAt b o' w r' :=
  List.map_congr_left fun j hj => h j (List.mem_range.1 hj)

/-- The names with which problems register the log-likelihood. -/
structure MeasTable (T : Table) (nx nu np ny K : Nat) : Prop where
  y : T.var "y" = false ∧ T.ext "y" = [K] ∧ T.bs "y" = [ny]
  xm : T.var "xm" = true ∧ T.ext "xm" = [K] ∧ T.bs "xm" = [nx]
  um : T.var "um" = false ∧ T.ext "um" = [K] ∧ T.bs "um" = [nu]
  p : T.var "p" = true ∧ T.ext "p" = [] ∧ T.bs "p" = [np]

/-- What the log-likelihood sees: a row of measurements, and states and inputs at its time. -/
theorem likelihood_rows {T : Table} {nx nu np ny : Nat} {prob : Problem ℝ} {L : GenFun ℝ} {kmeas : List Nat} {npts off : Nat} {ya um : NDArray ℝ}
    (ha : L.argNames = ["y", "x", "u", "p"]) (ho : L.outShape = []) (hT : MeasTable T nx nu np ny kmeas.length)
    (hk : ∀ a ∈ kmeas, a < npts) (sxm : prob.variableSpec "xm" = .ok (.xm ⟨⟨[npts, nx], 0⟩, kmeas⟩))
    (sp : prob.variableSpec "p" = .ok (.comp ⟨[np], off⟩)) (xy : Dict.get? prob.extra "y" = some ya) (xum : Dict.get? prob.extra "um" = some um)
    (d : List ℝ) {i : Nat} (hi : i < kmeas.length) {env : Env} (henv : env = argEnv ["y", "x", "u", "p"] (argsOf prob
      (OptFun.mk' [kmeas.length] L (some ["y", "xm", "um", "p"])) (T.reg (OptFun.mk' [kmeas.length] L (some ["y", "xm", "um", "p"]))) i d)) :
    envRow env "y" ny 0 = rowAt ya.data 0 ny i ∧ envRow env "x" nx 0 = rowAt d 0 nx (kmeas.getD i 0) ∧
      envRow env "u" nu 0 = rowAt um.data 0 nu i ∧ envRow env "p" np 0 = rowAt d off np 0 := by
  subst henv
  have hE : (T.reg (OptFun.mk' [kmeas.length] L (some ["y", "xm", "um", "p"]))).E = [kmeas.length] :=
    Table.reg_E T _ (by change _ = _ ++ L.outShape; rw [ho]; rfl)
  have ix : ∀ n n', (n, n') ∈ [("y", "y"), ("x", "xm"), ("u", "um"), ("p", "p")] →
      List.idxOf n ["y", "x", "u", "p"] < (OptFun.mk' [kmeas.length] L (some ["y", "xm", "um", "p"])).fn.argNames.length ∧
      (OptFun.mk' [kmeas.length] L (some ["y", "xm", "um", "p"])).args.getD (List.idxOf n ["y", "x", "u", "p"]) "" = n' := by
    change ∀ n n', _ → List.idxOf n ["y", "x", "u", "p"] < L.argNames.length ∧ ["y", "xm", "um", "p"].getD (List.idxOf n ["y", "x", "u", "p"]) "" = n'
    rw [ha]
    intro n n' h
    simp only [List.mem_cons, List.not_mem_nil, or_false, Prod.mk.injEq] at h
    rcases h with ⟨rfl, rfl⟩ | ⟨rfl, rfl⟩ | ⟨rfl, rfl⟩ | ⟨rfl, rfl⟩ <;> decide
  have ry := crow_comp (d := d) (ix "y" "y" (by simp)).1 (ix "y" "y" (by simp)).2 hT.y.1 xy hT.y.2.1 hT.y.2.2 hE hi
  have rx := row_xm (d := d) (ix "x" "xm" (by simp)).1 (ix "x" "xm" (by simp)).2 hk hT.xm.1 sxm hT.xm.2.1 hT.xm.2.2 hE hi
  have ru := crow_comp (d := d) (ix "u" "um" (by simp)).1 (ix "u" "um" (by simp)).2 hT.um.1 xum hT.um.2.1 hT.um.2.2 hE hi
  have rp := row_single (d := d) (e := i) (ix "p" "p" (by simp)).1 (ix "p" "p" (by simp)).2 hT.p.1 sp hT.p.2.1 hT.p.2.2 hE (by simpa using hi)
  exact ⟨ry, rx, ru, rp⟩

/-- The value of the log-likelihood of one row of measurements. -/
theorem likelihood_val {A : SymArith X} {S : SymSide X} (hA : ArithOK A S.ev) {U : OEMUser X} {F : OEMFunctions} {nx nu np ny : Nat}
    (hU : OEMDenotes S.ev U F nx nu np ny) {T : Table} {prob : Problem ℝ} {L : GenFun ℝ} {kmeas : List Nat} {npts off : Nat} {ya um : NDArray ℝ}
    (hfn : S.fn L.name = .scalar ["y", "x", "u", "p"] (U.L (A.row "y" ny 0) (A.row "x" nx 0) (A.row "u" nu 0) (A.row "p" np 0)))
    (ha : L.argNames = ["y", "x", "u", "p"]) (ho : L.outShape = []) (hT : MeasTable T nx nu np ny kmeas.length)
    (hk : ∀ a ∈ kmeas, a < npts) (sxm : prob.variableSpec "xm" = .ok (.xm ⟨⟨[npts, nx], 0⟩, kmeas⟩))
    (sp : prob.variableSpec "p" = .ok (.comp ⟨[np], off⟩)) (xy : Dict.get? prob.extra "y" = some ya) (xum : Dict.get? prob.extra "um" = some um)
    (d : List ℝ) {i : Nat} (hi : i < kmeas.length) :
    outAt S T prob d (OptFun.mk' [kmeas.length] L (some ["y", "xm", "um", "p"])) i =
      [F.L (rowAt ya.data 0 ny i) (rowAt d 0 nx (kmeas.getD i 0)) (rowAt um.data 0 nu i) (rowAt d off np 0)] := by
  unfold outAt
  have h : S.fn (OptFun.mk' [kmeas.length] L (some ["y", "xm", "um", "p"])).fn.name = _ := hfn
  rw [h]
  obtain ⟨ry, rx, ru, rp⟩ := likelihood_rows ha ho hT hk sxm sp xy xum d hi rfl
  change [S.ev (U.L _ _ _ _) _] = _
  rw [hU.L _ _ _ _ _ (row_length _ _ _) (row_length _ _ _) (row_length _ _ _) (row_length _ _ _), ev_row hA, ev_row hA, ev_row hA, ev_row hA]
  change [F.L (envRow (argEnv ["y", "x", "u", "p"] _) _ _ _) (envRow (argEnv ["y", "x", "u", "p"] _) _ _ _)
    (envRow (argEnv ["y", "x", "u", "p"] _) _ _ _) (envRow (argEnv ["y", "x", "u", "p"] _) _ _ _)] = _
  rw [ry, rx, ru, rp]

/-- The sum over the rows of measurements. -/
theorem likelihood_sum {F : OEMFunctions} {rows kmeas : List Nat} {N nx nu ny : Nat} {ya um : List ℝ} {y ua : List ℝ} {p d : List ℝ}
    (hl : kmeas.length = rows.length) (hix : ∀ i < rows.length, kmeas.getD i 0 = rows.getD i 0 * N)
    (hy : ∀ i < rows.length, ∀ j < ny, ya.getD (i * ny + j) 0 = y.getD (rows.getD i 0 * ny + j) 0)
    (hu : ∀ i < rows.length, ∀ j < nu, um.getD (i * nu + j) 0 = ua.getD (kmeas.getD i 0 * nu + j) 0) (f : Nat → ℝ)
    (hf : ∀ i < kmeas.length, f i = F.L (rowAt ya 0 ny i) (rowAt d 0 nx (kmeas.getD i 0)) (rowAt um 0 nu i) p) :
    ((List.range kmeas.length).map f).sum = logLikelihood F rows y ua N nx nu ny p d := by
  rw [list_sum_range, hl, logLikelihood, sum_getD_range]
  simp only [List.length_map]
  refine Finset.sum_congr rfl fun i hi => ?_
  have hi := Finset.mem_range.1 hi
  have e1 : (rows.map fun k => F.L (rowAt y 0 ny k) (rowAt d 0 nx (k * N)) (rowAt ua 0 nu (k * N)) p).getD i 0 =
      F.L (rowAt y 0 ny (rows.getD i 0)) (rowAt d 0 nx (rows.getD i 0 * N)) (rowAt ua 0 nu (rows.getD i 0 * N)) p := by
    simp [List.getD_eq_getElem?_getD, hi]
  have e2 : rowAt ya 0 ny i = rowAt y 0 ny (rows.getD i 0) := rowAt_congr fun j hj => by rw [Nat.zero_add, Nat.zero_add, hy i hi j hj]
  have e3 : rowAt um 0 nu i = rowAt ua 0 nu (rows.getD i 0 * N) :=
    rowAt_congr fun j hj => by rw [Nat.zero_add, Nat.zero_add, hu i hi j hj, hix i hi]
  rw [e1, hf i (by omega), e2, e3, hix i hi]

/-- What the functions of an output error problem see: a piece, or a row with measurements and the state and input at its time. -/
def OEMPoint (rows : List Nat) (y u : List ℝ) (P N nx nu ny : Nat) (p d : List ℝ) (n : String) (env : Env) : Prop :=
  (n = "e" ∧ ∃ i < P, (∀ l < N + 1, envRow env "xp" nx l = rowAt d 0 nx (i * N + l)) ∧
    (∀ l < N + 1, envRow env "up" nu l = rowAt u 0 nu (i * N + l)) ∧ envRow env "p" p.length 0 = p) ∨
  (n = "L" ∧ ∃ k ∈ rows, envRow env "y" ny 0 = rowAt y 0 ny k ∧ envRow env "x" nx 0 = rowAt d 0 nx (k * N) ∧
    envRow env "u" nu 0 = rowAt u 0 nu (k * N) ∧ envRow env "p" p.length 0 = p)

set_option maxHeartbeats 1000000 in
/-- From the methods of the user to the problem. -/
theorem oem_nlp {A : SymArith X} {ev : X → Env → ℝ} (hA : ArithOK A ev) (U : OEMUser X) (F : OEMFunctions) {xn un pn yn : List String} {N : Nat}
    (hU : OEMDenotes ev U F xn.length un.length pn.length yn.length) (hN : (N : Int) + 1 = U.order) (hN1 : 1 ≤ N) {vars : Dict String SymVar}
    (hv : ColVars vars xn un pn) (hy : Dict.get? vars "y" = some (.vec yn)) {decision : List String}
    (hd : DecisionOK vars ["x", "p", "xp"] ["y", "u", "up", "piece_len"] decision) {iter : String → List String} (hi : OrdersOK iter oemWrt) :
    ∃ c, symoemInit A U.order (oemMethods A U) iter vars decision = .ok c ∧ lglCollocation U.order = .ok c.col ∧
      (∃ out, symcolE A c.col U.f xn.length un.length pn.length = .ok ⟨["xp", "up", "p", "piece_len"], [N, xn.length], out⟩ ∧
        out.length = N * xn.length ∧ ∀ n ∈ ["e", "L"], Dict.get? c.model.funcs n =
        Dict.get? (oemFns A U xn.length un.length pn.length yn.length ⟨["xp", "up", "p", "piece_len"], [N, xn.length], out⟩) n) ∧
      ∀ codegen : SymFn X → List (NDArray ℝ) → NDArray ℝ,
      (∀ name g, Dict.get? c.model.funcs name = some g → CodegenOK ev (shapeOf c.vars) codegen g) →
      ∃ m s, symoemGen codegen U.order c = .ok m ∧ m.collocationOrder = U.order ∧ m.nx = xn.length ∧ m.nu = un.length ∧ m.np = pn.length ∧
        m.ny = yn.length ∧
      ∀ (t : NDArray ℝ) (y : MaskedArray) (u : UArg) (ua : NDArray ℝ) (P : Nat), OEMInput m t y P → InputsOK m t u ua →
      ∃ q rows, oemProblem ColProblem.initVars m t y u = .ok q ∧ MeasuredRows y.mask (P + 1) yn.length rows ∧
      q.prob.ndec = (P * N + 1) * xn.length + pn.length ∧
      (∀ o ∈ q.prob.objectives, o.fn.name ∈ ["e", "L"]) ∧ (∀ o ∈ q.prob.constraints, o.fn.fn.name ∈ ["e", "L"]) ∧
      (∀ d : List ℝ, d.length = q.prob.ndec → Sees (c.side A ev s) (oemTable P N xn.length un.length pn.length yn.length q.nmeas) q.prob d
        (OEMPoint rows y.arr.data ua.data P N xn.length un.length yn.length (rowAt d ((P * N + 1) * xn.length) pn.length 0) d)) ∧
      ∀ d : List ℝ, d.length = q.prob.ndec →
        q.prob.obj d = .ok (logLikelihood F rows y.arr.data ua.data N xn.length un.length yn.length
          (rowAt d ((P * N + 1) * xn.length) pn.length 0) d) ∧
        q.prob.constr d = .ok (oemConstraints F c.col.J (diff t.data) ua.data P N xn.length un.length
          (rowAt d ((P * N + 1) * xn.length) pn.length 0) d) ∧
        (SmoothProblem (c.side A ev s) (oemTable P N xn.length un.length pn.length yn.length q.nmeas) q.prob d → DerivativesRight q.prob d) := by
  obtain ⟨c, hinit, hcol, hJ, hdec, hsh, hget, out, hout, hsymE, hfn, s, hs⟩ := symoem_ok hA U F hU hN hN1 hv hy hd hi
  refine ⟨c, hinit, hcol, ⟨out, hsymE, hout.1, hfn⟩, fun codegen hcg => ?_⟩
  have hgen := hs codegen hcg
  obtain ⟨e, e1, e2, e3⟩ := hgen "e" false (by simp)
  obtain ⟨L, L1, L2, L3⟩ := hgen "L" true (by simp)
  set nx := xn.length with hnx
  set nu := un.length with hnu
  set np := pn.length with hnp
  set ny := yn.length with hny
  set efn : SymFn X := ⟨["xp", "up", "p", "piece_len"], [N, nx], out⟩ with hefn
  set Lfn : SymFn X := .scalar ["y", "x", "u", "p"] (U.L (A.row "y" ny 0) (A.row "x" nx 0) (A.row "u" nu 0) (A.row "p" np 0)) with hLfn
  set S := c.side A ev s with hS
  have F_e : S.fn "e" = efn := by change (Dict.get? _ _).getD _ = _; rw [hfn _ (by simp)]; rfl
  have F_L : S.fn "L" = Lfn := by change (Dict.get? _ _).getD _ = _; rw [hfn _ (by simp)]; rfl
  set m : OEMModel := { collocationOrder := U.order, nx, e, nu, np, ny, L } with hm
  have hgenm : symoemGen codegen U.order c = .ok m := by
    have lx : varLen c.vars "x" = .ok nx := varLen_vec (by rw [hget]; simp [colVar, hv.x])
    have lu : varLen c.vars "u" = .ok nu := varLen_vec (by rw [hget]; simp [colVar])
    have lp : varLen c.vars "p" = .ok np := varLen_vec (by rw [hget]; simp [colVar])
    have ly : varLen c.vars "y" = .ok ny := varLen_vec (by rw [hget]; simp [colVar, hy])
    simp only [if_true, Bool.false_eq_true, if_false] at e1 L1
    unfold symoemGen
    simp only [lx, lu, lp, ly, e1, L1, py_bind_ok, py_pure, hm]
  refine ⟨m, s, hgenm, rfl, rfl, rfl, rfl, rfl, fun t y u ua P hin hu => ?_⟩
  have hshape : ∀ n w, colVar vars (N + 1) xn un pn n = some w → S.shape n = w.shape := fun n w hw => shapeOf_of (by rw [hget, hw])
  have hmemd : ∀ n, n ∈ S.decision ↔ n ∈ ["p", "x", "xp"] ∨ n ∈ decision := by
    intro a
    change a ∈ c.model.decision ↔ _
    rw [hdec]
    simp only [List.mem_union_iff, List.mem_cons, List.not_mem_nil, or_false]
    tauto
  have hnd : ∀ n ∈ ["y", "u", "up", "piece_len"], n ∉ decision := fun n hn h => (hd _ h).1 hn
  have hagree : ∀ K, AgreesOn S (oemTable P N nx nu np ny K) oemNames := by
    intro K n hn
    simp only [oemNames, List.mem_cons, List.not_mem_nil, or_false] at hn
    have hb : S.shape n = (oemTable P N nx nu np ny K).bs n := by
      rcases hn with rfl | rfl | rfl | rfl | rfl | rfl | rfl
      · rw [hshape _ (.vec yn) (by simp [colVar, hy])]; rfl
      · rw [hshape _ (.vec xn) (by simp [colVar, hv.x])]; rfl
      · rw [hshape _ (.vec un) (by simp [colVar])]; rfl
      · rw [hshape _ (.vec pn) (by simp [colVar])]; rfl
      · rw [hshape _ (.piece xn (N + 1)) (by simp [colVar])]; rfl
      · rw [hshape _ (.piece un (N + 1)) (by simp [colVar])]; rfl
      · rw [hshape _ ((Dict.get? vars "piece_len").getD (.scalar "piece_len")) (by simp [colVar])]
        cases hp : Dict.get? vars "piece_len" with
        | none => rfl
        | some w => exact hv.pieceLen w hp
    refine ⟨hb, ?_⟩
    rw [hmemd]
    have n1 := hnd "y" (by simp)
    have n2 := hnd "u" (by simp)
    have n3 := hnd "up" (by simp)
    have n4 := hnd "piece_len" (by simp)
    rcases hn with rfl | rfl | rfl | rfl | rfl | rfl | rfl <;> simp [oemTable, n1, n2, n3, n4]
  obtain ⟨hFe, a_e, he_out⟩ := fits_of (S := S) (names := ["xp", "up", "p", "piece_len"]) (some := ["xp", "up", "piece_len"])
    (args := ["xp", "up", "p", "piece_len"]) (out := [N, nx]) e2 e3 (by rw [F_e]) (by rw [F_e]) (by decide) (by decide) (by decide)
  have a_L : L.argNames = ["y", "x", "u", "p"] := by rw [L3.args]; change (S.fn "L").args = _; rw [F_L]; rfl
  have hL_out : L.outShape = [] := by rw [L3.outShape]; change (S.fn "L").outShape = _; rw [F_L]; rfl
  have hFL : FitsL S m.L := ⟨by change Meets _ _ _ _ (S.fn L.name) _ _ (s (S.fn L.name)); rw [L2]; exact L3, a_L, hL_out⟩
  obtain ⟨q, hq, hndec, hused⟩ := oem_used S m t y u ua P N hin hu hN hagree hFe hFL
  obtain ⟨q', N', hq', hN', hni, -, hnpt, -, -, hqd, -, hrem, hcon, -, hobj, hext, -⟩ := C21_oem m t y u ua P hin hu
  obtain rfl : q = q' := Except.ok.inj (hq.symm.trans hq')
  obtain rfl : N' = N := by have : (N' : Int) + 1 = U.order := hN'; omega
  obtain ⟨q2, rows, hq2, hrows, hal⟩ := C19_oem m t y u ua P hin hu
  obtain rfl : q = q2 := Except.ok.inj (hq.symm.trans hq2)
  obtain ⟨q3, hq3, -, hup, -⟩ := C20_up m t y u ua P hin hu
  obtain rfl : q = q3 := Except.ok.inj (hq.symm.trans hq3)
  rw [hni] at hup
  have hK : q.nmeas = q.kmeas.length := by rw [hal.nmeas, hal.kmeas]
  have hlt : ∀ a ∈ q.kmeas, a < P * N' + 1 := by
    intro a ha
    obtain ⟨i, hi, rfl⟩ := List.mem_iff_getElem.1 ha
    have := hal.point i (by rw [← hal.kmeas]; exact hi)
    rw [hnpt] at this
    simpa [List.getD_eq_getElem?_getD, hi] using this
  rw [hnpt] at hqd hrem
  rw [hK] at hobj hused
  have hboth : ∀ A B : List ℝ → Prop, (∀ d : List ℝ, d.length = q.prob.ndec → A d ∧ B d) →
      (∀ d : List ℝ, d.length = q.prob.ndec → A d) ∧ ∀ d : List ℝ, d.length = q.prob.ndec → B d :=
    fun A B h => ⟨fun d hd => (h d hd).1, fun d hd => (h d hd).2⟩
  refine ⟨q, rows, hq, hrows, hndec, ?_, ?_, hboth _ _ fun d hl => ?_⟩
  · rw [hobj]
    intro o ho
    rw [List.mem_singleton.1 ho]
    change L.name ∈ _; rw [L2]; simp
  · rw [hcon]
    intro o ho
    rw [List.mem_singleton.1 ho]
    change e.name ∈ _; rw [e2]; simp
  rw [hK]
  set T := oemTable P N' nx nu np ny q.kmeas.length with hT
  have sp : q.prob.variableSpec "p" = .ok (.comp ⟨[np], (P * N' + 1) * nx⟩) := by simp only [Problem.variableSpec, hqd]; rfl
  have sxp : q.prob.variableSpec "xp" = .ok (.piece ⟨⟨[P * N' + 1, nx], 0⟩, P, N' + 1⟩) := by
    simp only [Problem.variableSpec, hqd, hrem]; rfl
  have sxm : q.prob.variableSpec "xm" = .ok (.xm ⟨⟨[P * N' + 1, nx], 0⟩, q.kmeas⟩) := by simp only [Problem.variableSpec, hqd, hrem]; rfl
  have xpl : Dict.get? q.prob.extra "piece_len" = some ⟨[P], diff t.data⟩ := by rw [hext]; rfl
  have xup : Dict.get? q.prob.extra "up" = some q.up := by rw [hext]; rfl
  have xy : Dict.get? q.prob.extra "y" = some q.y.arr := by rw [hext]; rfl
  have xum : Dict.get? q.prob.extra "um" = some q.um := by rw [hext]; rfl
  obtain ⟨vo, vc⟩ := hused.values (by
      intro o ho
      rw [hobj] at ho
      rw [List.mem_singleton.1 ho]
      change (S.fn L.name).out.length = (S.fn L.name).outShape.prod; rw [L2, F_L]; rfl)
    (by
      intro o ho
      rw [hcon] at ho
      rw [List.mem_singleton.1 ho]
      change (S.fn e.name).out.length = (S.fn e.name).outShape.prod; rw [e2, F_e]; simp [efn, hout.1]) hl
  have E_e : (T.reg (OptFun.mk' [P, N', nx] e none)).E = [P] := Table.reg_E T _ (by change _ = _ ++ e.outShape; rw [he_out]; rfl)
  have E_L : (T.reg (OptFun.mk' [q.kmeas.length] L (some ["y", "xm", "um", "p"]))).E = [q.kmeas.length] :=
    Table.reg_E T _ (by change _ = _ ++ L.outShape; rw [hL_out]; rfl)
  have r_e : ∀ i < P, (∀ l < N' + 1, envRow (argEnv efn.args (argsOf q.prob (OptFun.mk' [P, N', nx] e none) (T.reg (OptFun.mk' [P, N', nx] e none)) i d)) "xp" nx l =
        rowAt d 0 nx (i * N' + l)) ∧
      (∀ l < N' + 1, envRow (argEnv efn.args (argsOf q.prob (OptFun.mk' [P, N', nx] e none) (T.reg (OptFun.mk' [P, N', nx] e none)) i d)) "up" nu l =
        rowAt ua.data 0 nu (i * N' + l)) ∧
      envRow (argEnv efn.args (argsOf q.prob (OptFun.mk' [P, N', nx] e none) (T.reg (OptFun.mk' [P, N', nx] e none)) i d)) "p" np 0 =
        rowAt d ((P * N' + 1) * nx) np 0 := by
    intro i hi
    have ix : ∀ n ∈ ["xp", "up", "p", "piece_len"], _ := fun n hn => ix_of (sh := [P, N', nx]) a_e hn
    have rx : ∀ l < N' + 1, envRow _ "xp" nx l = _ := fun l hl =>
      row_piece (d := d) (ix "xp" (by simp)).1 (ix "xp" (by simp)).2 (by simp [T, oemTable]) sxp (by simp [T, oemTable]) (by simp [T, oemTable]) E_e hi hl
    have ru : ∀ l < N' + 1, envRow _ "up" nu l = _ := fun l hl =>
      crow_comp2 (d := d) (ix "up" (by simp)).1 (ix "up" (by simp)).2 (by simp [T, oemTable]) xup (by simp [T, oemTable]) (by simp [T, oemTable]) E_e hi hl
    have rp := row_single (d := d) (e := i) (ix "p" (by simp)).1 (ix "p" (by simp)).2 (by simp [T, oemTable]) sp (by simp [T, oemTable]) (by simp [T, oemTable]) E_e (by simpa using hi)
    have hu' : ∀ l < N' + 1, rowAt q.up.data 0 nu (i * (N' + 1) + l) = rowAt ua.data 0 nu (i * N' + l) := fun l hl =>
      rowAt_congr fun j hj => by rw [Nat.zero_add, Nat.zero_add, hup.2.2 i hi l hl j hj]
    exact ⟨rx, fun l hl => (ru l hl).trans (hu' l hl), rp⟩
  have o_e : ∀ i < P, outAt S T q.prob d (OptFun.mk' [P, N', nx] e none) i =
      defects c.col.J (fun r => F.f (rowAt d 0 nx r) (rowAt ua.data 0 nu r) (rowAt d ((P * N' + 1) * nx) np 0)) (rowAt d 0 nx) N' nx (i * N')
        ((diff t.data).getD i 0) := by
    intro i hi
    have : S.fn (OptFun.mk' [P, N', nx] e none).fn.name = efn := by change S.fn e.name = _; rw [e2, F_e]
    unfold outAt
    rw [this, hS]
    refine (hout.2 _).trans ?_
    have ix : ∀ n ∈ ["xp", "up", "p", "piece_len"], _ := fun n hn => ix_of (sh := [P, N', nx]) a_e hn
    obtain ⟨rx, ru, rp⟩ := r_e i hi
    have rl := cscalar (d := d) (ix "piece_len" (by simp)).1 (ix "piece_len" (by simp)).2 (by simp [T, oemTable]) xpl (by simp [T, oemTable]) (by simp [T, oemTable]) E_e hi
    rw [rl]
    refine defects_congr (fun l hl => ?_) fun l hl => ?_
    · simp only [Nat.zero_add]
      rw [rx l hl, ru l hl, rp]
    · rw [Nat.zero_add, rx l hl]
  have hpl : (rowAt d ((P * N' + 1) * nx) np 0).length = np := by simp [rowAt]
  refine ⟨hused.sees hl ?_ ?_, ?_, ?_, fun hsm => hused.right hl hsm⟩
  · rw [hobj]
    intro o ho el he
    rw [List.mem_singleton.1 ho] at he ⊢
    rw [E_L] at he
    have hi : el < q.kmeas.length := by simpa using he
    have hi' : el < rows.length := by rw [← hal.kmeas]; exact hi
    have hnm : (OptFun.mk' [q.kmeas.length] L (some ["y", "xm", "um", "p"])).fn.name = "L" := L2
    rw [hnm, F_L]
    obtain ⟨ry, rx, ru, rp⟩ := likelihood_rows a_L hL_out (T := T) (nx := nx) (nu := nu) (np := np) (ny := ny)
      ⟨by simp [T, oemTable], by simp [T, oemTable], by simp [T, oemTable], by simp [T, oemTable]⟩ hlt sxm sp xy xum d hi rfl
    have hk : q.kmeas.getD el 0 = rows.getD el 0 * N' := by rw [hal.index el hi', hni]
    refine Or.inr ⟨rfl, rows.getD el 0, by rw [getD_of_lt _ _ hi']; exact List.getElem_mem _, ry.trans ?_, rx.trans (by rw [hk]), ru.trans ?_, ?_⟩
    · exact rowAt_congr fun j hj => by rw [Nat.zero_add, Nat.zero_add, (hal.meas el hi' j hj).1]
    · exact rowAt_congr fun j hj => by rw [Nat.zero_add, Nat.zero_add, hal.input el hi' j hj, hk]
    · rw [hpl]; exact rp
  · rw [hcon]
    intro o ho el he
    rw [List.mem_singleton.1 ho] at he ⊢
    rw [E_e] at he
    have hi : el < P := by simpa using he
    have hnm : (OptFun.mk' [P, N', nx] e none).fn.name = "e" := e2
    rw [hnm, F_e]
    exact Or.inl ⟨rfl, el, hi, by rw [hpl]; exact r_e el hi⟩
  · rw [vo, hobj]
    simp only [List.map_cons, List.map_nil, List.sum_cons, List.sum_nil, add_zero]
    change Except.ok (List.map _ (List.range (T.reg (OptFun.mk' [q.kmeas.length] L (some ["y", "xm", "um", "p"]))).E.prod)).sum = _
    rw [E_L, List.prod_singleton]
    congr 1
    refine likelihood_sum hal.kmeas (fun i hi => by rw [hal.index i hi, hni]) (fun i hi j hj => (hal.meas i hi j hj).1)
      (fun i hi j hj => hal.input i hi j hj) _ fun i hi => ?_
    change (outAt S T q.prob d (OptFun.mk' [q.kmeas.length] L (some ["y", "xm", "um", "p"])) i).sum = _
    rw [likelihood_val (S := S) (U := U) (F := F) (nx := nx) (nu := nu) (np := np) (ny := ny) hA hU (by rw [L2, F_L]) a_L hL_out
      ⟨by simp [T, oemTable], by simp [T, oemTable], by simp [T, oemTable], by simp [T, oemTable]⟩ hlt sxm sp xy xum d hi]
    exact List.sum_singleton
  · rw [vc, hcon]
    simp only [List.flatMap_cons, List.flatMap_nil, List.append_nil]
    change Except.ok ((List.range (T.reg (OptFun.mk' [P, N', nx] e none)).E.prod).flatMap _) = _
    rw [E_e, List.prod_singleton, oemConstraints]
    congr 1
    exact List.flatMap_congr fun i hi => o_e i (List.mem_range.1 hi)

/-- **C70** for output error problems.  From the symbolic methods `f`, `L` of the user, which compute the functions `F`, the
constructor of the model, the generated class and the constructor of the problem lead to a nonlinear program whose objective is the
log-likelihood of the rows with measurements, whose constraints are the collocation defects of the dynamics, and whose derivatives
are right wherever the symbolic derivatives are. -/
theorem C70_oem {A : SymArith X} {ev : X → Env → ℝ} (hA : ArithOK A ev) (U : OEMUser X) (F : OEMFunctions) {xn un pn yn : List String} {N : Nat}
    (hU : OEMDenotes ev U F xn.length un.length pn.length yn.length) (hN : (N : Int) + 1 = U.order) (hN1 : 1 ≤ N) {vars : Dict String SymVar}
    (hv : ColVars vars xn un pn) (hy : Dict.get? vars "y" = some (.vec yn)) {decision : List String}
    (hd : DecisionOK vars ["x", "p", "xp"] ["y", "u", "up", "piece_len"] decision) {iter : String → List String} (hi : OrdersOK iter oemWrt) :
    ∃ c, symoemInit A U.order (oemMethods A U) iter vars decision = .ok c ∧ lglCollocation U.order = .ok c.col ∧
      ∀ codegen : SymFn X → List (NDArray ℝ) → NDArray ℝ,
      (∀ name g, Dict.get? c.model.funcs name = some g → CodegenOK ev (shapeOf c.vars) codegen g) →
      ∃ m s, symoemGen codegen U.order c = .ok m ∧ m.collocationOrder = U.order ∧ m.nx = xn.length ∧ m.nu = un.length ∧ m.np = pn.length ∧
        m.ny = yn.length ∧
      ∀ (t : NDArray ℝ) (y : MaskedArray) (u : UArg) (ua : NDArray ℝ) (P : Nat), OEMInput m t y P → InputsOK m t u ua →
      ∃ q rows, oemProblem ColProblem.initVars m t y u = .ok q ∧ MeasuredRows y.mask (P + 1) yn.length rows ∧
      q.prob.ndec = (P * N + 1) * xn.length + pn.length ∧
      ∀ d : List ℝ, d.length = q.prob.ndec →
        q.prob.obj d = .ok (logLikelihood F rows y.arr.data ua.data N xn.length un.length yn.length
          (rowAt d ((P * N + 1) * xn.length) pn.length 0) d) ∧
        q.prob.constr d = .ok (oemConstraints F c.col.J (diff t.data) ua.data P N xn.length un.length
          (rowAt d ((P * N + 1) * xn.length) pn.length 0) d) ∧
        (SmoothProblem (c.side A ev s) (oemTable P N xn.length un.length pn.length yn.length q.nmeas) q.prob d → DerivativesRight q.prob d) := by
  obtain ⟨c, h1, h2, -, h3⟩ := oem_nlp hA U F hU hN hN1 hv hy hd hi
  refine ⟨c, h1, h2, fun codegen hcg => ?_⟩
  obtain ⟨m, s, g1, g2, g3, g4, g5, g6, h4⟩ := h3 codegen hcg
  refine ⟨m, s, g1, g2, g3, g4, g5, g6, fun t y u ua P hin hu => ?_⟩
  obtain ⟨q, rows, q1, q2, q3, -, -, -, q4⟩ := h4 t y u ua P hin hu
  exact ⟨q, rows, q1, q2, q3, q4⟩

end Ceacoest
