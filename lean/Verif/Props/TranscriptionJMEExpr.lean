import Verif.Props.TranscriptionJME
import Verif.Props.TranscriptionOEMExpr

/-! # C70 for joint MAP models written in the language of expressions -/

namespace Ceacoest
open Spec RK

theorem row_ev (n : String) (c : Nat) (env : Env) : (SExpr.arith.row n c 0).map (SExpr.ev · env) = (List.range c).map (env n) := by
  simp only [SymArith.row, SExpr.arith, List.map_map]
  refine List.map_congr_left fun j _ => ?_
  simp [SExpr.ev]

/-- The Jacobian in the code is the true Jacobian of `f`. -/
theorem denotes_withDiv {U : JMEUser SExpr}
    (hT : ∀ x u p : List SExpr, (∀ a ∈ x, a.Total) → (∀ a ∈ u, a.Total) → (∀ a ∈ p, a.Total) → ∀ a ∈ U.f x u p, a.Total) {F : OEMFunctions} {nx nu np ny : Nat}
    (hU : OEMDenotes SExpr.ev U.toOEMUser F nx nu np ny) : JMEDenotes SExpr.arith SExpr.ev U F.withDiv nx nu np ny where
  toOEMDenotes := hU
  div := by
    intro _ shape hx _ _ env j hj
    set out := U.f (SExpr.arith.row "x" nx 0) (SExpr.arith.row "u" nu 0) (SExpr.arith.row "p" np 0) with hout
    have lx : (SExpr.arith.row "x" nx 0).length = nx := by simp [SymArith.row]
    have lu : (SExpr.arith.row "u" nu 0).length = nu := by simp [SymArith.row]
    have lp : (SExpr.arith.row "p" np 0).length = np := by simp [SymArith.row]
    have hlen : out.length = nx := hU.lenf _ _ _ lx lu lp
    have hent : (SExpr.arith.deriv shape (.vec ["x", "u", "p"] out) ["x"]).out.getD (j * nx + j) (SExpr.arith.num 0) =
        (out.getD j (.const 0)).D "x" j := by
      change (SExpr.outs shape ["x"] out).getD _ _ = _
      simp only [SExpr.outs, hx, List.prod_cons, List.prod_nil, mul_one]
      rw [List.getD_eq_getElem?_getD, (flatMap_getElem? (n := nx) _ fun k _ => by simp [hlen]).2 j hj j hj]
      simp [hlen, hj]
    rw [hent]
    have hval : ∀ s : ℝ, (out.getD j (.const 0)).ev (SExpr.upd env "x" j s) =
        (F.f (((List.range nx).map (env "x")).set j s) ((List.range nu).map (env "u")) ((List.range np).map (env "p"))).getD j 0 := by
      intro s
      have := hU.f (SExpr.arith.row "x" nx 0) (SExpr.arith.row "u" nu 0) (SExpr.arith.row "p" np 0) (SExpr.upd env "x" j s) lx lu lp
      rw [row_ev, row_ev, row_ev, ← hout] at this
      have e1 : (List.range nx).map (SExpr.upd env "x" j s "x") = ((List.range nx).map (env "x")).set j s := by
        refine List.ext_getElem (by simp) fun i h1 h2 => ?_
        simp only [List.getElem_map, List.getElem_range, List.getElem_set, SExpr.upd, true_and]
        by_cases h : i = j
        · simp [h]
        · rw [if_neg h, if_neg (Ne.symm h)]
      have e2 : SExpr.upd env "x" j s "u" = env "u" := by funext k; simp [SExpr.upd]
      have e3 : SExpr.upd env "x" j s "p" = env "p" := by funext k; simp [SExpr.upd]
      rw [e1, e2, e3] at this
      rw [← this, ← Pendulum.getD_map_ev]
    have htot : (out.getD j (.const 0)).Total :=
      total_getD (hT _ _ _ (total_row _ _ _) (total_row _ _ _) (total_row _ _ _)) j
    have hd := SExpr.hasDerivAt_upd env "x" j (env "x" j) (out.getD j (.const 0)) (htot _)
    have e0 : SExpr.upd env "x" j (env "x" j) = env := by
      funext n k
      unfold SExpr.upd
      split
      · next h => rw [h.1, h.2]
      · rfl
    rw [e0] at hd
    simp only [hval] at hd
    have e4 : ((List.range nx).map (env "x")).getD j 0 = env "x" j := by simp [hj]
    change _ = _root_.deriv _ _
    rw [e4]
    exact hd.deriv.symm

theorem symjmeWp_total {jt : List (List ℝ)} {ncol ninterv nw i : Nat} :
    ∀ a ∈ (symjmeWp SExpr.arith jt ncol ninterv nw).getD i [], a.Total := by
  intro a ha
  rw [List.getD_eq_getElem?_getD] at ha
  cases hi : (symjmeWp SExpr.arith jt ncol ninterv nw)[i]? with
  | none => rw [hi] at ha; simp at ha
  | some r =>
    rw [hi] at ha
    obtain ⟨k, -, rfl⟩ := List.mem_map.1 (List.mem_of_getElem? hi)
    obtain ⟨l, -, rfl⟩ := List.mem_map.1 ha
    refine total_dotNum fun b hb => ?_
    obtain ⟨k', -, rfl⟩ := List.mem_map.1 hb
    exact total_sym _ _

theorem symjmeE_total {col : Collocation ℝ} {jt : List (List ℝ)} {f : List SExpr → List SExpr → List SExpr → List SExpr} {nx nu np nw : Nat}
    {e : SymFn SExpr} (hf : ∀ x u p : List SExpr, (∀ a ∈ x, a.Total) → (∀ a ∈ u, a.Total) → (∀ a ∈ p, a.Total) → ∀ a ∈ f x u p, a.Total)
    (he : symjmeE SExpr.arith col jt f nx nu np nw = .ok e) : ∀ a ∈ e.out, a.Total := by
  unfold symjmeE at he
  obtain ⟨fp, h1, h2⟩ := py_bind_eq_ok he
  obtain rfl := Except.ok.inj h2
  have hfp : ∀ r ∈ fp, ∀ a ∈ r, a.Total := by
    intro r hr
    obtain ⟨i, -, hi⟩ := mapM_mem h1 hr
    unfold checkLen at hi
    split at hi
    · obtain rfl := Except.ok.inj hi
      exact hf _ _ _ (total_row _ _ _) (total_row _ _ _) (total_row _ _ _)
    · cases hi
  intro a ha
  obtain ⟨k, -, ha⟩ := List.mem_flatMap.1 ha
  obtain ⟨j, -, rfl⟩ := List.mem_map.1 ha
  refine total_sub (total_sub (total_sym _ _) (total_sym _ _)) (total_mul (total_dotNum fun b hb => ?_) (total_sym _ _))
  obtain ⟨r, hr, rfl⟩ := List.mem_map.1 hb
  refine total_getD ?_ j
  intro b hb
  obtain ⟨i, -, rfl⟩ := List.mem_map.1 hr
  obtain ⟨j', -, rfl⟩ := List.mem_map.1 hb
  refine total_add (total_getD ?_ _) (total_dot symjmeWp_total (total_row _ _ _))
  intro b hb
  rw [List.getD_eq_getElem?_getD] at hb
  cases hi : fp[i]? with
  | none => rw [hi] at hb; simp at hb
  | some r => rw [hi] at hb; exact hfp r (List.mem_of_getElem? hi) b hb

theorem symjmePenalty_total {e : SymFn SExpr} {ninterv nx : Nat} (he : ∀ a ∈ e.out, a.Total) :
    ∀ a ∈ (symjmePenalty SExpr.arith e ninterv nx).out, a.Total := by
  intro a ha
  rw [List.mem_singleton.1 ha]
  refine total_sum fun b hb => ?_
  obtain ⟨k, -, rfl⟩ := List.mem_map.1 hb
  refine total_dot (fun c hc => ?_) (total_row _ _ _)
  obtain ⟨j, -, rfl⟩ := List.mem_map.1 hc
  exact total_mul (total_num _) (total_mul (total_getD he _) (total_getD he _))

theorem outs_total {shape : String → List Nat} {es : List SExpr} (h : ∀ a ∈ es, a.Total) (wrt : List String) :
    ∀ a ∈ SExpr.outs shape wrt es, a.Total := by
  induction wrt generalizing es with
  | nil => exact h
  | cons n l ih =>
    intro a ha
    obtain ⟨k, -, ha⟩ := List.mem_flatMap.1 ha
    refine ih (fun b hb => ?_) a ha
    obtain ⟨c, hc, rfl⟩ := List.mem_map.1 hb
    exact fun env => (h c hc env).D

theorem symjmeTubeL_total {col : Collocation ℝ} {jt : List (List ℝ)} {useOm : Bool} {dfdx : SymFn SExpr} {nx nu np nw : Nat}
    (hd : ∀ a ∈ dfdx.out, a.Total) : ∀ a ∈ (symjmeTubeL SExpr.arith col jt useOm dfdx nx nu np nw).out, a.Total := by
  intro a ha
  rw [List.mem_singleton.1 ha]
  refine total_mul (total_dot (fun b hb => ?_) fun b hb => ?_) (total_sym _ _)
  · obtain ⟨i, -, rfl⟩ := List.mem_map.1 hb
    refine total_mul (total_num _) (total_add (total_getD ?_ _) (total_sum fun c hc => ?_))
    · intro c hc
      obtain ⟨i, -, rfl⟩ := List.mem_map.1 hc
      dsimp only
      split
      · refine total_sum fun c hc => ?_
        obtain ⟨j, -, rfl⟩ := List.mem_map.1 hc
        intro env
        refine SExpr.subst_defined _ env (fun n k => ?_) _ (total_getD hd _ _)
        split
        · trivial
        · split <;> trivial
      · exact total_num 0
    · obtain ⟨w, hw, rfl⟩ := List.mem_map.1 hc
      exact total_mul (symjmeWp_total w hw) (symjmeWp_total w hw)
  · obtain ⟨i, -, rfl⟩ := List.mem_map.1 hb
    exact total_num _

theorem jme_expr_core (U : JMEUser SExpr)
    (hTf : ∀ x u p : List SExpr, (∀ a ∈ x, a.Total) → (∀ a ∈ u, a.Total) → (∀ a ∈ p, a.Total) → ∀ a ∈ U.f x u p, a.Total)
    {DL : List ℝ → List ℝ → List ℝ → List ℝ → Prop} (F : OEMFunctions) {xn un pn yn : List String} {N nw : Nat}
    (hU : OEMDenotes SExpr.ev U.toOEMUser F xn.length un.length pn.length yn.length) (hN : (N : Int) + 1 = U.order) (hN1 : 1 ≤ N)
    (hjt : U.jtRange.length = N + 1 ∧ ∀ r ∈ U.jtRange, r.length = N) {vars : Dict String SymVar}
    (hv : ColVars vars xn un pn) (hy : Dict.get? vars "y" = some (.vec yn)) {Gv : SymVar} (hGv : Dict.get? vars "G" = some Gv)
    (hGs : Gv.shape = [xn.length, nw]) {decision : List String}
    (hd : DecisionOK vars ["x", "p", "xp", "wc"] ["y", "u", "up", "piece_len", "G", "penweight"] decision)
    {iter : String → List String} (hi : OrdersOK iter jmeWrt) (G : NDArray ℝ) (hG : G.WF ∧ G.shape = [xn.length, nw])
    (penweight : Option (NDArray ℝ)) (hw : U.usePenalty = true → ∃ w, penweight = some w ∧ w.WF ∧ w.shape = [xn.length])
    (hTL : ∀ env : Env, DL (envRow env "y" yn.length 0) (envRow env "x" xn.length 0) (envRow env "u" un.length 0) (envRow env "p" pn.length 0) →
      (U.L (SExpr.arith.row "y" yn.length 0) (SExpr.arith.row "x" xn.length 0) (SExpr.arith.row "u" un.length 0)
        (SExpr.arith.row "p" pn.length 0)).Defined env) :
    ∃ c, symjmeInit SExpr.arith U iter vars decision = .ok c ∧ lglCollocation U.order = .ok c.col ∧
      ∃ m, symjmeGen (exprCode (shapeOf c.vars)) U G penweight c = .ok m ∧ m.collocationOrder = U.order ∧ m.nx = xn.length ∧
        m.nu = un.length ∧ m.np = pn.length ∧ m.ny = yn.length ∧ m.nw = nw ∧
      ∀ (t : NDArray ℝ) (y : MaskedArray) (u : UArg) (ua : NDArray ℝ) (P : Nat), OEMInput m.toOEMModel t y P → InputsOK m.toOEMModel t u ua →
      ∃ q rows, jmeProblem m t y u = .ok q ∧ MeasuredRows y.mask (P + 1) yn.length rows ∧
      q.prob.ndec = (P * N + 1) * xn.length + P * N * nw + pn.length ∧
      ∀ d : List ℝ, d.length = q.prob.ndec →
        q.prob.obj d = .ok (jmeCost F.withDiv U.useOm (penaltyWeights U.usePenalty penweight) c.col.J U.jtRange c.col.K (diff t.data) rows
          y.arr.data ua.data G.data P N xn.length un.length nw pn.length yn.length d) ∧
        q.prob.constr d = .ok ((List.range P).flatMap
          (jmeDefects F.withDiv c.col.J U.jtRange (diff t.data) ua.data G.data P N xn.length un.length nw pn.length d)) ∧
        ((∀ k ∈ rows, DL (rowAt y.arr.data 0 yn.length k) (rowAt d 0 xn.length (k * N)) (rowAt ua.data 0 un.length (k * N))
          (jmeP P N xn.length nw pn.length d)) → DerivativesRight q.prob d) := by
  obtain ⟨c, h1, h2, ⟨out, hE, hlen, hfn⟩, h3⟩ := jme_nlp arith_ok U F.withDiv (denotes_withDiv hTf hU) hN hN1 hjt hv hy hGv hGs hd hi G hG
    penweight hw
  obtain ⟨m, s, g1, g2, g3, g4, g5, g6, g7, h4⟩ := h3 (exprCode (shapeOf c.vars)) fun _ g _ => C66_expr_code _ g
  refine ⟨c, h1, h2, m, g1, g2, g3, g4, g5, g6, g7, fun t y u ua P hin hu => ?_⟩
  obtain ⟨q, rows, q1, q2, q3, qo, qc, qs, q4⟩ := h4 t y u ua P hin hu
  refine ⟨q, rows, q1, q2, q3, fun d hl => ?_⟩
  obtain ⟨r1, r2, r3⟩ := q4 d hl
  refine ⟨r1, r2, fun hDL => r3 fun vs hvs => ?_⟩
  have hpl : (jmeP P N xn.length nw pn.length d).length = pn.length := by simp [jmeP, rowAt]
  have htE := symjmeE_total hTf hE
  have key : ∀ n ∈ (jmeGenerated U.usePenalty).map Prod.fst, ∀ x : Args, JMEPoint rows y.arr.data ua.data N xn.length un.length yn.length
        (jmeP P N xn.length nw pn.length d) d n (argEnv ((c.side SExpr.arith SExpr.ev s).fn n).args x) → ∀ var, SmoothAt (SExpr.sym2num (shapeOf c.vars)) SExpr.ev (shapeOf c.vars)
      ((c.side SExpr.arith SExpr.ev s).fn n) var x := by
    intro n hn x hpt var
    have hsz : ∀ f : SymFn SExpr, Dict.get? c.model.funcs n = some f → f.out.length = f.outShape.prod → f.args.Nodup →
        (∀ a ∈ f.out, a.Defined (argEnv ((c.side SExpr.arith SExpr.ev s).fn n).args x)) → SmoothAt (SExpr.sym2num (shapeOf c.vars)) SExpr.ev (shapeOf c.vars)
          ((c.side SExpr.arith SExpr.ev s).fn n) var x := by
      intro f hf a1 a2 a3
      have : (c.side SExpr.arith SExpr.ev s).fn n = f := by change (Dict.get? c.model.funcs n).getD _ = _; rw [hf]; rfl
      rw [this] at a3 ⊢
      exact C66_expr_smooth _ f a1 a2 var x fun e he => a3 e he
    obtain ⟨⟨n, b⟩, hnb, rfl⟩ := List.mem_map.1 hn
    have hfn' := hfn _ hnb
    have hn' : n ∈ ["e", "L", "tube_L", "penalty"] := by
      unfold jmeGenerated at hnb
      cases U.usePenalty <;> simp at hnb <;> rcases hnb with h | h | h | h <;> simp [h]
    dsimp only at hfn' hsz hpt ⊢
    simp only [List.mem_cons, List.not_mem_nil, or_false] at hn'
    rcases hn' with rfl | rfl | rfl | rfl
    · exact hsz _ hfn' (by simp [hlen]) (show ["xp", "up", "p", "piece_len", "wc", "G"].Nodup by decide) fun a ha => htE a ha _
    · refine hsz _ hfn' rfl (show ["y", "x", "u", "p"].Nodup by decide) ?_
      intro a ha
      rw [List.mem_singleton.1 ha]
      refine hTL _ ?_
      obtain ⟨k, hk, ry, rx, ru, rp⟩ := hpt rfl
      rw [hpl] at rp
      rw [ry, rx, ru, rp]
      exact hDL k hk
    · refine hsz _ (hfn'.trans (by cases hu : U.useOm <;> simp only [jmeFns, hu] <;> rfl)) rfl
        (show ["xp", "up", "p", "piece_len", "wc"].Nodup by decide) (fun a ha => symjmeTubeL_total (dfdx := SExpr.arith.deriv (shapeOf c.vars) (.vec ["x", "u", "p"] (U.f (SExpr.arith.row "x" xn.length 0) (SExpr.arith.row "u" un.length 0)
          (SExpr.arith.row "p" pn.length 0))) ["x"]) (jt := U.jtRange) (col := c.col) (useOm := U.useOm) (nx := xn.length) (nu := un.length) (np := pn.length) (nw := nw) ?_ a ha _)
      exact outs_total (hTf _ _ _ (total_row _ _ _) (total_row _ _ _) (total_row _ _ _)) ["x"]
    · exact hsz (symjmePenalty SExpr.arith ⟨["xp", "up", "p", "piece_len", "wc", "G"], [N, xn.length], out⟩ c.col.ninterv xn.length)
        (hfn'.trans (by cases hu : U.useOm <;> simp only [jmeFns, hu] <;> rfl)) rfl
        (show ["xp", "up", "p", "piece_len", "wc", "G", "penweight"].Nodup by decide) fun a ha => symjmePenalty_total htE a ha _
  obtain ⟨s1, s2⟩ := qs d hl vs hvs
  exact ⟨fun o ho e he => key _ (qo o ho) _ (s1 o ho e he) _, fun o ho e he => key _ (qc o ho) _ (s2 o ho e he) _⟩

/-- **C70** for joint MAP models written as expressions that are always defined: the divergence in the log-posterior is the true one
of the right hand side, and the derivatives are right everywhere, without further assumptions. -/
theorem C70_jme_expr (U : JMEUser SExpr) (hT : OEMTotal U.toOEMUser) (F : OEMFunctions) {xn un pn yn : List String} {N nw : Nat}
    (hU : OEMDenotes SExpr.ev U.toOEMUser F xn.length un.length pn.length yn.length) (hN : (N : Int) + 1 = U.order) (hN1 : 1 ≤ N)
    (hjt : U.jtRange.length = N + 1 ∧ ∀ r ∈ U.jtRange, r.length = N) {vars : Dict String SymVar}
    (hv : ColVars vars xn un pn) (hy : Dict.get? vars "y" = some (.vec yn)) {Gv : SymVar} (hGv : Dict.get? vars "G" = some Gv)
    (hGs : Gv.shape = [xn.length, nw]) {decision : List String}
    (hd : DecisionOK vars ["x", "p", "xp", "wc"] ["y", "u", "up", "piece_len", "G", "penweight"] decision)
    {iter : String → List String} (hi : OrdersOK iter jmeWrt) (G : NDArray ℝ) (hG : G.WF ∧ G.shape = [xn.length, nw])
    (penweight : Option (NDArray ℝ)) (hw : U.usePenalty = true → ∃ w, penweight = some w ∧ w.WF ∧ w.shape = [xn.length]) :
    ∃ c, symjmeInit SExpr.arith U iter vars decision = .ok c ∧ lglCollocation U.order = .ok c.col ∧
      ∃ m, symjmeGen (exprCode (shapeOf c.vars)) U G penweight c = .ok m ∧ m.collocationOrder = U.order ∧ m.nx = xn.length ∧
        m.nu = un.length ∧ m.np = pn.length ∧ m.ny = yn.length ∧ m.nw = nw ∧
      ∀ (t : NDArray ℝ) (y : MaskedArray) (u : UArg) (ua : NDArray ℝ) (P : Nat), OEMInput m.toOEMModel t y P → InputsOK m.toOEMModel t u ua →
      ∃ q rows, jmeProblem m t y u = .ok q ∧ MeasuredRows y.mask (P + 1) yn.length rows ∧
      q.prob.ndec = (P * N + 1) * xn.length + P * N * nw + pn.length ∧
      ∀ d : List ℝ, d.length = q.prob.ndec →
        q.prob.obj d = .ok (jmeCost F.withDiv U.useOm (penaltyWeights U.usePenalty penweight) c.col.J U.jtRange c.col.K (diff t.data) rows
          y.arr.data ua.data G.data P N xn.length un.length nw pn.length yn.length d) ∧
        q.prob.constr d = .ok ((List.range P).flatMap
          (jmeDefects F.withDiv c.col.J U.jtRange (diff t.data) ua.data G.data P N xn.length un.length nw pn.length d)) ∧
        DerivativesRight q.prob d := by
  obtain ⟨c, h1, h2, m, g1, g2, g3, g4, g5, g6, g7, h4⟩ := jme_expr_core U hT.f (DL := fun _ _ _ _ => True) F hU hN hN1 hjt hv hy hGv hGs hd hi G hG
    penweight hw fun env _ => hT.L _ _ _ _ (total_row _ _ _) (total_row _ _ _) (total_row _ _ _) (total_row _ _ _) env
  refine ⟨c, h1, h2, m, g1, g2, g3, g4, g5, g6, g7, fun t y u ua P hin hu => ?_⟩
  obtain ⟨q, rows, q1, q2, q3, q4⟩ := h4 t y u ua P hin hu
  refine ⟨q, rows, q1, q2, q3, fun d hl => ?_⟩
  obtain ⟨r1, r2, r3⟩ := q4 d hl
  exact ⟨r1, r2, r3 fun _ _ => trivial⟩

/-- **C70** for joint MAP models written as expressions, `f` always defined: the derivatives are right at every decision vector for which `L`
is defined at all rows with measurements. -/
theorem C70_jme_expr_at (U : JMEUser SExpr)
    (hTf : ∀ x u p : List SExpr, (∀ a ∈ x, a.Total) → (∀ a ∈ u, a.Total) → (∀ a ∈ p, a.Total) → ∀ a ∈ U.f x u p, a.Total)
    {DL : List ℝ → List ℝ → List ℝ → List ℝ → Prop}
    (hTL : ∀ y x u p env, (∀ a ∈ y, a.Defined env) → ArgsIn (DL (y.map (SExpr.ev · env))) x u p env → (U.L y x u p).Defined env) (F : OEMFunctions) {xn un pn yn : List String} {N nw : Nat}
    (hU : OEMDenotes SExpr.ev U.toOEMUser F xn.length un.length pn.length yn.length) (hN : (N : Int) + 1 = U.order) (hN1 : 1 ≤ N)
    (hjt : U.jtRange.length = N + 1 ∧ ∀ r ∈ U.jtRange, r.length = N) {vars : Dict String SymVar}
    (hv : ColVars vars xn un pn) (hy : Dict.get? vars "y" = some (.vec yn)) {Gv : SymVar} (hGv : Dict.get? vars "G" = some Gv)
    (hGs : Gv.shape = [xn.length, nw]) {decision : List String}
    (hd : DecisionOK vars ["x", "p", "xp", "wc"] ["y", "u", "up", "piece_len", "G", "penweight"] decision)
    {iter : String → List String} (hi : OrdersOK iter jmeWrt) (G : NDArray ℝ) (hG : G.WF ∧ G.shape = [xn.length, nw])
    (penweight : Option (NDArray ℝ)) (hw : U.usePenalty = true → ∃ w, penweight = some w ∧ w.WF ∧ w.shape = [xn.length]) :
    ∃ c, symjmeInit SExpr.arith U iter vars decision = .ok c ∧ lglCollocation U.order = .ok c.col ∧
      ∃ m, symjmeGen (exprCode (shapeOf c.vars)) U G penweight c = .ok m ∧ m.collocationOrder = U.order ∧ m.nx = xn.length ∧
        m.nu = un.length ∧ m.np = pn.length ∧ m.ny = yn.length ∧ m.nw = nw ∧
      ∀ (t : NDArray ℝ) (y : MaskedArray) (u : UArg) (ua : NDArray ℝ) (P : Nat), OEMInput m.toOEMModel t y P → InputsOK m.toOEMModel t u ua →
      ∃ q rows, jmeProblem m t y u = .ok q ∧ MeasuredRows y.mask (P + 1) yn.length rows ∧
      q.prob.ndec = (P * N + 1) * xn.length + P * N * nw + pn.length ∧
      ∀ d : List ℝ, d.length = q.prob.ndec →
        q.prob.obj d = .ok (jmeCost F.withDiv U.useOm (penaltyWeights U.usePenalty penweight) c.col.J U.jtRange c.col.K (diff t.data) rows
          y.arr.data ua.data G.data P N xn.length un.length nw pn.length yn.length d) ∧
        q.prob.constr d = .ok ((List.range P).flatMap
          (jmeDefects F.withDiv c.col.J U.jtRange (diff t.data) ua.data G.data P N xn.length un.length nw pn.length d)) ∧
        ((∀ k ∈ rows, DL (rowAt y.arr.data 0 yn.length k) (rowAt d 0 xn.length (k * N)) (rowAt ua.data 0 un.length (k * N))
          (jmeP P N xn.length nw pn.length d)) → DerivativesRight q.prob d) :=
  jme_expr_core U hTf F hU hN hN1 hjt hv hy hGv hGs hd hi G hG penweight hw fun env h =>
    hTL _ _ _ _ _ (defined_row _ _ _) (argsIn_rows (by rw [ev_row arith_ok]; exact h))

/-! ### An example: the pendulum with a random torque -/

namespace PendulumId
open SExpr

/-- With the Onsager--Machlup term and the penalty; the noise is interpolated between the two intervals of a piece. -/
noncomputable def juser : JMEUser SExpr := { user with useOm := true, usePenalty := true, jtRange := [[1, 0], [1 / 2, 1 / 2], [0, 1]] }

def jvars : Dict String SymVar := vars ++ [("G", .mat 2 1 fun i _ => "G" ++ toString i)]

theorem jvars_ok : ColVars jvars ["angle", "speed"] ["torque"] ["friction", "precision"] where
  keys := by decide
  x := rfl
  u := Or.inl rfl
  p := Or.inl rfl
  pieceLen := fun v h => by cases h

def jiter (n : String) : List String := ((jmeWrt.find? fun fa => fa.1 = n).map fun fa => fa.2.reverse).getD []

theorem jiter_ok : OrdersOK jiter jmeWrt := by unfold OrdersOK; decide

/-- All hypotheses of C70 hold: sixteen decision variables, exact derivatives at every decision vector. -/
example : ∃ c, symjmeInit SExpr.arith juser jiter jvars [] = .ok c ∧
    ∃ m, symjmeGen (exprCode (shapeOf c.vars)) juser ⟨[2, 1], [0, 1]⟩ (some ⟨[2], [3, 4]⟩) c = .ok m ∧
    ∃ q, jmeProblem m t y (.callable fun _ => .ok (.array ua)) = .ok q ∧ q.prob.ndec = 16 ∧
      ∀ d : List ℝ, d.length = 16 → DerivativesRight q.prob d := by
  obtain ⟨c, h1, -, m, h2, m1, -, m3, -, m5, -, h3⟩ := C70_jme_expr juser total functions (xn := ["angle", "speed"]) (un := ["torque"])
    (pn := ["friction", "precision"]) (yn := ["angle_meas"]) (N := 2) (nw := 1) denotes rfl (by decide)
    ⟨rfl, by intro r hr; simp only [juser, List.mem_cons, List.not_mem_nil, or_false] at hr; rcases hr with rfl | rfl | rfl <;> rfl⟩
    jvars_ok rfl rfl rfl (decision := []) (by unfold DecisionOK; decide) jiter_ok ⟨[2, 1], [0, 1]⟩ ⟨rfl, rfl⟩ (some ⟨[2], [3, 4]⟩)
    (fun _ => ⟨_, rfl, rfl, rfl⟩)
  obtain ⟨q, rows, q1, -, q2, q3⟩ := h3 t y _ ua 2 (input m1 m5) (inputs m1 m5 m3)
  exact ⟨c, h1, m, h2, q, q1, q2, fun d hd => (q3 d (by rw [q2]; exact hd)).2.2⟩

/-- The divergence of the pendulum is minus the friction. -/
example (x u p : List ℝ) (hx : x.length = 2) : functions.withDiv.div x u p 1 = -p.getD 0 0 := by
  obtain ⟨a, b, rfl⟩ : ∃ a b, x = [a, b] := by
    match x, hx with
    | [a, b], _ => exact ⟨a, b, rfl⟩
  change _root_.deriv (fun s => -Real.sin a + (u.getD 0 0 - p.getD 0 0 * s)) b = _
  have : HasDerivAt (fun s => -Real.sin a + (u.getD 0 0 - p.getD 0 0 * s)) (-(p.getD 0 0)) b := by
    have := (((hasDerivAt_id b).const_mul (p.getD 0 0)).const_sub (u.getD 0 0)).const_add (-Real.sin a)
    exact this.congr_deriv (by simp)
  exact this.deriv

end PendulumId
end Ceacoest
