import Verif.Props.TranscriptionOEM

/-! # C70 for joint MAP problems: from the methods of the user to the nonlinear program -/

namespace Ceacoest
open Spec RK
variable {X : Type}

theorem noiseAt_congr {jt : List (List ℝ)} {w w' : Nat → List ℝ} {N nw l : Nat} (h : ∀ k < N, w k = w' k) :
    noiseAt jt w N nw l = noiseAt jt w' N nw l :=
  List.map_congr_left fun _ _ => Finset.sum_congr rfl fun k hk => by rw [h k (Finset.mem_range.1 hk)]

theorem noisyRhs_congr {f w : List ℝ} {G G' : Nat → List ℝ} {nx nw : Nat} (h : ∀ j < nx, G j = G' j) :
    noisyRhs f w G nx nw = noisyRhs f w G' nx nw :=
  List.map_congr_left fun j hj => by rw [h j (List.mem_range.1 hj)]

theorem rowAt_self {a : List ℝ} {w : Nat} (h : a.length = w) : rowAt a 0 w 0 = a := by
  refine List.ext_getElem (by simp [rowAt, h]) fun j h1 h2 => ?_
  simp [rowAt, List.getD_eq_getElem?_getD, h2]

/-- What the log-likelihood of a joint MAP problem sees: a row with measurements, and the state and input at its time. -/
def JMEPoint (rows : List Nat) (y u : List ℝ) (N nx nu ny : Nat) (p d : List ℝ) (n : String) (env : Env) : Prop :=
  n = "L" → ∃ k ∈ rows, envRow env "y" ny 0 = rowAt y 0 ny k ∧ envRow env "x" nx 0 = rowAt d 0 nx (k * N) ∧
    envRow env "u" nu 0 = rowAt u 0 nu (k * N) ∧ envRow env "p" p.length 0 = p

set_option maxHeartbeats 2000000 in
/-- From the methods of the user to the problem. -/
theorem jme_nlp {A : SymArith X} {ev : X → Env → ℝ} (hA : ArithOK A ev) (U : JMEUser X) (F : JMEFunctions) {xn un pn yn : List String} {N nw : Nat}
    (hU : JMEDenotes A ev U F xn.length un.length pn.length yn.length) (hN : (N : Int) + 1 = U.order) (hN1 : 1 ≤ N)
    (hjt : U.jtRange.length = N + 1 ∧ ∀ r ∈ U.jtRange, r.length = N) {vars : Dict String SymVar}
    (hv : ColVars vars xn un pn) (hy : Dict.get? vars "y" = some (.vec yn)) {Gv : SymVar} (hGv : Dict.get? vars "G" = some Gv)
    (hGs : Gv.shape = [xn.length, nw]) {decision : List String}
    (hd : DecisionOK vars ["x", "p", "xp", "wc"] ["y", "u", "up", "piece_len", "G", "penweight"] decision)
    {iter : String → List String} (hi : OrdersOK iter jmeWrt) (G : NDArray ℝ) (hG : G.WF ∧ G.shape = [xn.length, nw])
    (penweight : Option (NDArray ℝ)) (hw : U.usePenalty = true → ∃ w, penweight = some w ∧ w.WF ∧ w.shape = [xn.length]) :
    ∃ c, symjmeInit A U iter vars decision = .ok c ∧ lglCollocation U.order = .ok c.col ∧
      (∃ out, symjmeE A c.col U.jtRange U.f xn.length un.length pn.length nw =
          .ok ⟨["xp", "up", "p", "piece_len", "wc", "G"], [N, xn.length], out⟩ ∧ out.length = N * xn.length ∧
        ∀ nb ∈ jmeGenerated U.usePenalty, Dict.get? c.model.funcs nb.1 =
          Dict.get? (jmeFns A U c.col (shapeOf c.vars) xn.length un.length pn.length yn.length nw
            ⟨["xp", "up", "p", "piece_len", "wc", "G"], [N, xn.length], out⟩) nb.1) ∧
      ∀ codegen : SymFn X → List (NDArray ℝ) → NDArray ℝ,
      (∀ name g, Dict.get? c.model.funcs name = some g → CodegenOK ev (shapeOf c.vars) codegen g) →
      ∃ m s, symjmeGen codegen U G penweight c = .ok m ∧ m.collocationOrder = U.order ∧ m.nx = xn.length ∧ m.nu = un.length ∧
        m.np = pn.length ∧ m.ny = yn.length ∧ m.nw = nw ∧
      ∀ (t : NDArray ℝ) (y : MaskedArray) (u : UArg) (ua : NDArray ℝ) (P : Nat), OEMInput m.toOEMModel t y P → InputsOK m.toOEMModel t u ua →
      ∃ q rows, jmeProblem m t y u = .ok q ∧ MeasuredRows y.mask (P + 1) yn.length rows ∧
      q.prob.ndec = (P * N + 1) * xn.length + P * N * nw + pn.length ∧
      (∀ o ∈ q.prob.objectives, o.fn.name ∈ (jmeGenerated U.usePenalty).map Prod.fst) ∧
      (∀ o ∈ q.prob.constraints, o.fn.fn.name ∈ (jmeGenerated U.usePenalty).map Prod.fst) ∧
      (∀ d : List ℝ, d.length = q.prob.ndec → Sees (c.side A ev s) (jmeTable P N xn.length un.length pn.length yn.length nw q.nmeas) q.prob d
        (JMEPoint rows y.arr.data ua.data N xn.length un.length yn.length (jmeP P N xn.length nw pn.length d) d)) ∧
      ∀ d : List ℝ, d.length = q.prob.ndec →
        q.prob.obj d = .ok (jmeCost F U.useOm (penaltyWeights U.usePenalty penweight) c.col.J U.jtRange c.col.K (diff t.data) rows y.arr.data ua.data
          G.data P N xn.length un.length nw pn.length yn.length d) ∧
        q.prob.constr d = .ok ((List.range P).flatMap
          (jmeDefects F c.col.J U.jtRange (diff t.data) ua.data G.data P N xn.length un.length nw pn.length d)) ∧
        (SmoothProblem (c.side A ev s) (jmeTable P N xn.length un.length pn.length yn.length nw q.nmeas) q.prob d → DerivativesRight q.prob d) := by
  obtain ⟨c, hinit, hcol, hJ, hK, hcn, hci, hdec, hsh, hget, out, hout, hsymE, hfn, s, hs⟩ := symjme_ok hA U F hU hN hN1 hjt hv hy hGv hGs hd hi
  refine ⟨c, hinit, hcol, ⟨out, hsymE, hout.1, hfn⟩, fun codegen hcg => ?_⟩
  have hgen := hs codegen hcg
  have g_e : ("e", false) ∈ jmeGenerated U.usePenalty := by simp [jmeGenerated]
  have g_L : ("L", true) ∈ jmeGenerated U.usePenalty := by simp [jmeGenerated]
  have g_t : ("tube_L", true) ∈ jmeGenerated U.usePenalty := by simp [jmeGenerated]
  have g_p : U.usePenalty = true → ("penalty", true) ∈ jmeGenerated U.usePenalty := fun h => by simp [jmeGenerated, h]
  obtain ⟨e, e1, e2, e3⟩ := hgen "e" false g_e
  obtain ⟨L, L1, L2, L3⟩ := hgen "L" true g_L
  obtain ⟨tb, t1, t2, t3⟩ := hgen "tube_L" true g_t
  set nx := xn.length with hnx
  set nu := un.length with hnu
  set np := pn.length with hnp
  set ny := yn.length with hny
  set dfdx := A.deriv (shapeOf c.vars) (.vec ["x", "u", "p"] (U.f (A.row "x" nx 0) (A.row "u" nu 0) (A.row "p" np 0))) ["x"] with hdfdx
  set efn : SymFn X := ⟨["xp", "up", "p", "piece_len", "wc", "G"], [N, nx], out⟩ with hefn
  set Lfn : SymFn X := .scalar ["y", "x", "u", "p"] (U.L (A.row "y" ny 0) (A.row "x" nx 0) (A.row "u" nu 0) (A.row "p" np 0)) with hLfn
  set tfn : SymFn X := symjmeTubeL A c.col U.jtRange U.useOm dfdx nx nu np nw with htfn
  set pfn : SymFn X := symjmePenalty A efn c.col.ninterv nx with hpfn
  set S := c.side A ev s with hS
  have F_e : S.fn "e" = efn := by change (Dict.get? _ _).getD _ = _; rw [hfn _ g_e]; rfl
  have F_L : S.fn "L" = Lfn := by change (Dict.get? _ _).getD _ = _; rw [hfn _ g_L]; rfl
  have F_t : S.fn "tube_L" = tfn := by
    change (Dict.get? _ _).getD _ = _
    rw [hfn _ g_t, jmeFns, htfn]
    cases U.useOm <;> rfl
  have F_p : U.usePenalty = true → S.fn "penalty" = pfn := fun h => by
    change (Dict.get? _ _).getD _ = _
    rw [hfn _ (g_p h), jmeFns, hpfn]
    cases U.useOm <;> rfl
  obtain ⟨pen, hpgen, hpen⟩ : ∃ pen : Option (GenFun ℝ),
      (if U.usePenalty then some <$> c.model.genObjective codegen "penalty" else pure none : Py (Option (GenFun ℝ))) = .ok pen ∧
      (U.usePenalty = true → ∃ f, pen = some f ∧ f.name = "penalty" ∧
        Meets S.S S.ev S.shape S.decision (S.fn "penalty") true f (S.s (S.fn "penalty"))) := by
    cases hp : U.usePenalty with
    | false => exact ⟨none, rfl, fun h => by cases h⟩
    | true =>
      obtain ⟨f, f1, f2, f3⟩ := hgen "penalty" true (g_p hp)
      simp only [if_true] at f1 ⊢
      exact ⟨some f, by rw [f1]; rfl, fun _ => ⟨f, rfl, f2, f3⟩⟩
  set m0 : OEMModel := { collocationOrder := U.order, nx, e, nu, np, ny, L } with hm0
  set m : JMEModel := { toOEMModel := m0, nw, tubeL := tb, G, usePenalty := some U.usePenalty, penalty := pen, penweight } with hm
  have hgenm : symjmeGen codegen U G penweight c = .ok m := by
    have lx : varLen c.vars "x" = .ok nx := varLen_vec (by rw [hget]; simp [jmeVar, colVar, hv.x])
    have lu : varLen c.vars "u" = .ok nu := varLen_vec (by rw [hget]; simp [jmeVar, colVar])
    have lp : varLen c.vars "p" = .ok np := varLen_vec (by rw [hget]; simp [jmeVar, colVar])
    have ly : varLen c.vars "y" = .ok ny := varLen_vec (by rw [hget]; simp [jmeVar, colVar, hy])
    have lw : noiseLen c.vars = .ok nw := by
      unfold noiseLen Dict.getItem
      rw [hget]
      simp [jmeVar, colVar, hGv, hGs]
    simp only [if_true, Bool.false_eq_true, if_false] at e1 L1 t1
    unfold symjmeGen symoemGen
    simp only [lx, lu, lp, ly, lw, e1, L1, t1, py_bind_ok, py_pure]
    by_cases hp : U.usePenalty = true
    · rw [if_pos hp] at hpgen ⊢
      rw [hpgen]
      rfl
    · rw [if_neg hp] at hpgen ⊢
      have h : none = pen := Except.ok.inj hpgen
      rw [hm, ← h]
  refine ⟨m, s, hgenm, rfl, rfl, rfl, rfl, rfl, rfl, fun t y u ua P hin hu => ?_⟩
  have hshape : ∀ n w, jmeVar vars U.usePenalty N nw xn un pn n = some w → S.shape n = w.shape := fun n w hw => shapeOf_of (by rw [hget, hw])
  have hmemd : ∀ n, n ∈ S.decision ↔ n ∈ ["p", "x", "xp", "wc"] ∨ n ∈ decision := by
    intro a
    change a ∈ c.model.decision ↔ _
    rw [hdec]
    simp only [List.mem_union_iff, List.mem_cons, List.not_mem_nil, or_false]
    tauto
  have hnd : ∀ n ∈ ["y", "u", "up", "piece_len", "G", "penweight"], n ∉ decision := fun n hn h => (hd _ h).1 hn
  have hagree : ∀ K, AgreesOn S (jmeTable P N nx nu np ny nw K) jmeNames := by
    intro K n hn
    simp only [jmeNames, List.mem_cons, List.not_mem_nil, or_false] at hn
    have hb : S.shape n = (jmeTable P N nx nu np ny nw K).bs n := by
      rcases hn with rfl | rfl | rfl | rfl | rfl | rfl | rfl | rfl | rfl
      · rw [hshape _ (.vec yn) (by simp [jmeVar, colVar, hy])]; rfl
      · rw [hshape _ (.vec xn) (by simp [jmeVar, colVar, hv.x])]; rfl
      · rw [hshape _ (.vec un) (by simp [jmeVar, colVar])]; rfl
      · rw [hshape _ (.vec pn) (by simp [jmeVar, colVar])]; rfl
      · rw [hshape _ (.piece xn (N + 1)) (by simp [jmeVar, colVar])]; rfl
      · rw [hshape _ (.piece un (N + 1)) (by simp [jmeVar, colVar])]; rfl
      · rw [hshape _ ((Dict.get? vars "piece_len").getD (.scalar "piece_len")) (by simp [jmeVar, colVar])]
        cases hp : Dict.get? vars "piece_len" with
        | none => rfl
        | some w => exact hv.pieceLen w hp
      · rw [hshape _ (.noise N nw) (by simp [jmeVar])]; rfl
      · rw [hshape _ Gv (by simp [jmeVar, colVar, hGv]), hGs]; rfl
    refine ⟨hb, ?_⟩
    rw [hmemd]
    have n1 := hnd "y" (by simp)
    have n2 := hnd "u" (by simp)
    have n3 := hnd "up" (by simp)
    have n4 := hnd "piece_len" (by simp)
    have n5 := hnd "G" (by simp)
    rcases hn with rfl | rfl | rfl | rfl | rfl | rfl | rfl | rfl | rfl <;> simp [jmeTable, n1, n2, n3, n4, n5]
  obtain ⟨hFe, a_e, he_out⟩ := fits_of (S := S) (names := ["xp", "up", "p", "piece_len", "wc", "G"]) (some := ["xp", "up", "piece_len", "wc"])
    (args := ["xp", "up", "p", "piece_len", "wc", "G"]) (out := [N, nx]) e2 e3 (by rw [F_e]) (by rw [F_e]) (by decide) (by decide) (by decide)
  obtain ⟨hFt, a_t, ht_out⟩ := fits_of (S := S) (names := ["xp", "up", "p", "piece_len", "wc", "G"]) (some := ["xp", "up", "piece_len", "wc"])
    (args := ["xp", "up", "p", "piece_len", "wc"]) (out := []) t2 t3 (by rw [F_t]; rfl) (by rw [F_t]; rfl) (by decide) (by decide) (by decide)
  have a_L : L.argNames = ["y", "x", "u", "p"] := by rw [L3.args]; change (S.fn "L").args = _; rw [F_L]; rfl
  have hL_out : L.outShape = [] := by rw [L3.outShape]; change (S.fn "L").outShape = _; rw [F_L]; rfl
  have hFL : FitsL S m.L := ⟨by change Meets _ _ _ _ (S.fn L.name) _ _ (s (S.fn L.name)); rw [L2]; exact L3, a_L, hL_out⟩
  have hFp : U.usePenalty = true → ∃ f w, pen = some f ∧ penweight = some w ∧ w.WF ∧ w.shape = [nx] ∧ f.name = "penalty" ∧
      Fits S true f ["xp", "up", "p", "piece_len", "wc", "G", "penweight"] ["xp", "up", "piece_len", "wc"] [] ∧
      f.argNames = ["xp", "up", "p", "piece_len", "wc", "G", "penweight"] ∧ f.outShape = [] := by
    intro h
    obtain ⟨w, w1, w2, w3⟩ := hw h
    obtain ⟨f, f1, f2, f3⟩ := hpen h
    exact ⟨f, w, f1, w1, w2, w3, f2, fits_of (S := S) f2 f3 (by rw [F_p h]; rfl) (by rw [F_p h]; rfl) (by decide) (by decide) (by decide)⟩
  have hpw : U.usePenalty = true → S.shape "penweight" = [nx] ∧ "penweight" ∉ S.decision := fun h =>
    ⟨by rw [hshape _ (.penweight xn.length) (by simp [jmeVar, h])]; simp [SymVar.penweight, SymVar.vec, hnx], by
      rw [hmemd]; have := hnd "penweight" (by simp); simp [this]⟩
  have hpen1 : m.usePenalty = some true → ∃ f w, m.penalty = some f ∧ m.penweight = some w ∧ w.WF ∧ w.shape = [m.nx] ∧
      S.shape "penweight" = [m.nx] ∧ "penweight" ∉ S.decision ∧
      Fits S true f ["xp", "up", "p", "piece_len", "wc", "G", "penweight"] ["xp", "up", "piece_len", "wc"] [] := by
    intro h
    have h : U.usePenalty = true := Option.some.inj h
    obtain ⟨f, w, f1, w1, w2, w3, -, f2, -⟩ := hFp h
    exact ⟨f, w, f1, w1, w2, w3, (hpw h).1, (hpw h).2, f2⟩
  have hpen2 : m.usePenalty = some true → m.penalty ≠ none := fun hp => by
    obtain ⟨f, -, hf, -⟩ := hpen1 hp
    simp [hf]
  obtain ⟨q, hq, hndec, hused⟩ := jme_used S m t y u ua P N hin hu hN hG hagree hFe hFL hFt hpen1
  obtain ⟨q', N', hq', hN', hni, -, hnpt, -, -, hqd, -, hrem, hcon, -, hobj, hext, -⟩ := C21_jme m t y u ua P hin hu hpen2
  obtain rfl : q = q' := Except.ok.inj (hq.symm.trans hq')
  obtain rfl : N' = N := by have : (N' : Int) + 1 = U.order := hN'; omega
  obtain ⟨q2, rows, hq2, hrows, hal⟩ := C19_jme m t y u ua P hin hu hpen2
  obtain rfl : q = q2 := Except.ok.inj (hq.symm.trans hq2)
  obtain ⟨q3, hq3, -, hup, -⟩ := C20_up_jme m t y u ua P hin hu hpen2
  obtain rfl : q = q3 := Except.ok.inj (hq.symm.trans hq3)
  rw [hni] at hup
  have hKm : q.nmeas = q.kmeas.length := by rw [hal.nmeas, hal.kmeas]
  have hlt : ∀ a ∈ q.kmeas, a < P * N' + 1 := by
    intro a ha
    obtain ⟨i, hi, rfl⟩ := List.mem_iff_getElem.1 ha
    have := hal.point i (by rw [← hal.kmeas]; exact hi)
    rw [hnpt] at this
    simpa [List.getD_eq_getElem?_getD, hi] using this
  rw [hnpt] at hqd hrem
  rw [hKm] at hobj hused
  -- the objectives, by cases
  set extra : List (OptFun ℝ) := match m.usePenalty, m.penalty with | some true, some f => [OptFun.mk' [P] f none] | _, _ => [] with hextra
  have ex0 : U.usePenalty = false → extra = [] := by
    intro h
    rw [hextra]
    change (match some U.usePenalty, pen with | some true, some f => [OptFun.mk' [P] f none] | _, _ => []) = _
    rw [h]
  have ex1 : ∀ f, U.usePenalty = true → pen = some f → extra = [OptFun.mk' [P] f none] := by
    intro f h hf
    rw [hextra]
    change (match some U.usePenalty, pen with | some true, some f => [OptFun.mk' [P] f none] | _, _ => []) = _
    rw [h, hf]
  have exm : ∀ o ∈ extra, U.usePenalty = true ∧ o.fn.name = "penalty" := by
    intro o ho
    cases hp : U.usePenalty with
    | false => rw [ex0 hp] at ho; cases ho
    | true =>
      obtain ⟨f, w, f1, -, -, -, f2, -⟩ := hFp hp
      rw [ex1 f hp f1] at ho
      rw [List.mem_singleton.1 ho]
      exact ⟨rfl, f2⟩
  have hboth : ∀ A B : List ℝ → Prop, (∀ d : List ℝ, d.length = q.prob.ndec → A d ∧ B d) →
      (∀ d : List ℝ, d.length = q.prob.ndec → A d) ∧ ∀ d : List ℝ, d.length = q.prob.ndec → B d :=
    fun A B h => ⟨fun d hd => (h d hd).1, fun d hd => (h d hd).2⟩
  refine ⟨q, rows, hq, hrows, hndec, ?_, ?_, hboth _ _ fun d hl => ?_⟩
  · rw [hobj]
    intro o ho
    rcases List.mem_append.1 ho with ho | ho
    · simp only [List.mem_cons, List.not_mem_nil, or_false] at ho
      rcases ho with rfl | rfl
      · change L.name ∈ _; rw [L2]; exact List.mem_map.2 ⟨_, g_L, rfl⟩
      · change tb.name ∈ _; rw [t2]; exact List.mem_map.2 ⟨_, g_t, rfl⟩
    · obtain ⟨h1, h2⟩ := exm o ho
      rw [h2]
      exact List.mem_map.2 ⟨_, g_p h1, rfl⟩
  · rw [hcon]
    intro o ho
    rw [List.mem_singleton.1 ho]
    change e.name ∈ _; rw [e2]; exact List.mem_map.2 ⟨_, g_e, rfl⟩
  rw [hKm]
  set T := jmeTable P N' nx nu np ny nw q.kmeas.length with hT
  have sp : q.prob.variableSpec "p" = .ok (.comp ⟨[np], (P * N' + 1) * nx + P * N' * nw⟩) := by simp only [Problem.variableSpec, hqd]; rfl
  have swc : q.prob.variableSpec "wc" = .ok (.comp ⟨[P, N', nw], (P * N' + 1) * nx⟩) := by simp only [Problem.variableSpec, hqd]; rfl
  have sxp : q.prob.variableSpec "xp" = .ok (.piece ⟨⟨[P * N' + 1, nx], 0⟩, P, N' + 1⟩) := by
    simp only [Problem.variableSpec, hqd, hrem]; rfl
  have sxm : q.prob.variableSpec "xm" = .ok (.xm ⟨⟨[P * N' + 1, nx], 0⟩, q.kmeas⟩) := by simp only [Problem.variableSpec, hqd, hrem]; rfl
  have hgetx : ∀ n, n ≠ "penweight" → Dict.get? q.prob.extra n =
      Dict.get? [("G", G), ("y", q.y.arr), ("um", q.um), ("u", ua), ("up", q.up), ("piece_len", ⟨[P], diff t.data⟩)] n := by
    intro n hn
    rw [hext]
    change Dict.get? ((match penweight with | some w => [("penweight", w)] | none => []) ++ _) n = _
    cases penweight with
    | none => rfl
    | some w =>
      change Dict.get? (("penweight", w) :: _) n = _
      rw [Dict.get?_cons, if_neg (Ne.symm hn)]
      rfl
  have xpl : Dict.get? q.prob.extra "piece_len" = some ⟨[P], diff t.data⟩ := by rw [hgetx _ (by decide)]; rfl
  have xup : Dict.get? q.prob.extra "up" = some q.up := by rw [hgetx _ (by decide)]; rfl
  have xy : Dict.get? q.prob.extra "y" = some q.y.arr := by rw [hgetx _ (by decide)]; rfl
  have xum : Dict.get? q.prob.extra "um" = some q.um := by rw [hgetx _ (by decide)]; rfl
  have xG : Dict.get? q.prob.extra "G" = some G := by rw [hgetx _ (by decide)]; rfl
  obtain ⟨vo, vc⟩ := hused.values (by
      intro o ho
      rw [hobj] at ho
      rcases List.mem_append.1 ho with ho | ho
      · simp only [List.mem_cons, List.not_mem_nil, or_false] at ho
        rcases ho with rfl | rfl
        · change (S.fn L.name).out.length = (S.fn L.name).outShape.prod; rw [L2, F_L]; rfl
        · change (S.fn tb.name).out.length = (S.fn tb.name).outShape.prod; rw [t2, F_t]; rfl
      · obtain ⟨h1, h2⟩ := exm o ho
        rw [h2, F_p h1]; rfl)
    (by
      intro o ho
      rw [hcon] at ho
      rw [List.mem_singleton.1 ho]
      change (S.fn e.name).out.length = (S.fn e.name).outShape.prod; rw [e2, F_e]; simp [efn, hout.1]) hl
  have E_e : (T.reg (OptFun.mk' [P, N', nx] e none)).E = [P] := Table.reg_E T _ (by change _ = _ ++ e.outShape; rw [he_out]; rfl)
  have E_L : (T.reg (OptFun.mk' [q.kmeas.length] L (some ["y", "xm", "um", "p"]))).E = [q.kmeas.length] :=
    Table.reg_E T _ (by change _ = _ ++ L.outShape; rw [hL_out]; rfl)
  have E_t : (T.reg (OptFun.mk' [P] tb none)).E = [P] := Table.reg_E T _ (by change _ = _ ++ tb.outShape; rw [ht_out]; rfl)
  have hu' : ∀ i < P, ∀ l < N' + 1, rowAt q.up.data 0 nu (i * (N' + 1) + l) = rowAt ua.data 0 nu (i * N' + l) := fun i hi l hl =>
    rowAt_congr fun j hj => by rw [Nat.zero_add, Nat.zero_add, hup.2.2 i hi l hl j hj]
  -- where the arguments of a function of a piece come from
  have rows_of : ∀ (o : OptFun ℝ) (args : List String) (i : Nat), i < P → (T.reg o).E = [P] →
      (∀ n ∈ args, args.idxOf n < o.fn.argNames.length ∧ o.args.getD (args.idxOf n) "" = n) →
      (∀ n ∈ ["xp", "up", "p", "piece_len", "wc"], n ∈ args) →
      (∀ l < N' + 1, envRow (argEnv args (argsOf q.prob o (T.reg o) i d)) "xp" nx l = rowAt d 0 nx (i * N' + l)) ∧
      (∀ l < N' + 1, envRow (argEnv args (argsOf q.prob o (T.reg o) i d)) "up" nu l = rowAt ua.data 0 nu (i * N' + l)) ∧
      envRow (argEnv args (argsOf q.prob o (T.reg o) i d)) "p" np 0 = jmeP P N' nx nw np d ∧
      argEnv args (argsOf q.prob o (T.reg o) i d) "piece_len" 0 = (diff t.data).getD i 0 ∧
      (∀ k < N', envRow (argEnv args (argsOf q.prob o (T.reg o) i d)) "wc" nw k = jmeW P N' nx nw d i k) ∧
      ("G" ∈ args → ∀ j < nx, envRow (argEnv args (argsOf q.prob o (T.reg o) i d)) "G" nw j = rowAt G.data 0 nw j) := by
    intro o args i hi hE ix hin
    refine ⟨fun l hl => ?_, fun l hl => ?_, ?_, ?_, fun k hk => ?_, fun hG j hj => ?_⟩
    · have := ix "xp" (hin _ (by simp))
      exact row_piece (d := d) this.1 this.2 (by simp [T, jmeTable]) sxp (by simp [T, jmeTable]) (by simp [T, jmeTable]) hE hi hl
    · have := ix "up" (hin _ (by simp))
      rw [crow_comp2 (d := d) this.1 this.2 (by simp [T, jmeTable]) xup (by simp [T, jmeTable]) (by simp [T, jmeTable]) hE hi hl, hu' i hi l hl]
    · have := ix "p" (hin _ (by simp))
      exact row_single (d := d) this.1 this.2 (by simp [T, jmeTable]) sp (by simp [T, jmeTable]) (by simp [T, jmeTable]) hE (by simpa using hi)
    · have := ix "piece_len" (hin _ (by simp))
      exact cscalar (d := d) this.1 this.2 (by simp [T, jmeTable]) xpl (by simp [T, jmeTable]) (by simp [T, jmeTable]) hE hi
    · have := ix "wc" (hin _ (by simp))
      exact row_comp2 (d := d) this.1 this.2 (by simp [T, jmeTable]) swc (by simp [T, jmeTable]) (by simp [T, jmeTable]) hE hi hk
    · have := ix "G" hG
      exact crow_mat (d := d) this.1 this.2 (by simp [T, jmeTable]) xG (by simp [T, jmeTable]) (by simp [T, jmeTable]) hE (by simpa using hi) hj
  -- the values of the defects, for the constraints and for the penalty
  have dval : ∀ (o : OptFun ℝ) (args : List String) (i : Nat), i < P → (T.reg o).E = [P] →
      (∀ n ∈ args, args.idxOf n < o.fn.argNames.length ∧ o.args.getD (args.idxOf n) "" = n) →
      (∀ n ∈ ["xp", "up", "p", "piece_len", "wc", "G"], n ∈ args) →
      out.map (ev · (argEnv args (argsOf q.prob o (T.reg o) i d))) =
        jmeDefects F c.col.J U.jtRange (diff t.data) ua.data G.data P N' nx nu nw np d i := by
    intro o args i hi hE ix hin
    obtain ⟨rx, ru, rp, rl, rw', rG⟩ := rows_of o args i hi hE ix (fun n hn => hin n (by revert n; decide))
    have rG := rG (hin _ (by simp))
    refine (hout.2 _).trans ?_
    rw [rl, jmeDefects]
    refine defects_congr (fun l hl => ?_) fun l hl => ?_
    · simp only [Nat.zero_add]
      rw [rx l hl, ru l hl, rp, noiseAt_congr rw']
      exact noisyRhs_congr rG
    · rw [Nat.zero_add, rx l hl]
  have o_e : ∀ i < P, outAt S T q.prob d (OptFun.mk' [P, N', nx] e none) i =
      jmeDefects F c.col.J U.jtRange (diff t.data) ua.data G.data P N' nx nu nw np d i := by
    intro i hi
    have : S.fn (OptFun.mk' [P, N', nx] e none).fn.name = efn := by change S.fn e.name = _; rw [e2, F_e]
    unfold outAt
    rw [this, hS]
    exact dval _ ["xp", "up", "p", "piece_len", "wc", "G"] i hi E_e (fun n hn => ix_of a_e hn) (fun n hn => hn)
  have hdiv : U.useOm = true → ∀ env, ∀ j < nx, ev (dfdx.out.getD (j * nx + j) (A.num 0)) env =
      F.div ((List.range nx).map (env "x")) ((List.range nu).map (env "u")) ((List.range np).map (env "p")) j := fun h =>
    hU.div h _ (hshape "x" (.vec xn) (by simp [jmeVar, colVar, hv.x])) (hshape "u" (.vec un) (by simp [jmeVar, colVar]))
      (hshape "p" (.vec pn) (by simp [jmeVar, colVar]))
  have o_t : ∀ i < P, outAt S T q.prob d (OptFun.mk' [P] tb none) i =
      [tubeDensity U.useOm (fun l => F.div (rowAt d 0 nx (i * N' + l)) (rowAt ua.data 0 nu (i * N' + l)) (jmeP P N' nx nw np d))
        (noiseAt U.jtRange (jmeW P N' nx nw d i) N' nw) c.col.K N' nx nw ((diff t.data).getD i 0)] := by
    intro i hi
    have : S.fn (OptFun.mk' [P] tb none).fn.name = tfn := by change S.fn tb.name = _; rw [t2, F_t]
    unfold outAt
    rw [this, hS]
    obtain ⟨rx, ru, rp, rl, rw', -⟩ := rows_of (OptFun.mk' [P] tb none) ["xp", "up", "p", "piece_len", "wc"] i hi E_t
      (fun n hn => ix_of a_t hn) (fun n hn => hn)
    refine (symjmeTubeL_val hA c.col U.jtRange U.useOm dfdx F.div hcn hci hK hjt.1 hjt.2 hdiv _).trans ?_
    change [tubeDensity U.useOm (fun l => F.div (envRow (argEnv ["xp", "up", "p", "piece_len", "wc"] _) _ _ _)
      (envRow (argEnv ["xp", "up", "p", "piece_len", "wc"] _) _ _ _) (envRow (argEnv ["xp", "up", "p", "piece_len", "wc"] _) _ _ _))
      (noiseAt _ (envRow (argEnv ["xp", "up", "p", "piece_len", "wc"] _) _ _) _ _) _ _ _ _
      (argEnv ["xp", "up", "p", "piece_len", "wc"] _ _ _)] = _
    rw [rl]
    unfold tubeDensity
    congr 2
    refine Finset.sum_congr rfl fun l hl => ?_
    have hl := Finset.mem_range.1 hl
    dsimp only
    rw [rx l hl, ru l hl, rp, noiseAt_congr rw']
  have o_p : ∀ f w, U.usePenalty = true → pen = some f → penweight = some w → w.WF → w.shape = [nx] → f.name = "penalty" →
      f.argNames = ["xp", "up", "p", "piece_len", "wc", "G", "penweight"] → f.outShape = [] →
      (T.reg (OptFun.mk' [P] f none)).E = [P] ∧ ∀ i < P, outAt S T q.prob d (OptFun.mk' [P] f none) i =
      [defectPenalty (jmeDefects F c.col.J U.jtRange (diff t.data) ua.data G.data P N' nx nu nw np d i) w.data N' nx] := by
    intro f w h hf hw hwf hws hfn' ha ho
    have E_p : (T.reg (OptFun.mk' [P] f none)).E = [P] := Table.reg_E T _ (by change _ = _ ++ f.outShape; rw [ho]; rfl)
    refine ⟨E_p, fun i hi => ?_⟩
    have : S.fn (OptFun.mk' [P] f none).fn.name = pfn := by change S.fn f.name = _; rw [hfn', F_p h]
    unfold outAt
    rw [this, hS, hpfn, hci]
    have ix : ∀ n ∈ ["xp", "up", "p", "piece_len", "wc", "G", "penweight"], _ := fun n hn => ix_of (sh := [P]) ha hn
    have xpw : Dict.get? q.prob.extra "penweight" = some w := by
      rw [hext]
      change Dict.get? ((match penweight with | some w => [("penweight", w)] | none => []) ++ _) _ = _
      rw [hw]
      rfl
    have rpw := crow_single (d := d) (e := i) (w := nx) (ix "penweight" (by simp)).1 (ix "penweight" (by simp)).2 (by simp [T, jmeTable]) xpw (by simp [T, jmeTable])
      (by simp [T, jmeTable]) E_p (by simpa using hi)
    refine (symjmePenalty_val hA efn N' nx _).trans ?_
    change [defectPenalty (out.map _) (envRow (argEnv ["xp", "up", "p", "piece_len", "wc", "G", "penweight"] _) _ _ _) _ _] = _
    rw [rpw, rowAt_self (by rw [hwf, hws]; simp)]
    have := dval (OptFun.mk' [P] f none) ["xp", "up", "p", "piece_len", "wc", "G", "penweight"] i hi E_p ix (by decide)
    rw [← this]
    rfl
  have hpl : (jmeP P N' nx nw np d).length = np := by simp [jmeP, rowAt]
  refine ⟨hused.sees hl ?_ ?_, ?_, ?_, fun hsm => hused.right hl hsm⟩
  · rw [hobj]
    intro o ho el he
    rcases List.mem_append.1 ho with ho | ho
    · simp only [List.mem_cons, List.not_mem_nil, or_false] at ho
      rcases ho with rfl | rfl
      · have he : el ∈ List.range (T.reg (OptFun.mk' [q.kmeas.length] L (some ["y", "xm", "um", "p"]))).E.prod := List.mem_range.2 he
        rw [E_L] at he
        have hi : el < q.kmeas.length := by simpa using he
        have hi' : el < rows.length := by rw [← hal.kmeas]; exact hi
        have hnm : (OptFun.mk' [q.kmeas.length] L (some ["y", "xm", "um", "p"])).fn.name = "L" := L2
        change JMEPoint _ _ _ _ _ _ _ _ _ (OptFun.mk' [q.kmeas.length] L (some ["y", "xm", "um", "p"])).fn.name
          (argEnv (S.fn (OptFun.mk' [q.kmeas.length] L (some ["y", "xm", "um", "p"])).fn.name).args _)
        rw [hnm, F_L]
        obtain ⟨ry, rx, ru, rp⟩ := likelihood_rows a_L hL_out (T := T) (nx := nx) (nu := nu) (np := np) (ny := ny)
          ⟨by simp [T, jmeTable], by simp [T, jmeTable], by simp [T, jmeTable], by simp [T, jmeTable]⟩ hlt sxm sp xy xum d hi rfl
        have hk : q.kmeas.getD el 0 = rows.getD el 0 * N' := by rw [hal.index el hi', hni]
        refine fun _ => ⟨rows.getD el 0, by rw [getD_of_lt _ _ hi']; exact List.getElem_mem _, ry.trans ?_, rx.trans (by rw [hk]), ru.trans ?_, ?_⟩
        · exact rowAt_congr fun j hj => by rw [Nat.zero_add, Nat.zero_add, (hal.meas el hi' j hj).1]
        · exact rowAt_congr fun j hj => by rw [Nat.zero_add, Nat.zero_add, hal.input el hi' j hj, hk]
        · rw [hpl]; exact rp
      · intro h
        have hnm : (OptFun.mk' [P] tb none).fn.name = "tube_L" := t2
        exact absurd (hnm.symm.trans h) (by decide)
    · intro h
      exact absurd ((exm o ho).2.symm.trans h) (by decide)
  · rw [hcon]
    intro o ho el he
    rw [List.mem_singleton.1 ho]
    intro h
    have hnm : (OptFun.mk' [P, N', nx] e none).fn.name = "e" := e2
    exact absurd (hnm.symm.trans h) (by decide)
  · rw [vo, hobj]
    have hLsum : ((List.range (T.reg (OptFun.mk' [q.kmeas.length] m.L (some ["y", "xm", "um", "p"]))).E.prod).map fun i =>
        (outAt S T q.prob d (OptFun.mk' [q.kmeas.length] m.L (some ["y", "xm", "um", "p"])) i).sum).sum =
        logLikelihood F.toOEMFunctions rows y.arr.data ua.data N' nx nu ny (jmeP P N' nx nw np d) d := by
      change ((List.range (T.reg (OptFun.mk' [q.kmeas.length] L (some ["y", "xm", "um", "p"]))).E.prod).map fun i =>
        (outAt S T q.prob d (OptFun.mk' [q.kmeas.length] L (some ["y", "xm", "um", "p"])) i).sum).sum = _
      rw [E_L, List.prod_singleton]
      refine likelihood_sum hal.kmeas (fun i hi => by rw [hal.index i hi, hni]) (fun i hi j hj => (hal.meas i hi j hj).1)
        (fun i hi j hj => hal.input i hi j hj) _ fun i hi => ?_
      rw [likelihood_val (S := S) (U := U.toOEMUser) (F := F.toOEMFunctions) (nx := nx) (nu := nu) (np := np) (ny := ny) hA hU.toOEMDenotes
        (by rw [L2, F_L]) a_L hL_out
        ⟨by simp [T, jmeTable], by simp [T, jmeTable], by simp [T, jmeTable], by simp [T, jmeTable]⟩ hlt sxm sp xy xum d hi]
      exact List.sum_singleton
    have htsum : ((List.range (T.reg (OptFun.mk' [P] m.tubeL none)).E.prod).map fun i => (outAt S T q.prob d (OptFun.mk' [P] m.tubeL none) i).sum).sum =
        ∑ i ∈ Finset.range P, tubeDensity U.useOm
          (fun l => F.div (rowAt d 0 nx (i * N' + l)) (rowAt ua.data 0 nu (i * N' + l)) (jmeP P N' nx nw np d))
          (noiseAt U.jtRange (jmeW P N' nx nw d i) N' nw) c.col.K N' nx nw ((diff t.data).getD i 0) := by
      change ((List.range (T.reg (OptFun.mk' [P] tb none)).E.prod).map fun i => (outAt S T q.prob d (OptFun.mk' [P] tb none) i).sum).sum = _
      rw [E_t, List.prod_singleton, list_sum_range]
      exact Finset.sum_congr rfl fun i hi => by rw [o_t i (Finset.mem_range.1 hi)]; exact List.sum_singleton
    rw [List.map_append, List.sum_append]
    simp only [List.map_cons, List.map_nil, List.sum_cons, List.sum_nil, add_zero]
    rw [hLsum, htsum]
    unfold jmeCost
    congr 2
    change (List.map _ extra).sum = _
    cases hp : U.usePenalty with
    | false => rw [ex0 hp]; simp [penaltyWeights]
    | true =>
      obtain ⟨f, w, f1, w1, w2, w3, f2, -, f3, f4⟩ := hFp hp
      obtain ⟨E_p, o_p⟩ := o_p f w hp f1 w1 w2 w3 f2 f3 f4
      rw [ex1 f hp f1]
      simp only [List.map_cons, List.map_nil, List.sum_cons, List.sum_nil, add_zero, penaltyWeights, if_true, w1, Option.map_some, Option.getD_some]
      rw [E_p, List.prod_singleton, list_sum_range]
      exact Finset.sum_congr rfl fun i hi => by rw [o_p i (Finset.mem_range.1 hi)]; exact List.sum_singleton
  · rw [vc, hcon]
    simp only [List.flatMap_cons, List.flatMap_nil, List.append_nil]
    change Except.ok ((List.range (T.reg (OptFun.mk' [P, N', nx] e none)).E.prod).flatMap _) = _
    rw [E_e, List.prod_singleton]
    congr 1
    exact List.flatMap_congr fun i hi => o_e i (List.mem_range.1 hi)

/-- **C70** for joint MAP problems.  From the symbolic methods `f`, `L` of the user, which compute the functions `F`, the constructor of
the model, the generated class and the constructor of the problem lead to a nonlinear program whose objective is the log-posterior of
states, noise and parameters, whose constraints are the collocation defects of the dynamics with noise, and whose derivatives are
right wherever the symbolic derivatives are. -/
theorem C70_jme {A : SymArith X} {ev : X → Env → ℝ} (hA : ArithOK A ev) (U : JMEUser X) (F : JMEFunctions) {xn un pn yn : List String} {N nw : Nat}
    (hU : JMEDenotes A ev U F xn.length un.length pn.length yn.length) (hN : (N : Int) + 1 = U.order) (hN1 : 1 ≤ N)
    (hjt : U.jtRange.length = N + 1 ∧ ∀ r ∈ U.jtRange, r.length = N) {vars : Dict String SymVar}
    (hv : ColVars vars xn un pn) (hy : Dict.get? vars "y" = some (.vec yn)) {Gv : SymVar} (hGv : Dict.get? vars "G" = some Gv)
    (hGs : Gv.shape = [xn.length, nw]) {decision : List String}
    (hd : DecisionOK vars ["x", "p", "xp", "wc"] ["y", "u", "up", "piece_len", "G", "penweight"] decision)
    {iter : String → List String} (hi : OrdersOK iter jmeWrt) (G : NDArray ℝ) (hG : G.WF ∧ G.shape = [xn.length, nw])
    (penweight : Option (NDArray ℝ)) (hw : U.usePenalty = true → ∃ w, penweight = some w ∧ w.WF ∧ w.shape = [xn.length]) :
    ∃ c, symjmeInit A U iter vars decision = .ok c ∧ lglCollocation U.order = .ok c.col ∧
      ∀ codegen : SymFn X → List (NDArray ℝ) → NDArray ℝ,
      (∀ name g, Dict.get? c.model.funcs name = some g → CodegenOK ev (shapeOf c.vars) codegen g) →
      ∃ m s, symjmeGen codegen U G penweight c = .ok m ∧ m.collocationOrder = U.order ∧ m.nx = xn.length ∧ m.nu = un.length ∧
        m.np = pn.length ∧ m.ny = yn.length ∧ m.nw = nw ∧
      ∀ (t : NDArray ℝ) (y : MaskedArray) (u : UArg) (ua : NDArray ℝ) (P : Nat), OEMInput m.toOEMModel t y P → InputsOK m.toOEMModel t u ua →
      ∃ q rows, jmeProblem m t y u = .ok q ∧ MeasuredRows y.mask (P + 1) yn.length rows ∧
      q.prob.ndec = (P * N + 1) * xn.length + P * N * nw + pn.length ∧
      ∀ d : List ℝ, d.length = q.prob.ndec →
        q.prob.obj d = .ok (jmeCost F U.useOm (penaltyWeights U.usePenalty penweight) c.col.J U.jtRange c.col.K (diff t.data) rows y.arr.data ua.data
          G.data P N xn.length un.length nw pn.length yn.length d) ∧
        q.prob.constr d = .ok ((List.range P).flatMap
          (jmeDefects F c.col.J U.jtRange (diff t.data) ua.data G.data P N xn.length un.length nw pn.length d)) ∧
        (SmoothProblem (c.side A ev s) (jmeTable P N xn.length un.length pn.length yn.length nw q.nmeas) q.prob d → DerivativesRight q.prob d) := by
  obtain ⟨c, h1, h2, -, h3⟩ := jme_nlp hA U F hU hN hN1 hjt hv hy hGv hGs hd hi G hG penweight hw
  refine ⟨c, h1, h2, fun codegen hcg => ?_⟩
  obtain ⟨m, s, g1, g2, g3, g4, g5, g6, g7, h4⟩ := h3 codegen hcg
  refine ⟨m, s, g1, g2, g3, g4, g5, g6, g7, fun t y u ua P hin hu => ?_⟩
  obtain ⟨q, rows, q1, q2, q3, -, -, -, q4⟩ := h4 t y u ua P hin hu
  exact ⟨q, rows, q1, q2, q3, q4⟩

end Ceacoest
