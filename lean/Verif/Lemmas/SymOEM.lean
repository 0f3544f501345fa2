import Verif.Lemmas.SymOC
import Verif.Lemmas.SymJME

/-! # The constructors of output error and joint MAP models -/

namespace Ceacoest
open Spec RK
variable {X : Type}

theorem wrt_of {l args own excluded dec : List String} (h1 : ∀ a ∈ l, a ∈ args) (h2 : ∀ a ∈ l, a ∈ own) (h3 : ∀ a ∈ args, a ∉ l → a ∈ excluded)
    (ho : ∀ a ∈ own, a ∈ dec) (he : ∀ a ∈ excluded, a ∉ dec) : ∀ a, a ∈ l ↔ a ∈ args ∧ a ∈ dec := by
  intro a
  refine ⟨fun h => ⟨h1 a h, ho a (h2 a h)⟩, fun ⟨h, hd⟩ => ?_⟩
  by_contra hl
  exact he a (h3 a h hl) hd

/-- The default for `u` in the dictionary of the caller. -/
theorem setDefault_u {vars : Dict String SymVar} {xn un pn : List String} (h : ColVars vars xn un pn) :
    ColVars (Dict.setDefault vars "u" (.vec [])) xn un pn ∧
    ∀ n, Dict.get? (Dict.setDefault vars "u" (.vec [])) n = if n = "u" then some (.vec un) else Dict.get? vars n := by
  have hg : ∀ n, Dict.get? (Dict.setDefault vars "u" (.vec [])) n = if n = "u" then some (.vec un) else Dict.get? vars n := by
    intro n
    rw [Dict.get?_setDefault]
    by_cases hn : n = "u"
    · subst hn; simp [h.u.getD]
    · simp [hn, Ne.symm hn]
  refine ⟨⟨Dict.nodup_setDefault h.keys _ _, ?_, Or.inl ?_, ?_, fun v hv => ?_⟩, hg⟩
  · rw [hg]; simp [h.x]
  · rw [hg]; simp
  · rcases h.p with hp | ⟨hp, h0⟩
    · exact Or.inl (by rw [hg]; simp [hp])
    · exact Or.inr ⟨by rw [hg]; simp [hp], h0⟩
  · rw [hg] at hv
    exact h.pieceLen v (by simpa using hv)

theorem colVar_setDefault {vars : Dict String SymVar} {xn un pn : List String} (h : ColVars vars xn un pn) (ncol : Nat) (n : String) :
    colVar (Dict.setDefault vars "u" (.vec [])) ncol xn un pn n = colVar vars ncol xn un pn n := by
  have hg := (setDefault_u h).2
  unfold colVar
  rw [hg, hg]
  by_cases hu : n = "u"
  · subst hu; simp
  · simp [hu]

/-- The model before the first call. -/
def oemStart (v : Dict String SymVar) (funcs : Dict String (SymFn X)) (decision : List String) : SymModel X :=
  ⟨varShapes v, (decision ∪ ["p"]) ∪ ["x", "xp"], funcs, [], [], [], [], ["f"]⟩

theorem symoemInit_eq {A : SymArith X} {order : Int} {methods : SymMethods X} {iter : String → List String} {vars v0 v : Dict String SymVar}
    {decision : List String} {late : Dict String SymVar → Py (Dict String SymVar)} {col : Collocation ℝ} {funcs : Dict String (SymFn X)}
    (hcol : lglCollocation order = .ok col) (hv0 : symcolVars col.n (Dict.setDefault vars "u" (.vec [])) = .ok v0) (hl : late v0 = .ok v)
    (hm : methods col v = .ok funcs) :
    symoemInit A order methods iter vars decision late = (do
      let m ← (oemStart v funcs decision).addAll (A.s2n (shapeOf v)) [⟨false, "e", iter "e"⟩, ⟨true, "L", iter "L"⟩]
      return ⟨m, v, col⟩) := by
  unfold symoemInit symcolInit
  simp only [hcol, hv0, hl, hm, py_bind_ok, py_pure]
  change (do
      let c ← (do let m ← (oemStart v funcs decision).add (A.s2n (shapeOf v)) ⟨false, "e", iter "e"⟩; (Except.ok ⟨m, v, col⟩ : Py (SymClass X)))
      let m ← c.model.add (A.s2n (shapeOf c.vars)) ⟨true, "L", iter "L"⟩
      Except.ok { c with model := m }) = _
  rw [SymModel.addAll, List.foldlM_cons]
  cases (oemStart v funcs decision).add (A.s2n (shapeOf v)) ⟨false, "e", iter "e"⟩ with
  | error er => rfl
  | ok m1 =>
    simp only [py_bind_ok]
    rw [List.foldlM_cons]
    change (do let m ← m1.add (A.s2n (shapeOf v)) _; (Except.ok ⟨m, v, col⟩ : Py (SymClass X))) = _
    cases m1.add (A.s2n (shapeOf v)) ⟨true, "L", iter "L"⟩ with
    | error er => rfl
    | ok m2 => rfl

/-- The symbolic functions of an output error model. -/
def oemFns (A : SymArith X) (U : OEMUser X) (nx nu np ny : Nat) (e : SymFn X) : Dict String (SymFn X) :=
  let x := A.row "x" nx 0
  let u := A.row "u" nu 0
  let p := A.row "p" np 0
  [("f", .vec ["x", "u", "p"] (U.f x u p)), ("e", e), ("L", .scalar ["y", "x", "u", "p"] (U.L (A.row "y" ny 0) x u p))]

set_option maxHeartbeats 1000000 in
theorem symoem_ok {A : SymArith X} {ev : X → Env → ℝ} (hA : ArithOK A ev) (U : OEMUser X) (F : OEMFunctions) {xn un pn yn : List String} {N : Nat}
    (hU : OEMDenotes ev U F xn.length un.length pn.length yn.length) (hN : (N : Int) + 1 = U.order) (hN1 : 1 ≤ N) {vars : Dict String SymVar}
    (hv : ColVars vars xn un pn) (hy : Dict.get? vars "y" = some (.vec yn)) {decision : List String}
    (hd : DecisionOK vars ["x", "p", "xp"] ["y", "u", "up", "piece_len"] decision) {iter : String → List String} (hi : OrdersOK iter oemWrt) :
    ∃ c, symoemInit A U.order (oemMethods A U) iter vars decision = .ok c ∧ lglCollocation U.order = .ok c.col ∧ c.col.J.length = N ∧
      c.model.decision = (decision ∪ ["p"]) ∪ ["x", "xp"] ∧ c.model.shapes = varShapes c.vars ∧
      (∀ n, Dict.get? c.vars n = colVar vars (N + 1) xn un pn n) ∧
      ∃ out, DefectFn ev c.col.J F.f N xn.length un.length pn.length out ∧
      symcolE A c.col U.f xn.length un.length pn.length = .ok ⟨["xp", "up", "p", "piece_len"], [N, xn.length], out⟩ ∧
      (∀ n ∈ ["e", "L"], Dict.get? c.model.funcs n =
        Dict.get? (oemFns A U xn.length un.length pn.length yn.length ⟨["xp", "up", "p", "piece_len"], [N, xn.length], out⟩) n) ∧
      ∃ s : SymFn X → Sym, ∀ codegen : SymFn X → List (NDArray ℝ) → NDArray ℝ,
        (∀ name g, Dict.get? c.model.funcs name = some g → CodegenOK ev (shapeOf c.vars) codegen g) →
        ∀ n b, (n, b) ∈ [("e", false), ("L", true)] →
          ∃ g, (if b then c.model.genObjective codegen n else c.model.genConstraint codegen n) = .ok g ∧ g.name = n ∧
          Meets (A.s2n (shapeOf c.vars)) ev (shapeOf c.vars) c.model.decision ((c.side A ev s).fn n) b g (s ((c.side A ev s).fn n)) := by
  obtain ⟨col, N', hcol, hN', hcn, hci, hJ, hJr, hK⟩ := lgl_lengths (n := U.order) (by omega)
  obtain rfl : N' = N := by omega
  obtain ⟨v, e2, hget⟩ := symcolVars_ok (setDefault_u hv).1 col.n
  have hgv : ∀ n, Dict.get? v n = colVar vars (N' + 1) xn un pn n := by
    intro n; rw [hget, colVar_setDefault hv, hcn]
  have lx : varLen v "x" = .ok xn.length := varLen_vec (by rw [hgv]; simp [colVar, hv.x])
  have lu : varLen v "u" = .ok un.length := varLen_vec (by rw [hgv]; simp [colVar])
  have lp : varLen v "p" = .ok pn.length := varLen_vec (by rw [hgv]; simp [colVar])
  have ly : varLen v "y" = .ok yn.length := varLen_vec (by rw [hgv]; simp [colVar, hy])
  obtain ⟨out, he, hout, hval⟩ := symcolE_ok hA col U.f F.f hcn hJ hJr hU.lenf hU.f
  set e : SymFn X := ⟨["xp", "up", "p", "piece_len"], [N', xn.length], out⟩ with hedef
  set funcs := oemFns A U xn.length un.length pn.length yn.length e with hfuncs
  have hmeth : oemMethods A U col v = .ok funcs := by
    unfold oemMethods
    rw [lx, lu, lp, ly]
    simp only [py_bind_ok]
    rw [he]
    rfl
  set calls : List SymCall := [⟨false, "e", iter "e"⟩, ⟨true, "L", iter "L"⟩] with hcalls
  set fn : String → SymFn X := fun n => (Dict.get? funcs n).getD ⟨[], [], []⟩ with hfn
  have hdec : ∀ a, a ∈ (oemStart v funcs decision).decision ↔ a ∈ ["p", "x", "xp"] ∨ a ∈ decision := by
    intro a
    simp only [oemStart, List.mem_union_iff, List.mem_cons, List.not_mem_nil, or_false]
    tauto
  have hown : ∀ a ∈ ["p", "x", "xp"], a ∈ (oemStart v funcs decision).decision := fun a ha => (hdec a).2 (Or.inl ha)
  have hexc : ∀ a ∈ ["y", "u", "up", "piece_len"], a ∉ (oemStart v funcs decision).decision := by
    intro a ha h
    rcases (hdec a).1 h with h | h
    · revert ha h
      simp only [List.mem_cons, List.not_mem_nil, or_false]
      rintro (rfl | rfl | rfl | rfl) h <;> simp at h
    · exact (hd a h).1 ha
  have hreg : ∀ a ∈ (oemStart v funcs decision).decision, (Dict.get? v a).isSome := by
    intro a ha
    have key : a ∈ ["x", "p", "xp"] ∨ (Dict.get? vars a).isSome := by
      rcases (hdec a).1 ha with h | h
      · left
        revert h
        simp only [List.mem_cons, List.not_mem_nil, or_false]
        tauto
      · exact (hd a h).2
    rw [hgv]
    unfold colVar
    split_ifs <;> try rfl
    rcases key with h | h
    · simp only [List.mem_cons, List.not_mem_nil, or_false] at h
      rcases h with rfl | rfl | rfl
      · rw [hv.x]; rfl
      all_goals contradiction
    · exact h
  have o_e := hi ("e", _) (by simp [oemWrt]; rfl)
  have o_L := hi ("L", _) (by simp [oemWrt]; rfl)
  obtain ⟨m, hm, hmd, hms, hmf, s, hs⟩ := class_generated hA v (oemStart v funcs decision) rfl hreg fn calls (by simp [hcalls]) (by
    intro c hc
    simp only [hcalls, List.mem_cons, List.not_mem_nil, or_false] at hc
    rcases hc with rfl | rfl
    · refine ⟨plainFns _ (by simp), plain_of_perm o_e ?_, rfl, isWrt_of_perm o_e (by decide)
        (wrt_of (args := ["xp", "up", "p", "piece_len"]) (by decide) (by decide) (by decide) hown hexc), ?_, fun h => by simp at h⟩
      · unfold DerivId.Plain.PlainVar SepFree; decide
      · change out.length = [N', xn.length].prod
        simp [hout]
    · refine ⟨plainFns _ (by simp), plain_of_perm o_L ?_, rfl, isWrt_of_perm o_L (by decide)
        (wrt_of (args := ["y", "x", "u", "p"]) (by decide) (by decide) (by decide) hown hexc), rfl, fun _ => rfl⟩
      unfold DerivId.Plain.PlainVar SepFree; decide)
  have hinit : symoemInit A U.order (oemMethods A U) iter vars decision = .ok ⟨m, v, col⟩ := by
    rw [symoemInit_eq (late := pure) hcol e2 rfl hmeth, hm]
    rfl
  refine ⟨⟨m, v, col⟩, hinit, hcol, hJ, hmd, hms, hgv, out, ⟨hout, hval⟩, he, ?_, s, fun codegen hcg n b hnb => ?_⟩
  · intro n hn
    simp only [List.mem_cons, List.not_mem_nil, or_false] at hn
    rcases hn with rfl | rfl
    · exact hmf ⟨false, "e", iter "e"⟩ (by simp [hcalls])
    · exact hmf ⟨true, "L", iter "L"⟩ (by simp [hcalls])
  · have hcall : (⟨b, n, iter n⟩ : SymCall) ∈ calls := by
      simp only [List.mem_cons, List.not_mem_nil, or_false, Prod.mk.injEq] at hnb
      rcases hnb with ⟨rfl, rfl⟩ | ⟨rfl, rfl⟩ <;> simp [hcalls]
    obtain ⟨g, g1, g2, g3⟩ := hs codegen hcg _ hcall
    refine ⟨g, g1, g2, ?_⟩
    have : (SymClass.side A ev ⟨m, v, col⟩ s).fn n = fn n := by
      change (Dict.get? m.funcs n).getD _ = _
      rw [hmf _ hcall]; rfl
    rw [this]
    change Meets _ _ _ m.decision _ _ _ _
    rw [hmd]
    exact g3

/-! ### Joint MAP models -/

/-- The variables of a joint MAP model. -/
def jmeVar (vars : Dict String SymVar) (usePenalty : Bool) (N nw : Nat) (xn un pn : List String) (n : String) : Option SymVar :=
  if n = "penweight" ∧ usePenalty = true then some (.penweight xn.length) else
  if n = "wc" then some (.noise N nw) else colVar vars (N + 1) xn un pn n

/-- The symbolic functions of a joint MAP model. -/
noncomputable def jmeFns (A : SymArith X) (U : JMEUser X) (col : Collocation ℝ) (shape : String → List Nat) (nx nu np ny nw : Nat) (e : SymFn X) :
    Dict String (SymFn X) :=
  let x := A.row "x" nx 0
  let u := A.row "u" nu 0
  let p := A.row "p" np 0
  let f : SymFn X := .vec ["x", "u", "p"] (U.f x u p)
  let dfdx := A.deriv shape f ["x"]
  [("f", f), ("e", e), ("L", .scalar ["y", "x", "u", "p"] (U.L (A.row "y" ny 0) x u p))] ++
    (if U.useOm then [("df_dx", dfdx)] else []) ++
    [("tube_L", symjmeTubeL A col U.jtRange U.useOm dfdx nx nu np nw), ("penalty", symjmePenalty A e col.ninterv nx)]

/-- The defect function of a joint MAP model: its values for all environments. -/
def JDefectFn (ev : X → Env → ℝ) (J jt : List (List ℝ)) (f : List ℝ → List ℝ → List ℝ → List ℝ) (N nx nu np nw : Nat) (out : List X) : Prop :=
  out.length = N * nx ∧ ∀ env, out.map (ev · env) =
    defects J (fun l => noisyRhs (f (envRow env "xp" nx l) (envRow env "up" nu l) (envRow env "p" np 0))
      (noiseAt jt (envRow env "wc" nw) N nw l) (envRow env "G" nw) nx nw) (envRow env "xp" nx) N nx 0 (env "piece_len" 0)

/-- The names of the functions that a joint MAP model generates, and whether they are objectives. -/
def jmeGenerated (usePenalty : Bool) : List (String × Bool) :=
  [("e", false), ("L", true), ("tube_L", true)] ++ if usePenalty then [("penalty", true)] else []

theorem addAll_append (S : Sym2Num X) (m : SymModel X) (l l' : List SymCall) : m.addAll S (l ++ l') = m.addAll S l >>= fun m => m.addAll S l' := by
  simp only [SymModel.addAll, List.foldlM_append]

set_option maxHeartbeats 1000000 in
theorem symjme_ok {A : SymArith X} {ev : X → Env → ℝ} (hA : ArithOK A ev) (U : JMEUser X) (F : JMEFunctions) {xn un pn yn : List String} {N nw : Nat}
    (hU : JMEDenotes A ev U F xn.length un.length pn.length yn.length) (hN : (N : Int) + 1 = U.order) (hN1 : 1 ≤ N)
    (hjt : U.jtRange.length = N + 1 ∧ ∀ r ∈ U.jtRange, r.length = N) {vars : Dict String SymVar}
    (hv : ColVars vars xn un pn) (hy : Dict.get? vars "y" = some (.vec yn)) {G : SymVar} (hG : Dict.get? vars "G" = some G)
    (hGs : G.shape = [xn.length, nw]) {decision : List String}
    (hd : DecisionOK vars ["x", "p", "xp", "wc"] ["y", "u", "up", "piece_len", "G", "penweight"] decision)
    {iter : String → List String} (hi : OrdersOK iter jmeWrt) :
    ∃ c, symjmeInit A U iter vars decision = .ok c ∧ lglCollocation U.order = .ok c.col ∧ c.col.J.length = N ∧ c.col.K.length = N + 1 ∧
      c.col.n = N + 1 ∧ c.col.ninterv = N ∧
      c.model.decision = (decision ∪ ["wc"] ∪ ["p"]) ∪ ["x", "xp"] ∧ c.model.shapes = varShapes c.vars ∧
      (∀ n, Dict.get? c.vars n = jmeVar vars U.usePenalty N nw xn un pn n) ∧
      ∃ out, JDefectFn ev c.col.J U.jtRange F.f N xn.length un.length pn.length nw out ∧
      symjmeE A c.col U.jtRange U.f xn.length un.length pn.length nw = .ok ⟨["xp", "up", "p", "piece_len", "wc", "G"], [N, xn.length], out⟩ ∧
      (∀ nb ∈ jmeGenerated U.usePenalty, Dict.get? c.model.funcs nb.1 =
        Dict.get? (jmeFns A U c.col (shapeOf c.vars) xn.length un.length pn.length yn.length nw
          ⟨["xp", "up", "p", "piece_len", "wc", "G"], [N, xn.length], out⟩) nb.1) ∧
      ∃ s : SymFn X → Sym, ∀ codegen : SymFn X → List (NDArray ℝ) → NDArray ℝ,
        (∀ name g, Dict.get? c.model.funcs name = some g → CodegenOK ev (shapeOf c.vars) codegen g) →
        ∀ n b, (n, b) ∈ jmeGenerated U.usePenalty →
          ∃ g, (if b then c.model.genObjective codegen n else c.model.genConstraint codegen n) = .ok g ∧ g.name = n ∧
          Meets (A.s2n (shapeOf c.vars)) ev (shapeOf c.vars) c.model.decision ((c.side A ev s).fn n) b g (s ((c.side A ev s).fn n)) := by
  obtain ⟨col, N', hcol, hN', hcn, hci, hJ, hJr, hK⟩ := lgl_lengths (n := U.order) (by omega)
  obtain rfl : N' = N := by omega
  set vars1 := Dict.set vars "wc" (.noise N' nw) with hvars1
  have e1 : jmeVariables U.order vars = .ok vars1 := by
    unfold jmeVariables noiseLen Dict.getItem
    rw [hG]
    simp only [py_bind_ok, hGs, hcol, py_pure, hci, hvars1]
  have hg1 : ∀ n, Dict.get? vars1 n = if n = "wc" then some (.noise N' nw) else Dict.get? vars n := by
    intro n
    rw [hvars1, Dict.get?_set]
    by_cases hn : n = "wc"
    · subst hn; simp
    · simp [hn, Ne.symm hn]
  have hv1 : ColVars vars1 xn un pn := by
    refine ⟨Dict.nodup_set hv.keys _ _, by rw [hg1]; simp [hv.x], ?_, ?_, fun w hw => hv.pieceLen w (by rw [hg1] at hw; simpa using hw)⟩
    · rcases hv.u with h | ⟨h, h0⟩
      · exact Or.inl (by rw [hg1]; simp [h])
      · exact Or.inr ⟨by rw [hg1]; simp [h], h0⟩
    · rcases hv.p with h | ⟨h, h0⟩
      · exact Or.inl (by rw [hg1]; simp [h])
      · exact Or.inr ⟨by rw [hg1]; simp [h], h0⟩
  obtain ⟨v0, e2, hget⟩ := symcolVars_ok (setDefault_u hv1).1 col.n
  have hgv0 : ∀ n, Dict.get? v0 n = if n = "wc" then some (.noise N' nw) else colVar vars (N' + 1) xn un pn n := by
    intro n
    rw [hget, colVar_setDefault hv1, hcn]
    unfold colVar
    rw [hg1, hg1]
    by_cases hn : n = "wc"
    · subst hn; simp
    · simp [hn]
  have lx0 : varLen v0 "x" = .ok xn.length := varLen_vec (by rw [hgv0]; simp [colVar, hv.x])
  obtain ⟨v, e3, hgv⟩ : ∃ v, jmeLate U v0 = .ok v ∧ ∀ n, Dict.get? v n = jmeVar vars U.usePenalty N' nw xn un pn n := by
    unfold jmeLate
    cases hp : U.usePenalty with
    | false => exact ⟨v0, rfl, fun n => by rw [hgv0]; simp [jmeVar]⟩
    | true =>
      simp only [if_true, lx0, py_bind_ok, py_pure]
      refine ⟨_, rfl, fun n => ?_⟩
      rw [Dict.get?_set, hgv0]
      by_cases hn : n = "penweight"
      · subst hn; simp [jmeVar]
      · simp [jmeVar, hn, Ne.symm hn]
  have lx : varLen v "x" = .ok xn.length := varLen_vec (by rw [hgv]; simp [jmeVar, colVar, hv.x])
  have lu : varLen v "u" = .ok un.length := varLen_vec (by rw [hgv]; simp [jmeVar, colVar])
  have lp : varLen v "p" = .ok pn.length := varLen_vec (by rw [hgv]; simp [jmeVar, colVar])
  have ly : varLen v "y" = .ok yn.length := varLen_vec (by rw [hgv]; simp [jmeVar, colVar, hy])
  have lw : noiseLen v = .ok nw := by
    unfold noiseLen Dict.getItem
    rw [hgv]
    simp [jmeVar, colVar, hG, hGs]
  obtain ⟨out, he, hout, hval⟩ := symjmeE_ok hA col U.jtRange U.f F.f (nw := nw) hcn hci hJ hJr hjt.1 hjt.2 hU.lenf hU.f
  set e : SymFn X := ⟨["xp", "up", "p", "piece_len", "wc", "G"], [N', xn.length], out⟩ with hedef
  set funcs := jmeFns A U col (shapeOf v) xn.length un.length pn.length yn.length nw e with hfuncs
  have hmeth : jmeMethods A U col v = .ok funcs := by
    unfold jmeMethods
    rw [lx, lu, lp, ly, lw]
    simp only [py_bind_ok]
    rw [he]
    rfl
  have hftube : ∃ d, Dict.get? funcs "tube_L" = some (symjmeTubeL A col U.jtRange U.useOm d xn.length un.length pn.length nw) := by
    rw [hfuncs, jmeFns]
    cases U.useOm <;> exact ⟨_, rfl⟩
  have hfpen : Dict.get? funcs "penalty" = some (symjmePenalty A e col.ninterv xn.length) := by
    rw [hfuncs, jmeFns]
    cases U.useOm <;> rfl
  have hfe : Dict.get? funcs "e" = some e := rfl
  have hfL : Dict.get? funcs "L" = some (.scalar ["y", "x", "u", "p"] (U.L (A.row "y" yn.length 0) (A.row "x" xn.length 0) (A.row "u" un.length 0)
    (A.row "p" pn.length 0))) := rfl
  set calls : List SymCall := [⟨false, "e", iter "e"⟩, ⟨true, "L", iter "L"⟩] ++
    (⟨true, "tube_L", iter "tube_L"⟩ :: if U.usePenalty then [⟨true, "penalty", iter "penalty"⟩] else []) with hcalls
  set fn : String → SymFn X := fun n => (Dict.get? funcs n).getD ⟨[], [], []⟩ with hfn
  set m0 := oemStart v funcs (decision ∪ ["wc"]) with hm0
  have hdec : ∀ a, a ∈ m0.decision ↔ a ∈ ["p", "x", "xp", "wc"] ∨ a ∈ decision := by
    intro a
    simp only [hm0, oemStart, List.mem_union_iff, List.mem_cons, List.not_mem_nil, or_false]
    tauto
  have hown : ∀ a ∈ ["p", "x", "xp", "wc"], a ∈ m0.decision := fun a ha => (hdec a).2 (Or.inl ha)
  have hexc : ∀ a ∈ ["y", "u", "up", "piece_len", "G", "penweight"], a ∉ m0.decision := by
    intro a ha h
    rcases (hdec a).1 h with h | h
    · revert ha h
      simp only [List.mem_cons, List.not_mem_nil, or_false]
      rintro (rfl | rfl | rfl | rfl | rfl | rfl) h <;> simp at h
    · exact (hd a h).1 ha
  have hreg : ∀ a ∈ m0.decision, (Dict.get? v a).isSome := by
    intro a ha
    have key : a ∈ ["x", "p", "xp", "wc"] ∨ (Dict.get? vars a).isSome := by
      rcases (hdec a).1 ha with h | h
      · left
        revert h
        simp only [List.mem_cons, List.not_mem_nil, or_false]
        tauto
      · exact (hd a h).2
    rw [hgv]
    unfold jmeVar colVar
    split_ifs <;> try rfl
    rcases key with h | h
    · simp only [List.mem_cons, List.not_mem_nil, or_false] at h
      rcases h with rfl | rfl | rfl | rfl
      · rw [hv.x]; rfl
      all_goals contradiction
    · exact h
  have o_e := hi ("e", _) (by simp [jmeWrt]; rfl)
  have o_L := hi ("L", _) (by simp [jmeWrt]; rfl)
  have o_t := hi ("tube_L", _) (by simp [jmeWrt]; rfl)
  have o_p := hi ("penalty", _) (by simp [jmeWrt]; rfl)
  have plain : ∀ a ∈ ["xp", "p", "wc", "x"], DerivId.Plain.PlainVar a := by
    unfold DerivId.Plain.PlainVar SepFree; decide
  obtain ⟨m, hm, hmd, hms, hmf, s, hs⟩ := class_generated hA v m0 rfl hreg fn calls (by
      rw [hcalls]
      cases U.usePenalty <;> simp) (by
    intro c hc
    have hc' : c = ⟨false, "e", iter "e"⟩ ∨ c = ⟨true, "L", iter "L"⟩ ∨ c = ⟨true, "tube_L", iter "tube_L"⟩ ∨ c = ⟨true, "penalty", iter "penalty"⟩ := by
      rw [hcalls] at hc
      revert hc
      cases U.usePenalty <;> simp <;> tauto
    rcases hc' with rfl | rfl | rfl | rfl
    · refine ⟨plainFns _ (by simp), plain_of_perm o_e fun a ha => plain a (by revert a; decide), rfl, isWrt_of_perm o_e (by decide)
        (wrt_of (args := ["xp", "up", "p", "piece_len", "wc", "G"]) (by decide) (by decide) (by decide) hown hexc), ?_, fun h => by simp at h⟩
      change out.length = [N', xn.length].prod
      simp [hout]
    · exact ⟨plainFns _ (by simp), plain_of_perm o_L fun a ha => plain a (by revert a; decide), rfl, isWrt_of_perm o_L (by decide)
        (wrt_of (args := ["y", "x", "u", "p"]) (by decide) (by decide) (by decide) hown hexc), rfl, fun _ => rfl⟩
    · obtain ⟨d, hd'⟩ := hftube
      have : fn "tube_L" = symjmeTubeL A col U.jtRange U.useOm d xn.length un.length pn.length nw := by simp only [hfn]; rw [hd']; rfl
      refine ⟨plainFns _ (by simp), plain_of_perm o_t fun a ha => plain a (by revert a; decide), by rw [this]; exact hd', ?_, ?_, ?_⟩
      · refine isWrt_of_perm o_t (by decide) ?_
        rw [this]
        exact wrt_of (args := ["xp", "up", "p", "piece_len", "wc"]) (by decide) (by decide) (by decide) hown hexc
      · rw [this]; rfl
      · rw [this]; exact fun _ => rfl
    · have : fn "penalty" = symjmePenalty A e col.ninterv xn.length := by simp only [hfn]; rw [hfpen]; rfl
      refine ⟨plainFns _ (by simp), plain_of_perm o_p fun a ha => plain a (by revert a; decide), by rw [this]; exact hfpen, ?_, ?_, ?_⟩
      · refine isWrt_of_perm o_p (by decide) ?_
        rw [this]
        exact wrt_of (args := ["xp", "up", "p", "piece_len", "wc", "G", "penweight"]) (by decide) (by decide) (by decide) hown hexc
      · rw [this]; rfl
      · rw [this]; exact fun _ => rfl)
  have hinit : symjmeInit A U iter vars decision = .ok ⟨m, v, col⟩ := by
    unfold symjmeInit
    rw [e1, py_bind_ok]
    simp only []
    rw [symoemInit_eq hcol e2 e3 hmeth, ← hm0]
    rw [hcalls, addAll_append] at hm
    cases h0 : m0.addAll (A.s2n (shapeOf v)) [⟨false, "e", iter "e"⟩, ⟨true, "L", iter "L"⟩] with
    | error er => rw [h0] at hm; cases hm
    | ok m1 =>
      rw [h0, py_bind_ok] at hm
      simp only [py_bind_ok, py_pure, hm]
  have hmem : ∀ n b, (n, b) ∈ jmeGenerated U.usePenalty → (⟨b, n, iter n⟩ : SymCall) ∈ calls := by
    intro n b hnb
    rw [hcalls]
    revert hnb
    unfold jmeGenerated
    cases U.usePenalty
    · simp only [Bool.false_eq_true, if_false, List.append_nil, List.mem_cons, List.not_mem_nil, or_false, Prod.mk.injEq]
      rintro (⟨rfl, rfl⟩ | ⟨rfl, rfl⟩ | ⟨rfl, rfl⟩) <;> simp
    · simp only [if_true, List.mem_append, List.mem_cons, List.not_mem_nil, or_false, Prod.mk.injEq]
      rintro ((⟨rfl, rfl⟩ | ⟨rfl, rfl⟩ | ⟨rfl, rfl⟩) | ⟨rfl, rfl⟩) <;> simp
  refine ⟨⟨m, v, col⟩, hinit, hcol, hJ, hK, hcn, hci, hmd, hms, hgv, out, ⟨hout, hval⟩, he, ?_, s, fun codegen hcg n b hnb => ?_⟩
  · rintro ⟨n, b⟩ hn
    have := hmf _ (hmem n b hn)
    refine this.trans ?_
    change some (fn n) = Dict.get? funcs n
    have : (Dict.get? funcs n).isSome := by
      obtain ⟨d, hd'⟩ := hftube
      unfold jmeGenerated at hn
      revert hn
      cases U.usePenalty
      · simp only [Bool.false_eq_true, if_false, List.append_nil, List.mem_cons, List.not_mem_nil, or_false, Prod.mk.injEq]
        rintro (⟨rfl, rfl⟩ | ⟨rfl, rfl⟩ | ⟨rfl, rfl⟩) <;> simp [hfe, hfL, hd']
      · simp only [if_true, List.mem_append, List.mem_cons, List.not_mem_nil, or_false, Prod.mk.injEq]
        rintro ((⟨rfl, rfl⟩ | ⟨rfl, rfl⟩ | ⟨rfl, rfl⟩) | ⟨rfl, rfl⟩) <;> simp [hfe, hfL, hd', hfpen]
    obtain ⟨w, hw⟩ := Option.isSome_iff_exists.1 this
    simp only [hfn]
    rw [hw]; rfl
  · have hcall := hmem n b hnb
    obtain ⟨g, g1, g2, g3⟩ := hs codegen hcg _ hcall
    refine ⟨g, g1, g2, ?_⟩
    have : (SymClass.side A ev ⟨m, v, col⟩ s).fn n = fn n := by
      change (Dict.get? m.funcs n).getD _ = _
      rw [hmf _ hcall]; rfl
    rw [this]
    change Meets _ _ _ m.decision _ _ _ _
    rw [hmd]
    exact g3

end Ceacoest
