import Verif.Lemmas.SymInit

/-! # The constructor of optimal control models -/

namespace Ceacoest
open Spec RK
variable {X : Type}

/-- The dictionary of the caller after the call. -/
theorem ocVariables_ok {vars : Dict String SymVar} {xn un pn : List String} (h : ColVars vars xn un pn) :
    ∃ v, ocVariables vars = .ok v ∧ ColVars v xn un pn ∧ ∀ n, Dict.get? v n =
      if n = "u" then some (.vec un) else if n = "p" then some (.vec pn) else if n = "xe" then some (.ends xn) else Dict.get? vars n := by
  set v1 := Dict.set vars "xe" (.ends xn) with h1
  set v2 := Dict.setDefault v1 "p" (.vec []) with h2
  set v3 := Dict.setDefault v2 "u" (.vec []) with h3
  have hget : ∀ n, Dict.get? v3 n =
      if n = "u" then some (.vec un) else if n = "p" then some (.vec pn) else if n = "xe" then some (.ends xn) else Dict.get? vars n := by
    intro n
    simp only [h3, h2, h1, Dict.get?_setDefault, Dict.get?_set]
    by_cases a3 : n = "u"
    · subst a3; simp [h.u.getD]
    by_cases a4 : n = "p"
    · subst a4; simp [h.p.getD]
    by_cases a5 : n = "xe"
    · subst a5; simp
    simp [a3, a4, a5, Ne.symm a3, Ne.symm a4, Ne.symm a5]
  refine ⟨v3, ?_, ⟨?_, ?_, Or.inl ?_, Or.inl ?_, fun w hw => ?_⟩, hget⟩
  · unfold ocVariables
    simp only [h.x, vec_elems, py_bind_ok, py_pure, ← h1, ← h2, ← h3]
  · exact Dict.nodup_setDefault (Dict.nodup_setDefault (Dict.nodup_set h.keys _ _) _ _) _ _
  · rw [hget]; simp [h.x]
  · rw [hget]; simp
  · rw [hget]; simp
  · rw [hget] at hw
    exact h.pieceLen w (by simpa using hw)

/-- The variables of an optimal control model. -/
def ocVar (vars : Dict String SymVar) (ncol : Nat) (xn un pn : List String) (n : String) : Option SymVar :=
  if n = "xe" then some (.ends xn) else colVar vars ncol xn un pn n

/-- The decision variables of an optimal control model. -/
def ocDecision (decision : List String) : List String := (["p", "u", "up", "xe"] ∪ decision) ∪ ["x", "xp"]

/-- The defect function: its values for all environments. -/
def DefectFn (ev : X → Env → ℝ) (J : List (List ℝ)) (f : List ℝ → List ℝ → List ℝ → List ℝ) (N nx nu np : Nat) (out : List X) : Prop :=
  out.length = N * nx ∧ ∀ env, out.map (ev · env) = defects J (fun l => f (envRow env "xp" nx l) (envRow env "up" nu l) (envRow env "p" np 0))
    (envRow env "xp" nx) N nx 0 (env "piece_len" 0)

/-- The symbolic functions of an optimal control model, without the defects. -/
def ocFns (A : SymArith X) (U : OCUser X) (col : Collocation ℝ) (nx nu np : Nat) (e : SymFn X) : Dict String (SymFn X) :=
  let x := A.row "x" nx 0
  let u := A.row "u" nu 0
  let p := A.row "p" np 0
  let xe := A.row "xe" (2 * nx) 0
  [("f", .vec ["x", "u", "p"] (U.f x u p)), ("e", e), ("IL", symocIL A col U.L nx nu np),
    ("L", .scalar ["x", "u", "p"] (U.L x u p)), ("M", .scalar ["xe", "p"] (U.M xe p)),
    ("g", .vec ["x", "u", "p"] (U.g x u p)), ("h", .vec ["xe", "p"] (U.h xe p))]

theorem plainFns : ∀ n ∈ ["e", "IL", "M", "g", "h", "L", "tube_L", "penalty"], DerivId.Plain.PlainFn n := by
  unfold DerivId.Plain.PlainFn SepFree
  decide

theorem vec_size (args : List String) (l : List X) : (SymFn.vec args l).out.length = (SymFn.vec args l).outShape.prod := by
  simp [SymFn.vec]

theorem isWrt_of_perm {m : SymModel X} {f : SymFn X} {order l : List String} (h : order.Perm l) (hl : l.Nodup)
    (hm : ∀ a, a ∈ l ↔ a ∈ f.args ∧ a ∈ m.decision) : m.IsWrt f order :=
  ⟨h.nodup_iff.2 hl, fun a => (h.mem_iff).trans (hm a)⟩

theorem plain_of_perm {order l : List String} (h : order.Perm l) (hl : ∀ a ∈ l, DerivId.Plain.PlainVar a) : ∀ a ∈ order, DerivId.Plain.PlainVar a :=
  fun a ha => hl a (h.mem_iff.1 ha)

theorem varLen_vec {v : Dict String SymVar} {n : String} {l : List String} (h : Dict.get? v n = some (.vec l)) : varLen v n = .ok l.length := by
  unfold varLen Dict.getItem
  rw [h]; rfl

set_option maxHeartbeats 1000000 in
/-- The constructor succeeds, and the functions generated from its model meet the contracts. -/
theorem symoc_ok {A : SymArith X} {ev : X → Env → ℝ} (hA : ArithOK A ev) (U : OCUser X) (F : OCFunctions) {xn un pn : List String} {ng nh N : Nat}
    (hU : OCDenotes ev U F xn.length un.length pn.length ng nh) (hN : (N : Int) + 1 = U.order) (hN1 : 1 ≤ N) {vars : Dict String SymVar}
    (hv : ColVars vars xn un pn) {decision : List String}
    (hd : DecisionOK vars ["x", "u", "p", "xp", "up", "xe"] ["piece_len"] decision) {iter : String → List String} (hi : OrdersOK iter ocWrt) :
    ∃ c, symocInit A U iter vars decision = .ok c ∧ lglCollocation U.order = .ok c.col ∧ c.col.J.length = N ∧ c.col.K.length = N + 1 ∧
      c.col.n = N + 1 ∧ c.model.decision = ocDecision decision ∧ c.model.shapes = varShapes c.vars ∧
      (∀ n, Dict.get? c.vars n = ocVar vars (N + 1) xn un pn n) ∧
      ∃ out, DefectFn ev c.col.J F.f N xn.length un.length pn.length out ∧
      symcolE A c.col U.f xn.length un.length pn.length = .ok ⟨["xp", "up", "p", "piece_len"], [N, xn.length], out⟩ ∧
      (∀ n ∈ ["e", "IL", "M", "g", "h"], Dict.get? c.model.funcs n =
        Dict.get? (ocFns A U c.col xn.length un.length pn.length ⟨["xp", "up", "p", "piece_len"], [N, xn.length], out⟩) n) ∧
      ∃ s : SymFn X → Sym, ∀ codegen : SymFn X → List (NDArray ℝ) → NDArray ℝ,
        (∀ name g, Dict.get? c.model.funcs name = some g → CodegenOK ev (shapeOf c.vars) codegen g) →
        ∀ n b, (n, b) ∈ [("e", false), ("IL", true), ("M", true), ("g", false), ("h", false)] →
          ∃ g, (if b then c.model.genObjective codegen n else c.model.genConstraint codegen n) = .ok g ∧ g.name = n ∧
          Meets (A.s2n (shapeOf c.vars)) ev (shapeOf c.vars) c.model.decision ((c.side A ev s).fn n) b g (s ((c.side A ev s).fn n)) := by
  obtain ⟨vars', e1, hv', hget'⟩ := ocVariables_ok hv
  obtain ⟨col, N', hcol, hN', hcn, hci, hJ, hJr, hK⟩ := lgl_lengths (n := U.order) (by omega)
  obtain rfl : N' = N := by omega
  obtain ⟨v, e2, hget⟩ := symcolVars_ok hv' col.n
  have hgv : ∀ n, Dict.get? v n = ocVar vars (N' + 1) xn un pn n := by
    intro n
    rw [hget, hcn, ocVar, colVar, colVar, hget', hget']
    by_cases a1 : n = "up"
    · subst a1; simp
    by_cases a2 : n = "xp"
    · subst a2; simp
    by_cases a3 : n = "u"
    · subst a3; simp
    by_cases a4 : n = "p"
    · subst a4; simp
    by_cases a5 : n = "piece_len"
    · subst a5; simp
    simp [a1, a2, a3, a4, a5]
  have lx : varLen v "x" = .ok xn.length := varLen_vec (by rw [hgv]; simp [ocVar, colVar, hv.x])
  have lu : varLen v "u" = .ok un.length := varLen_vec (by rw [hgv]; simp [ocVar, colVar])
  have lp : varLen v "p" = .ok pn.length := varLen_vec (by rw [hgv]; simp [ocVar, colVar])
  obtain ⟨out, he, hout, hval⟩ := symcolE_ok hA col U.f F.f hcn hJ hJr hU.lenf hU.f
  set e : SymFn X := ⟨["xp", "up", "p", "piece_len"], [N', xn.length], out⟩ with hedef
  set funcs := ocFns A U col xn.length un.length pn.length e with hfuncs
  have hmeth : ocMethods A U col v = .ok funcs := by
    unfold ocMethods
    rw [lx, lu, lp]
    simp only [py_bind_ok]
    rw [he]
    rfl
  set m0 : SymModel X := ⟨varShapes v, ocDecision decision, funcs, [], [], [], [], ["f"]⟩ with hm0
  set calls : List SymCall := [⟨false, "e", iter "e"⟩, ⟨true, "IL", iter "IL"⟩, ⟨true, "M", iter "M"⟩, ⟨false, "g", iter "g"⟩, ⟨false, "h", iter "h"⟩] with hcalls
  set fn : String → SymFn X := fun n => (Dict.get? funcs n).getD ⟨[], [], []⟩ with hfn
  have hdec : ∀ a, a ∈ ocDecision decision ↔ a ∈ ["p", "u", "up", "xe", "x", "xp"] ∨ a ∈ decision := by
    intro a
    simp only [ocDecision, List.mem_union_iff, List.mem_cons, List.not_mem_nil, or_false]
    tauto
  have hpl : "piece_len" ∉ ocDecision decision := by
    rw [hdec]
    rintro (h | h)
    · simp at h
    · exact (hd _ h).1 (by simp)
  have hreg : ∀ a ∈ ocDecision decision, (Dict.get? v a).isSome := by
    intro a ha
    have key : a ∈ ["x", "u", "p", "xp", "up", "xe"] ∨ (Dict.get? vars a).isSome := by
      rcases (hdec a).1 ha with h | h
      · left
        revert h
        simp only [List.mem_cons, List.not_mem_nil, or_false]
        tauto
      · exact (hd a h).2
    rw [hgv]
    unfold ocVar colVar
    split_ifs <;> try rfl
    rcases key with h | h
    · simp only [List.mem_cons, List.not_mem_nil, or_false] at h
      rcases h with rfl | rfl | rfl | rfl | rfl | rfl
      · rw [hv.x]; rfl
      all_goals contradiction
    · exact h
  have o_e := hi ("e", _) (by simp [ocWrt]; rfl)
  have o_IL := hi ("IL", _) (by simp [ocWrt]; rfl)
  have o_M := hi ("M", _) (by simp [ocWrt]; rfl)
  have o_g := hi ("g", _) (by simp [ocWrt]; rfl)
  have o_h := hi ("h", _) (by simp [ocWrt]; rfl)
  have w1 : ∀ a, a ∈ ["xp", "up", "p"] ↔ a ∈ ["xp", "up", "p", "piece_len"] ∧ a ∈ ocDecision decision := by
    intro a
    constructor
    · intro h
      refine ⟨?_, (hdec a).2 (Or.inl ?_)⟩ <;> revert h <;> simp only [List.mem_cons, List.not_mem_nil, or_false] <;> tauto
    · rintro ⟨h1, h2⟩
      simp only [List.mem_cons, List.not_mem_nil, or_false] at h1 ⊢
      rcases h1 with rfl | rfl | rfl | rfl
      · simp
      · simp
      · simp
      · exact absurd h2 hpl
  have w2 : ∀ l : List String, (∀ a ∈ l, a ∈ ["p", "u", "up", "xe", "x", "xp"]) → ∀ a, a ∈ l ↔ a ∈ l ∧ a ∈ ocDecision decision :=
    fun l hl a => ⟨fun h => ⟨h, (hdec a).2 (Or.inl (hl a h))⟩, fun h => h.1⟩
  obtain ⟨m, hm, hmd, hms, hmf, s, hs⟩ := class_generated hA v m0 rfl hreg fn calls (by simp [hcalls]) (by
    intro c hc
    simp only [hcalls, List.mem_cons, List.not_mem_nil, or_false] at hc
    rcases hc with rfl | rfl | rfl | rfl | rfl
    · refine ⟨?_, plain_of_perm o_e ?_, rfl, isWrt_of_perm o_e (by decide) w1, ?_, fun h => by simp at h⟩
      · exact plainFns _ (by simp)
      · unfold DerivId.Plain.PlainVar SepFree; decide
      · change out.length = [N', xn.length].prod
        simp [hout]
    · refine ⟨?_, plain_of_perm o_IL ?_, rfl, isWrt_of_perm o_IL (by decide) w1, rfl, fun _ => rfl⟩
      · exact plainFns _ (by simp)
      · unfold DerivId.Plain.PlainVar SepFree; decide
    · refine ⟨?_, plain_of_perm o_M ?_, rfl, isWrt_of_perm o_M (by decide) (w2 _ (by decide)), rfl, fun _ => rfl⟩
      · exact plainFns _ (by simp)
      · unfold DerivId.Plain.PlainVar SepFree; decide
    · refine ⟨?_, plain_of_perm o_g ?_, rfl, isWrt_of_perm o_g (by decide) (w2 _ (by decide)), ?_, fun h => by simp at h⟩
      · exact plainFns _ (by simp)
      · unfold DerivId.Plain.PlainVar SepFree; decide
      · exact vec_size _ _
    · refine ⟨?_, plain_of_perm o_h ?_, rfl, isWrt_of_perm o_h (by decide) (w2 _ (by decide)), ?_, fun h => by simp at h⟩
      · exact plainFns _ (by simp)
      · unfold DerivId.Plain.PlainVar SepFree; decide
      · exact vec_size _ _)
  have hinit : symocInit A U iter vars decision = .ok ⟨m, v, col⟩ := by
    rw [hcalls, SymModel.addAll, List.foldlM_cons] at hm
    unfold symocInit symcolInit
    simp only [e1, hcol, e2, hmeth, py_bind_ok, py_pure]
    change (do
      let c ← (do let m ← m0.add (A.s2n (shapeOf v)) ⟨false, "e", iter "e"⟩; (Except.ok ⟨m, v, col⟩ : Py (SymClass X)))
      let m ← c.model.addAll (A.s2n (shapeOf c.vars)) _
      Except.ok { c with model := m }) = _
    cases h0 : m0.add (A.s2n (shapeOf v)) ⟨false, "e", iter "e"⟩ with
    | error er => rw [h0] at hm; cases hm
    | ok m1 =>
      rw [h0, py_bind_ok] at hm
      simp only [py_bind_ok]
      change (do let m ← m1.addAll (A.s2n (shapeOf v)) _; (Except.ok ⟨m, v, col⟩ : Py (SymClass X))) = _
      rw [SymModel.addAll, hm]
      rfl
  refine ⟨⟨m, v, col⟩, hinit, hcol, hJ, hK, hcn, hmd, hms, hgv, out, ⟨hout, hval⟩, he, ?_, s, fun codegen hcg n b hnb => ?_⟩
  · intro n hn
    simp only [List.mem_cons, List.not_mem_nil, or_false] at hn
    rcases hn with rfl | rfl | rfl | rfl | rfl
    · exact hmf ⟨false, "e", iter "e"⟩ (by simp [hcalls])
    · exact hmf ⟨true, "IL", iter "IL"⟩ (by simp [hcalls])
    · exact hmf ⟨true, "M", iter "M"⟩ (by simp [hcalls])
    · exact hmf ⟨false, "g", iter "g"⟩ (by simp [hcalls])
    · exact hmf ⟨false, "h", iter "h"⟩ (by simp [hcalls])
  · have hcall : (⟨b, n, iter n⟩ : SymCall) ∈ calls := by
      simp only [List.mem_cons, List.not_mem_nil, or_false, Prod.mk.injEq] at hnb
      rcases hnb with ⟨rfl, rfl⟩ | ⟨rfl, rfl⟩ | ⟨rfl, rfl⟩ | ⟨rfl, rfl⟩ | ⟨rfl, rfl⟩ <;> simp [hcalls]
    obtain ⟨g, g1, g2, g3⟩ := hs codegen hcg _ hcall
    refine ⟨g, g1, g2, ?_⟩
    have : (SymClass.side A ev ⟨m, v, col⟩ s).fn n = fn n := by
      change (Dict.get? m.funcs n).getD _ = _
      rw [hmf _ hcall]; rfl
    rw [this]
    change Meets _ _ _ m.decision _ _ _ _
    rw [hmd]
    exact g3

end Ceacoest
