import Verif.Props.SymClosed
import Verif.Lemmas.SymKeys
import Verif.Lemmas.SymOEM
import Verif.Props.TranscriptionJMEExpr

/-! # C68: the constructors of the symbolic model classes -/

namespace Ceacoest
open Spec RK SymModel
variable {X : Type}

theorem piece_eq (l : List String) (n : Nat) : SymVar.piece l n = pieceSymbols l n := by
  unfold SymVar.piece SymVar.mat pieceSymbols
  congr 1
  refine List.flatMap_congr fun k _ => ?_
  refine List.ext_getElem (by simp) fun i h1 h2 => ?_
  have : i < l.length := by simpa using h2
  simp [this]

theorem ends_eq (l : List String) :
    SymVar.ends l = ⟨[2, l.length], (l.map fun s => s ++ "_initial") ++ l.map fun s => s ++ "_final"⟩ := by
  unfold SymVar.ends SymVar.mat
  congr 1
  rw [show List.range 2 = [0, 1] from rfl]
  simp only [List.flatMap_cons, List.flatMap_nil, List.append_nil]
  congr 1
  · refine List.ext_getElem (by simp) fun i h1 h2 => ?_
    have : i < l.length := by simpa using h2
    simp [this]
  · refine List.ext_getElem (by simp) fun i h1 h2 => ?_
    have : i < l.length := by simpa using h2
    simp [this]

theorem colVar_registered {v vars : Dict String SymVar} {N : Nat} {xn un pn : List String} (hx : Dict.get? vars "x" = some (.vec xn))
    (h : ∀ n ∈ ["x", "u", "p", "xp", "up", "piece_len"], Dict.get? v n = colVar vars (N + 1) xn un pn n) : ColRegistered v vars N xn un pn where
  x := by rw [h _ (by simp)]; simp [colVar, hx]; rfl
  u := by rw [h _ (by simp)]; simp [colVar]; rfl
  p := by rw [h _ (by simp)]; simp [colVar]; rfl
  xp := by rw [h _ (by simp)]; simp [colVar, piece_eq]
  up := by rw [h _ (by simp)]; simp [colVar, piece_eq]
  pieceLen := by rw [h _ (by simp)]; simp [colVar]; rfl

/-- **C68.** The constructor of an optimal control model registers the variables of the user with the defaults, the copies of states and
inputs at the points of a piece and the two end states, with the documented symbols; the decision variables are those of the class and
those of the user; the objectives are `IL` and `M`, the constraints `e`, `g` and `h`. -/
theorem C68_oc {A : SymArith X} {ev : X → Env → ℝ} (hA : ArithOK A ev) (U : OCUser X) (F : OCFunctions) {xn un pn : List String} {ng nh N : Nat}
    (hU : OCDenotes ev U F xn.length un.length pn.length ng nh) (hN : (N : Int) + 1 = U.order) (hN1 : 1 ≤ N) {vars : Dict String SymVar}
    (hv : ColVars vars xn un pn) {decision : List String}
    (hd : DecisionOK vars ["x", "u", "p", "xp", "up", "xe"] ["piece_len"] decision) {iter : String → List String} (hi : OrdersOK iter ocWrt) :
    ∃ c, symocInit A U iter vars decision = .ok c ∧ ColRegistered c.vars vars N xn un pn ∧
      Dict.get? c.vars "xe" = some ⟨[2, xn.length], (xn.map fun s => s ++ "_initial") ++ xn.map fun s => s ++ "_final"⟩ ∧
      (∀ n, n ∉ ["x", "u", "p", "xp", "up", "piece_len", "xe"] → Dict.get? c.vars n = Dict.get? vars n) ∧
      (∀ n, n ∈ c.model.decision ↔ n ∈ ["x", "u", "p", "xp", "up", "xe"] ∨ n ∈ decision) ∧
      BuiltBy c.model ["IL", "M"] ["e", "g", "h"] ∧ c.model.Closed := by
  obtain ⟨c, h1, -, -, -, -, h2, -, h3, -⟩ := symoc_ok hA U F hU hN hN1 hv hd hi
  refine ⟨c, h1, colVar_registered hv.x fun n hn => ?_, ?_, fun n hn => ?_, fun n => ?_, ?_, C71_oc h1⟩
  · rw [h3, ocVar, if_neg]
    rintro rfl
    simp at hn
  · rw [h3, ocVar, if_pos rfl, ends_eq]
  · simp only [List.mem_cons, List.not_mem_nil, or_false, not_or] at hn
    rw [h3]
    simp [ocVar, colVar, hn]
  · rw [h2]
    simp only [ocDecision, List.mem_union_iff, List.mem_cons, List.not_mem_nil, or_false]
    tauto
  · unfold symocInit at h1
    obtain ⟨vars', -, h1⟩ := py_bind_eq_ok h1
    obtain ⟨c0, h0, h1⟩ := py_bind_eq_ok h1
    obtain ⟨m, hm, h1⟩ := py_bind_eq_ok h1
    obtain rfl := Except.ok.inj h1
    exact (symcolInit_builtBy h0).addAll hm

/-- **C68** for output error models. -/
theorem C68_oem {A : SymArith X} {ev : X → Env → ℝ} (hA : ArithOK A ev) (U : OEMUser X) (F : OEMFunctions) {xn un pn yn : List String} {N : Nat}
    (hU : OEMDenotes ev U F xn.length un.length pn.length yn.length) (hN : (N : Int) + 1 = U.order) (hN1 : 1 ≤ N) {vars : Dict String SymVar}
    (hv : ColVars vars xn un pn) (hy : Dict.get? vars "y" = some (.vec yn)) {decision : List String}
    (hd : DecisionOK vars ["x", "p", "xp"] ["y", "u", "up", "piece_len"] decision) {iter : String → List String} (hi : OrdersOK iter oemWrt) :
    ∃ c, symoemInit A U.order (oemMethods A U) iter vars decision = .ok c ∧ ColRegistered c.vars vars N xn un pn ∧
      (∀ n, n ∉ ["x", "u", "p", "xp", "up", "piece_len"] → Dict.get? c.vars n = Dict.get? vars n) ∧
      (∀ n, n ∈ c.model.decision ↔ n ∈ ["x", "p", "xp"] ∨ n ∈ decision) ∧ BuiltBy c.model ["L"] ["e"] ∧ c.model.Closed := by
  obtain ⟨c, h1, -, -, h2, -, h3, -⟩ := symoem_ok hA U F hU hN hN1 hv hy hd hi
  refine ⟨c, h1, colVar_registered hv.x fun n hn => h3 n, fun n hn => ?_, fun n => ?_, ?_, C71_oem h1⟩
  · simp only [List.mem_cons, List.not_mem_nil, or_false, not_or] at hn
    rw [h3]
    simp [colVar, hn]
  · rw [h2]
    simp only [List.mem_union_iff, List.mem_cons, List.not_mem_nil, or_false]
    tauto
  · exact symoemInit_builtBy h1

/-- **C68** for joint MAP models: also the noise coefficients and, with penalty, the weights. -/
theorem C68_jme {A : SymArith X} {ev : X → Env → ℝ} (hA : ArithOK A ev) (U : JMEUser X) (F : JMEFunctions) {xn un pn yn : List String} {N nw : Nat}
    (hU : JMEDenotes A ev U F xn.length un.length pn.length yn.length) (hN : (N : Int) + 1 = U.order) (hN1 : 1 ≤ N)
    (hjt : U.jtRange.length = N + 1 ∧ ∀ r ∈ U.jtRange, r.length = N) {vars : Dict String SymVar}
    (hv : ColVars vars xn un pn) (hy : Dict.get? vars "y" = some (.vec yn)) {Gv : SymVar} (hGv : Dict.get? vars "G" = some Gv)
    (hGs : Gv.shape = [xn.length, nw]) {decision : List String}
    (hd : DecisionOK vars ["x", "p", "xp", "wc"] ["y", "u", "up", "piece_len", "G", "penweight"] decision)
    {iter : String → List String} (hi : OrdersOK iter jmeWrt) :
    ∃ c, symjmeInit A U iter vars decision = .ok c ∧ ColRegistered c.vars vars N xn un pn ∧
      Dict.get? c.vars "wc" = some ⟨[N, nw], (List.range N).flatMap fun i => (List.range nw).map fun j =>
        "wc" ++ toString j ++ "_interv_" ++ toString i⟩ ∧
      (U.usePenalty = true → Dict.get? c.vars "penweight" = some ⟨[xn.length], (List.range xn.length).map fun i => "penweight" ++ toString i⟩) ∧
      (∀ n, n ∉ ["x", "u", "p", "xp", "up", "piece_len", "wc"] → (n = "penweight" → U.usePenalty = false) → Dict.get? c.vars n = Dict.get? vars n) ∧
      (∀ n, n ∈ c.model.decision ↔ n ∈ ["x", "p", "xp", "wc"] ∨ n ∈ decision) ∧
      BuiltBy c.model (if U.usePenalty then ["L", "tube_L", "penalty"] else ["L", "tube_L"]) ["e"] ∧ c.model.Closed := by
  obtain ⟨c, h1, -, -, -, -, -, h2, -, h3, -⟩ := symjme_ok hA U F hU hN hN1 hjt hv hy hGv hGs hd hi
  refine ⟨c, h1, colVar_registered hv.x fun n hn => ?_, ?_, fun hp => ?_, fun n hn hw => ?_, fun n => ?_, ?_, C71_jme h1⟩
  · rw [h3, jmeVar, if_neg, if_neg]
    · rintro rfl; simp at hn
    · rintro ⟨rfl, -⟩; simp at hn
  · rw [h3, jmeVar, if_neg (by simp), if_pos rfl]; rfl
  · rw [h3, jmeVar, if_pos ⟨rfl, hp⟩, SymVar.penweight, SymVar.vec]; simp
  · simp only [List.mem_cons, List.not_mem_nil, or_false, not_or] at hn
    rw [h3, jmeVar, if_neg (fun h => by simp [hw h.1] at h), if_neg hn.2.2.2.2.2.2]
    simp [colVar, hn]
  · rw [h2]
    simp only [List.mem_union_iff, List.mem_cons, List.not_mem_nil, or_false]
    tauto
  · unfold symjmeInit at h1
    obtain ⟨vars', -, h1⟩ := py_bind_eq_ok h1
    obtain ⟨c0, h0, h1⟩ := py_bind_eq_ok h1
    obtain ⟨m, hm, h1⟩ := py_bind_eq_ok h1
    obtain rfl := Except.ok.inj h1
    have := (symoemInit_builtBy h0).addAll hm
    revert this
    cases U.usePenalty <;> exact fun h => h

/-! ### Errors -/

/-- **C68.** Without states, without a noise matrix and for collocation orders below two the constructors raise. -/
theorem C68_rejects {A : SymArith X} (iter : String → List String) (vars : Dict String SymVar) (decision : List String) :
    (∀ U : OCUser X, Dict.get? vars "x" = none → symocInit A U iter vars decision = .error .valueError) ∧
    (∀ (U : OEMUser X), (Dict.keys vars).Nodup → Dict.get? vars "x" = none →
      symoemInit A U.order (oemMethods A U) iter vars decision = .error .valueError) ∧
    (∀ U : JMEUser X, Dict.get? vars "G" = none → symjmeInit A U iter vars decision = .error .keyError) ∧
    (∀ (U : OCUser X) xn un pn, ColVars vars xn un pn → U.order < 2 → symocInit A U iter vars decision = .error .valueError) ∧
    (∀ (U : OEMUser X), U.order < 2 → symoemInit A U.order (oemMethods A U) iter vars decision = .error .valueError) := by
  have hlow : ∀ n : Int, n < 2 → lglCollocation n = .error .valueError := fun n hn => by
    rw [lglCollocation, lglPoints, if_pos hn]; rfl
  refine ⟨fun U hx => ?_, fun U hk hx => ?_, fun U hG => ?_, fun U xn un pn hv ho => ?_, fun U ho => ?_⟩
  · unfold symocInit ocVariables
    rw [hx]; rfl
  · unfold symoemInit symcolInit
    dsimp only
    by_cases ho : U.order < 2
    · rw [hlow _ ho]; rfl
    · obtain ⟨col, N, hcol, -⟩ := lgl_lengths (n := U.order) (by omega)
      rw [hcol]
      have : symcolVars col.n (Dict.setDefault vars "u" (.vec [])) = .error .valueError := by
        unfold symcolVars
        rw [Dict.update_nil_of_nodup (Dict.nodup_setDefault hk _ _)]
        set v3 := Dict.setDefault (Dict.setDefault (Dict.setDefault (Dict.setDefault vars "u" (.vec [])) "piece_len" (.scalar "piece_len"))
          "p" (.vec [])) "u" (.vec []) with h3
        have hu : Dict.getItem v3 "u" = .ok ((Dict.get? vars "u").getD (.vec [])) := by
          unfold Dict.getItem
          simp only [h3, Dict.get?_setDefault]
          simp
        have hx' : Dict.get? v3 "x" = none := by
          simp only [h3, Dict.get?_setDefault]
          simp [hx]
        clear_value v3
        subst h3
        simp only [hu, py_bind_ok, hx', py_bind_error]
      simp only [py_bind_ok, this, py_bind_error]
  · unfold symjmeInit jmeVariables noiseLen Dict.getItem
    rw [hG]; rfl
  · obtain ⟨v, hv', -⟩ := ocVariables_ok hv
    unfold symocInit symcolInit
    rw [hv']
    simp only [py_bind_ok, hlow _ ho, py_bind_error]
  · unfold symoemInit symcolInit
    simp only [hlow _ ho, py_bind_error]

/-! ### The dictionary of the caller -/

theorem set_same {κ α : Type} [DecidableEq κ] {d : Dict κ α} {k : κ} {v : α} (h : Dict.get? d k = some v) : Dict.set d k v = d := by
  induction d with
  | nil => cases h
  | cons a d ih =>
    obtain ⟨ka, va⟩ := a
    rw [Dict.get?_cons] at h
    unfold Dict.set
    by_cases hk : ka = k
    · rw [if_pos hk] at h ⊢
      rw [Option.some.inj h, hk]
    · rw [if_neg hk] at h ⊢
      rw [ih h]

theorem setDefault_same {κ α : Type} [DecidableEq κ] {d : Dict κ α} {k : κ} {v w : α} (h : Dict.get? d k = some w) : Dict.setDefault d k v = d := by
  unfold Dict.setDefault
  rw [h]

/-- **C68.** The constructor of an optimal control model leaves its additions in the dictionary of the caller; everything else stays, and
a second model made from that dictionary is the same. -/
theorem C68_caller_oc {A : SymArith X} (U : OCUser X) (iter : String → List String) (decision : List String) {vars v : Dict String SymVar}
    (h : ocVariables vars = .ok v) :
    (∀ n, n ∉ ["xe", "p", "u"] → Dict.get? v n = Dict.get? vars n) ∧
    (∀ n ∈ ["p", "u"], ∀ w, Dict.get? vars n = some w → Dict.get? v n = some w) ∧
    symocInit A U iter v decision = symocInit A U iter vars decision := by
  have h0 := h
  unfold ocVariables at h
  cases hx' : Dict.get? vars "x" with
  | none => rw [hx'] at h; cases h
  | some x =>
  rw [hx'] at h
  simp only [py_pure, py_bind_ok] at h
  obtain ⟨xn, hxn, h⟩ := py_bind_eq_ok h
  obtain rfl := Except.ok.inj h
  set v := Dict.setDefault (Dict.setDefault (Dict.set vars "xe" (.ends xn)) "p" (.vec [])) "u" (.vec []) with hv
  have hg : ∀ n, Dict.get? v n = if "u" = n then some ((Dict.get? vars "u").getD (.vec [])) else
      if "p" = n then some ((Dict.get? vars "p").getD (.vec [])) else if "xe" = n then some (.ends xn) else Dict.get? vars n := by
    intro n
    simp only [hv, Dict.get?_setDefault, Dict.get?_set]
    simp
  refine ⟨fun n hn => ?_, fun n hn w hw => ?_, ?_⟩
  · simp only [List.mem_cons, List.not_mem_nil, or_false, not_or] at hn
    rw [hg, if_neg (Ne.symm hn.2.2), if_neg (Ne.symm hn.2.1), if_neg (Ne.symm hn.1)]
  · simp only [List.mem_cons, List.not_mem_nil, or_false] at hn
    rw [hg]
    rcases hn with rfl | rfl <;> simp [hw]
  · have : ocVariables v = .ok v := by
      unfold ocVariables
      have e1 : Dict.get? v "x" = some x := by rw [hg]; simp [hx']
      have e2 : Dict.set v "xe" (.ends xn) = v := set_same (by rw [hg]; simp)
      have e3 : Dict.setDefault v "p" (.vec []) = v := setDefault_same (w := (Dict.get? vars "p").getD (.vec [])) (by rw [hg]; simp)
      have e4 : Dict.setDefault v "u" (.vec []) = v := setDefault_same (w := (Dict.get? vars "u").getD (.vec [])) (by rw [hg]; simp)
      rw [e1]
      simp only [py_pure, py_bind_ok, hxn, e2, e3, e4]
    unfold symocInit
    rw [this, h0]

/-- **C68** for joint MAP models: the dictionary then also holds `wc` and the default for `u`. -/
theorem C68_caller_jme {A : SymArith X} (U : JMEUser X) (iter : String → List String) (decision : List String) {vars v1 : Dict String SymVar}
    (h : jmeVariables U.order vars = .ok v1) :
    (∀ n, n ∉ ["wc", "u"] → Dict.get? (Dict.setDefault v1 "u" (.vec [])) n = Dict.get? vars n) ∧
    (∀ w, Dict.get? vars "u" = some w → Dict.get? (Dict.setDefault v1 "u" (.vec [])) "u" = some w) ∧
    symjmeInit A U iter (Dict.setDefault v1 "u" (.vec [])) decision = symjmeInit A U iter vars decision := by
  have h0 := h
  unfold jmeVariables at h
  obtain ⟨nw, hnw, h⟩ := py_bind_eq_ok h
  obtain ⟨col, hcol, h⟩ := py_bind_eq_ok h
  obtain rfl := Except.ok.inj h
  set v := Dict.setDefault (Dict.set vars "wc" (.noise col.ninterv nw)) "u" (.vec []) with hv
  have hg : ∀ n, Dict.get? v n = if "u" = n then some ((Dict.get? vars "u").getD (.vec [])) else
      if "wc" = n then some (.noise col.ninterv nw) else Dict.get? vars n := by
    intro n
    simp only [hv, Dict.get?_setDefault, Dict.get?_set]
    simp
  refine ⟨fun n hn => ?_, fun w hw => ?_, ?_⟩
  · simp only [List.mem_cons, List.not_mem_nil, or_false, not_or] at hn
    rw [hg, if_neg (Ne.symm hn.2), if_neg (Ne.symm hn.1)]
  · rw [hg]; simp [hw]
  · have e1 : jmeVariables U.order v = .ok v := by
      have : noiseLen v = .ok nw := by
        unfold noiseLen Dict.getItem at hnw ⊢
        rw [hg]
        simpa using hnw
      unfold jmeVariables
      rw [this]
      simp only [py_bind_ok, hcol]
      rw [set_same (by rw [hg]; simp)]
      rfl
    have e2 : Dict.setDefault v "u" (.vec []) = v := setDefault_same (w := (Dict.get? vars "u").getD (.vec [])) (by rw [hg]; simp)
    unfold symjmeInit
    rw [e1, h0]
    simp only [py_bind_ok, symoemInit]
    rw [e2]

/-! ### Examples -/

/-- The optimal control model of the pendulum. -/
example : ∃ c, symocInit SExpr.arith Pendulum.user Pendulum.iter Pendulum.vars ["xe", "y"] = .ok c ∧
    Dict.get? c.vars "xe" = some ⟨[2, 2], ["angle_initial", "speed_initial", "angle_final", "speed_final"]⟩ ∧
    (∀ n, n ∈ c.model.decision ↔ n ∈ ["x", "u", "p", "xp", "up", "xe", "y"]) ∧ BuiltBy c.model ["IL", "M"] ["e", "g", "h"] := by
  obtain ⟨c, h, -, h1, -, h2, h3, -⟩ := C68_oc arith_ok Pendulum.user Pendulum.functions (xn := ["angle", "speed"]) (un := ["torque"])
    (pn := ["friction"]) (N := 2) Pendulum.denotes rfl (by decide) Pendulum.vars_ok (decision := ["xe", "y"]) (by unfold DecisionOK; decide)
    Pendulum.iter_ok
  refine ⟨c, h, h1, fun n => ?_, h3⟩
  rw [h2]
  simp only [List.mem_cons, List.not_mem_nil, or_false]
  tauto

/-- The joint MAP model of the pendulum. -/
example : ∃ c, symjmeInit SExpr.arith PendulumId.juser PendulumId.jiter PendulumId.jvars [] = .ok c ∧
    Dict.get? c.vars "wc" = some ⟨[2, 1], ["wc0_interv_0", "wc0_interv_1"]⟩ ∧ Dict.get? c.vars "penweight" = some ⟨[2], ["penweight0", "penweight1"]⟩ ∧
    BuiltBy c.model ["L", "tube_L", "penalty"] ["e"] := by
  obtain ⟨c, h, -, h1, h2, -, -, h3, -⟩ := C68_jme arith_ok PendulumId.juser PendulumId.functions.withDiv (xn := ["angle", "speed"])
    (un := ["torque"]) (pn := ["friction", "precision"]) (yn := ["angle_meas"]) (N := 2) (nw := 1) (denotes_withDiv PendulumId.total.f PendulumId.denotes) rfl (by decide)
    ⟨rfl, by intro r hr; simp only [PendulumId.juser, List.mem_cons, List.not_mem_nil, or_false] at hr; rcases hr with rfl | rfl | rfl <;> rfl⟩
    PendulumId.jvars_ok rfl rfl rfl (decision := []) (by unfold DecisionOK; decide) PendulumId.jiter_ok
  exact ⟨c, h, h1, h2 rfl, h3⟩

/-- The dictionary left behind by the constructor of an optimal control model. -/
example : ∃ v, ocVariables Pendulum.vars = .ok v ∧ Dict.keys v = ["x", "u", "p", "y", "xe"] := ⟨_, rfl, by decide⟩

/-- **C68** (dimensions). The dimensions that generated classes get are the first entries of the shapes: of a matrix the number of its rows. What has no entries has no length, and variables and
functions that the model does not have are errors. The number of noises is the number of columns of `G`. -/
theorem C68_dimensions {A : SymArith X} (v : Dict String SymVar) (m : SymModel X) (n : String) :
    (Dict.get? v n = none → varLen v n = .error .keyError) ∧
    (∀ s names, Dict.get? v n = some ⟨s, names⟩ → (∀ k r, s = k :: r → varLen v n = .ok k) ∧ (s = [] → varLen v n = .error .typeError)) ∧
    (Dict.get? m.funcs n = none → outLen m n = .error .attributeError) ∧
    (∀ f, Dict.get? m.funcs n = some f → (∀ k r, f.outShape = k :: r → outLen m n = .ok k) ∧ (f.outShape = [] → outLen m n = .error .typeError)) ∧
    (∀ s names, Dict.get? v "G" = some ⟨s, names⟩ → (∀ k c r, s = k :: c :: r → noiseLen v = .ok c) ∧ (s.length < 2 → noiseLen v = .error .indexError)) := by
  refine ⟨fun h => ?_, fun s names h => ⟨?_, ?_⟩, fun h => ?_, fun f h => ⟨fun k r hs => ?_, fun hs => ?_⟩, fun s names h => ⟨?_, fun hs => ?_⟩⟩
  · simp [varLen, Dict.getItem, h]
  · rintro k r rfl
    simp [varLen, Dict.getItem, h, SymVar.len]
  · rintro rfl
    simp [varLen, Dict.getItem, h, SymVar.len]
  · simp [outLen, SymModel.getFn, h]
  · simp [outLen, SymModel.getFn, h, hs]
  · simp [outLen, SymModel.getFn, h, hs]
  · rintro k c r rfl
    simp [noiseLen, Dict.getItem, h]
  · match s, hs with
    | [], _ => simp [noiseLen, Dict.getItem, h]
    | [k], _ => simp [noiseLen, Dict.getItem, h]

/-- A matrix with two rows and three columns. -/
example : varLen [("G", .mat 2 3 fun i j => toString i ++ toString j)] "G" = .ok 2 ∧ noiseLen [("G", .mat 2 3 fun i j => toString i ++ toString j)] = .ok 3 ∧
    varLen [("t", .scalar "t")] "t" = .error .typeError := ⟨rfl, rfl, rfl⟩

end Ceacoest
