import Verif.Lemmas.SymClosed

/-! # C71: all that the generated class looks up is generated -/

namespace Ceacoest
open Spec
variable {X : Type}

open SymModel

/-- **C71.** `add_objective` keeps a model closed, for any function of the model, any names, any differentiation and any number of
derivatives. -/
theorem C71_objective (S : Sym2Num X) {m m' : SymModel X} {fname : String} {order : List String} {k : Nat} (h : m.Closed)
    (hf : ∃ f, Dict.get? m.funcs fname = some f) (he : m.addObjective S fname order k = .ok m') : m'.Closed :=
  (addObjective_closed S h hf he).1

/-- **C71.** `add_constraint` keeps a model closed. -/
theorem C71_constraint (S : Sym2Num X) {m m' : SymModel X} {fname : String} {order : List String} {k : Nat} (h : m.Closed)
    (he : m.addConstraint S fname order k = .ok m') : m'.Closed :=
  (addConstraint_closed S h he).1

/-- **C71.** The generated class of a closed model finds all that it looks up: every objective and every constraint can be made, if all
decision variables are variables of the model. -/
theorem C71_lookup {m : SymModel X} (h : m.Closed) {α : Type} (codegen : SymFn X → List (NDArray α) → NDArray α)
    (hd : ∀ a ∈ m.decision, ∃ s, Dict.get? m.shapes a = some s) :
    (∀ name d, Dict.get? m.objectives name = some d → ∃ g, m.genObjective codegen name = .ok g) ∧
    ∀ name d, Dict.get? m.constraints name = some d → ∃ g, m.genConstraint codegen name = .ok g := by
  obtain ⟨base, hb⟩ : ∃ b, m.baseShapes = .ok b := by
    refine mapM_exists fun a ha => ?_
    obtain ⟨s, hs⟩ := hd a ha
    exact ⟨(a, s), by simp only [Dict.getItem, hs]; rfl⟩
  have hfn : ∀ n ∈ m.generate, ∃ f, m.getFn n = .ok f := fun n hn => by
    obtain ⟨f, hf⟩ := h.functions n hn
    exact ⟨f, by simp only [SymModel.getFn, hf]⟩
  have hsp : ∀ l : Dict (List String) String, (∀ wd ∈ l, m.Sparse wd.2) →
      ∃ r, (l.mapM fun (wd : List String × String) => do return (wd.1, ← m.sparseAttrs codegen wd.2)) = .ok r := fun l hl =>
    mapM_exists fun wd hw => by
      obtain ⟨s, hs⟩ := h.sparseAttrs codegen (hl wd hw)
      exact ⟨_, by rw [hs]; rfl⟩
  constructor
  · intro name d hn
    have ho := h.objectives name d hn
    obtain ⟨f, hf⟩ := hfn _ ho.fn
    obtain ⟨g, hg⟩ : ∃ r, (d.grad.mapM fun (wd : String × String) => do return (wd.1, codegen (← m.getFn wd.2))) = .ok r :=
      mapM_exists fun wd hw => by
        obtain ⟨s, hs⟩ := hfn _ (ho.grad wd hw)
        exact ⟨_, by rw [hs]; rfl⟩
    obtain ⟨hh, hhe⟩ := hsp d.hess ho.hess
    unfold genObjective Dict.getItem
    simp only [hn, hb, hf, py_bind_ok]
    rw [hg, py_bind_ok, hhe]
    exact ⟨_, rfl⟩
  · intro name d hn
    have ho := h.constraints name d hn
    obtain ⟨f, hf⟩ := hfn _ ho.fn
    obtain ⟨g, hg⟩ := hsp d.jac ho.jac
    obtain ⟨hh, hhe⟩ := hsp d.hess ho.hess
    unfold genConstraint Dict.getItem
    simp only [hn, hb, hf, py_bind_ok]
    rw [hg, py_bind_ok, hhe]
    exact ⟨_, rfl⟩

/-! ### The model classes -/

theorem symcolInit_closed {A : SymArith X} {order : Int} {methods : SymMethods X} {iter : String → List String} {vars : Dict String SymVar}
    {decision : List String} {late : Dict String SymVar → Py (Dict String SymVar)} {c : SymClass X} {need : List String} (hf : "f" ∈ need)
    (hm : ∀ col v fs, methods col v = .ok fs → ∀ n ∈ need, ∃ f, Dict.get? fs n = some f)
    (h : symcolInit A order methods iter vars decision late = .ok c) :
    c.model.Closed ∧ ∀ n ∈ need, ∃ f, Dict.get? c.model.funcs n = some f := by
  unfold symcolInit at h
  obtain ⟨col, -, h⟩ := py_bind_eq_ok h
  obtain ⟨v0, -, h⟩ := py_bind_eq_ok h
  obtain ⟨v, -, h⟩ := py_bind_eq_ok h
  obtain ⟨fs, h1, h⟩ := py_bind_eq_ok h
  obtain ⟨m, h2, h⟩ := py_bind_eq_ok h
  obtain rfl := Except.ok.inj h
  obtain ⟨f, hf⟩ := hm _ _ _ h1 "f" hf
  obtain ⟨g1, g2⟩ := add_closed _ (closed_start hf) (by simp) h2
  exact ⟨g1, fun n hn => g2 n (hm _ _ _ h1 n hn)⟩

/-- **C71.** Whatever the methods of the user, the variables and the order of iteration are: if the constructor of an optimal control
model succeeds, then the model is closed. -/
theorem C71_oc {A : SymArith X} {U : OCUser X} {iter : String → List String} {vars : Dict String SymVar} {decision : List String}
    {c : SymClass X} (h : symocInit A U iter vars decision = .ok c) : c.model.Closed := by
  unfold symocInit at h
  obtain ⟨vars', -, h⟩ := py_bind_eq_ok h
  obtain ⟨c0, h0, h⟩ := py_bind_eq_ok h
  obtain ⟨m, hm, h⟩ := py_bind_eq_ok h
  obtain rfl := Except.ok.inj h
  obtain ⟨g1, g2⟩ := symcolInit_closed (need := ["f", "IL", "M"]) (by simp) (fun col v fs he n hn => by
    unfold ocMethods at he
    obtain ⟨nx, -, he⟩ := py_bind_eq_ok he
    obtain ⟨nu, -, he⟩ := py_bind_eq_ok he
    obtain ⟨np, -, he⟩ := py_bind_eq_ok he
    obtain ⟨e, -, he⟩ := py_bind_eq_ok he
    obtain rfl := Except.ok.inj he
    simp only [List.mem_cons, List.not_mem_nil, or_false] at hn
    rcases hn with rfl | rfl | rfl <;> exact ⟨_, rfl⟩) h0
  refine addAll_closed _ g1 (fun c hc ho => ?_) hm
  simp only [List.mem_cons, List.not_mem_nil, or_false] at hc
  rcases hc with rfl | rfl | rfl | rfl
  · exact g2 _ (by simp)
  · exact g2 _ (by simp)
  · cases ho
  · cases ho

theorem symoemInit_closed {A : SymArith X} {order : Int} {methods : SymMethods X} {iter : String → List String} {vars : Dict String SymVar}
    {decision : List String} {late : Dict String SymVar → Py (Dict String SymVar)} {c : SymClass X} {need : List String} (hf : "f" ∈ need)
    (hL : "L" ∈ need) (hm : ∀ col v fs, methods col v = .ok fs → ∀ n ∈ need, ∃ f, Dict.get? fs n = some f)
    (h : symoemInit A order methods iter vars decision late = .ok c) :
    c.model.Closed ∧ ∀ n ∈ need, ∃ f, Dict.get? c.model.funcs n = some f := by
  unfold symoemInit at h
  obtain ⟨c0, h0, h⟩ := py_bind_eq_ok h
  obtain ⟨m, h1, h⟩ := py_bind_eq_ok h
  obtain rfl := Except.ok.inj h
  obtain ⟨g1, g2⟩ := symcolInit_closed hf hm h0
  obtain ⟨g3, g4⟩ := add_closed _ g1 (fun _ => g2 _ hL) h1
  exact ⟨g3, fun n hn => g4 n (g2 n hn)⟩

/-- **C71** for output error models. -/
theorem C71_oem {A : SymArith X} {U : OEMUser X} {iter : String → List String} {vars : Dict String SymVar} {decision : List String}
    {c : SymClass X} (h : symoemInit A U.order (oemMethods A U) iter vars decision = .ok c) : c.model.Closed := by
  refine (symoemInit_closed (need := ["f", "L"]) (by simp) (by simp) (fun col v fs he n hn => ?_) h).1
  unfold oemMethods at he
  obtain ⟨nx, -, he⟩ := py_bind_eq_ok he
  obtain ⟨nu, -, he⟩ := py_bind_eq_ok he
  obtain ⟨np, -, he⟩ := py_bind_eq_ok he
  obtain ⟨ny, -, he⟩ := py_bind_eq_ok he
  obtain ⟨e, -, he⟩ := py_bind_eq_ok he
  obtain rfl := Except.ok.inj he
  simp only [List.mem_cons, List.not_mem_nil, or_false] at hn
  rcases hn with rfl | rfl <;> exact ⟨_, rfl⟩

/-- **C71** for joint MAP models. -/
theorem C71_jme {A : SymArith X} {U : JMEUser X} {iter : String → List String} {vars : Dict String SymVar} {decision : List String}
    {c : SymClass X} (h : symjmeInit A U iter vars decision = .ok c) : c.model.Closed := by
  unfold symjmeInit at h
  obtain ⟨vars', -, h⟩ := py_bind_eq_ok h
  obtain ⟨c0, h0, h⟩ := py_bind_eq_ok h
  obtain ⟨m, hm, h⟩ := py_bind_eq_ok h
  obtain rfl := Except.ok.inj h
  obtain ⟨g1, g2⟩ := symoemInit_closed (need := ["f", "L", "tube_L", "penalty"]) (by simp) (by simp) (fun col v fs he n hn => by
    unfold jmeMethods at he
    obtain ⟨nx, -, he⟩ := py_bind_eq_ok he
    obtain ⟨nu, -, he⟩ := py_bind_eq_ok he
    obtain ⟨np, -, he⟩ := py_bind_eq_ok he
    obtain ⟨ny, -, he⟩ := py_bind_eq_ok he
    obtain ⟨nw, -, he⟩ := py_bind_eq_ok he
    obtain ⟨e, -, he⟩ := py_bind_eq_ok he
    obtain rfl := Except.ok.inj he
    simp only [List.mem_cons, List.not_mem_nil, or_false] at hn
    rcases hn with rfl | rfl | rfl | rfl <;> cases U.useOm <;> exact ⟨_, rfl⟩) h0
  refine addAll_closed _ g1 (fun c hc ho => ?_) hm
  have : c.fname = "tube_L" ∨ c.fname = "penalty" := by
    rcases List.mem_cons.1 hc with rfl | hc
    · exact Or.inl rfl
    · split at hc
      · exact Or.inr (by rw [List.mem_singleton.1 hc])
      · cases hc
  rcases this with h | h <;> rw [h] <;> exact g2 _ (by simp)

private def exClosedS : Sym2Num Int := ⟨fun v => v = 0, fun f wrt => ⟨f.args, [], List.replicate (2 ^ wrt.length * f.out.length) 1⟩⟩
private def exClosed : SymModel Int :=
  ⟨[("x", [2])], ["x"], [("f", ⟨["x"], [2], [5, 6]⟩), ("L", ⟨["x"], [], [7]⟩)], [], [], [], [], ["f"]⟩

/-- The hypotheses are met: a model with an objective and a constraint, whose derivatives are the constant one (so that none is left
out). -/
example : ∃ m', exClosed.addAll exClosedS [⟨false, "f", ["x"]⟩, ⟨true, "L", ["x"]⟩] = .ok m' ∧ m'.Closed ∧
    m'.generate = ["f", "f", "df_dx_val", "d2f_dx2_val", "L", "dL_dx", "d2L_dx2_val"] := by
  obtain ⟨m', h⟩ : ∃ m', exClosed.addAll exClosedS [⟨false, "f", ["x"]⟩, ⟨true, "L", ["x"]⟩] = .ok m' := ⟨_, rfl⟩
  refine ⟨m', h, addAll_closed _ (closed_start (f := ⟨["x"], [2], [5, 6]⟩) rfl) (fun c hc _ => ?_) h, ?_⟩
  · simp only [List.mem_cons, List.not_mem_nil, or_false] at hc
    rcases hc with rfl | rfl <;> exact ⟨_, rfl⟩
  · have := congrArg (fun r => (r : Py (SymModel Int)).toOption.map SymModel.generate) h
    exact (Option.some.inj this).symm

end Ceacoest
