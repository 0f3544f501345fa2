import Verif.Model.GenMeta
import Verif.Props.SymClosed

/-! # C121: the classes that `optimization_meta` makes, and what deriving from them does -/

namespace Ceacoest
namespace GenMeta
variable {α X : Type}

theorem getattr_set {c : Cls α} (hc : c ≠ []) (n k : String) (a : Attr α) : (c.setattr n a).getattr k = if k = n then .ok a else c.getattr k := by
  obtain ⟨d, r, rfl⟩ := List.exists_cons_of_ne_nil hc
  unfold Cls.setattr Cls.getattr
  rw [List.findSome?_cons, List.findSome?_cons, Dict.get?_set]
  by_cases h : k = n
  · subst h
    simp
  · have h' : ¬ n = k := fun e => h e.symm
    simp [h, h']

/-- What one of the two loops does. -/
theorem register_all (kind : Kind) (l : List (String × Desc)) {c : Cls α} (hc : c ≠ []) (hn : (l.map Prod.fst).Nodup)
    (h : ∀ nd ∈ l, ∃ a, c.getattr nd.1 = .ok a ∧ a.callable = true) :
    ∃ c', l.foldlM (register kind) c = .ok c' ∧ c' ≠ [] ∧ c'.tail = c.tail ∧ (∀ nd ∈ l, ∀ a, c.getattr nd.1 = .ok a → c'.getattr nd.1 = .ok (.fclass kind nd.1 a nd.2)) ∧
      ∀ k, k ∉ l.map Prod.fst → c'.getattr k = c.getattr k := by
  induction l generalizing c with
  | nil => exact ⟨c, rfl, hc, rfl, by simp, fun _ _ => rfl⟩
  | cons nd l ih =>
    obtain ⟨a, ha, hcall⟩ := h nd (by simp)
    rw [List.map_cons, List.nodup_cons] at hn
    have hc1 : c.setattr nd.1 (.fclass kind nd.1 a nd.2) ≠ [] := by
      obtain ⟨d, r, rfl⟩ := List.exists_cons_of_ne_nil hc
      exact List.cons_ne_nil _ _
    have hne : ∀ md ∈ l, md.1 ≠ nd.1 := fun md hmd e => hn.1 (List.mem_map.2 ⟨md, hmd, e⟩)
    have hstep : register kind c nd = .ok (c.setattr nd.1 (.fclass kind nd.1 a nd.2)) := by
      unfold register functionClass
      rw [ha, py_bind_ok, if_pos hcall]
      rfl
    obtain ⟨c', e1, e2, e3, e4, e5⟩ := ih hc1 hn.2 fun md hmd => by
      rw [getattr_set hc, if_neg (hne md hmd)]
      exact h md (by simp [hmd])
    refine ⟨c', ?_, e2, ?_, fun md hmd b hb => ?_, fun k hk => ?_⟩
    · rw [List.foldlM_cons, hstep, py_bind_ok, e1]
    · rw [e3]
      obtain ⟨d, r, rfl⟩ := List.exists_cons_of_ne_nil hc
      rfl
    · rcases List.mem_cons.1 hmd with rfl | hmd
      · rw [e5 _ hn.1, getattr_set hc, if_pos rfl, Except.ok.inj (ha.symm.trans hb)]
      · exact e4 md hmd b (by rw [getattr_set hc, if_neg (hne md hmd), hb])
    · simp only [List.map_cons, List.mem_cons, not_or] at hk
      rw [e5 k hk.2, getattr_set hc, if_neg hk.1]

/-- **C121** (generation). With distinct names whose methods can be called, in the class or in its bases, the class of functions of each registered name has the method that was found, and nothing else
changes, neither in the class nor in its bases. -/
theorem C121_class {bases : Cls α} {dict : Dict String (Attr α)} {con obj : List (String × Desc)} (hbase : ∃ a, Cls.getattr (dict :: bases) "base_shapes" = .ok a)
    (hn : ((con ++ obj).map Prod.fst).Nodup) (h : ∀ nd ∈ con ++ obj, ∃ a, Cls.getattr (dict :: bases) nd.1 = .ok a ∧ a.callable = true) :
    ∃ c, optimizationMeta bases dict con obj = .ok c ∧ c.tail = bases ∧
      (∀ nd ∈ con, ∀ a, Cls.getattr (dict :: bases) nd.1 = .ok a → c.getattr nd.1 = .ok (.fclass .constraint nd.1 a nd.2)) ∧
      (∀ nd ∈ obj, ∀ a, Cls.getattr (dict :: bases) nd.1 = .ok a → c.getattr nd.1 = .ok (.fclass .objective nd.1 a nd.2)) ∧
      ∀ k, k ∉ (con ++ obj).map Prod.fst → c.getattr k = Cls.getattr (dict :: bases) k := by
  rw [List.map_append, List.nodup_append] at hn
  obtain ⟨hn1, hn2, hn3⟩ := hn
  have hdis : ∀ nd ∈ obj, nd.1 ∉ con.map Prod.fst := fun nd hnd hm => hn3 _ hm _ (List.mem_map_of_mem hnd) rfl
  have hdis' : ∀ nd ∈ con, nd.1 ∉ obj.map Prod.fst := fun nd hnd hm => hn3 _ (List.mem_map_of_mem hnd) _ hm rfl
  obtain ⟨c1, e1, e2, e3, e4, e5⟩ := register_all .constraint con (c := dict :: bases) (List.cons_ne_nil _ _) hn1 fun nd hnd => h nd (by simp [hnd])
  obtain ⟨c2, f1, f2, f3, f4, f5⟩ := register_all .objective obj e2 hn2 fun nd hnd => by
    rw [e5 _ (hdis nd hnd)]
    exact h nd (by simp [hnd])
  obtain ⟨b, hb⟩ := hbase
  refine ⟨c2, ?_, by rw [f3, e3]; rfl, fun nd hnd a ha => ?_, fun nd hnd a ha => ?_, fun k hk => ?_⟩
  · unfold optimizationMeta
    dsimp only
    rw [hb, py_bind_ok, e1, py_bind_ok, f1]
  · rw [f5 _ (hdis' nd hnd), e4 nd hnd a ha]
  · exact f4 nd hnd a (by rw [e5 _ (hdis nd hnd), ha])
  · rw [List.map_append, List.mem_append, not_or] at hk
    rw [f5 k hk.2, e5 k hk.1]

/-- **C121** (errors). Without `base_shapes`, or with a registered name that neither the class nor a base has, AttributeError; with a registered name that is not callable, TypeError. -/
theorem C121_errors {bases : Cls α} {dict : Dict String (Attr α)} {con obj : List (String × Desc)} :
    ((∀ d ∈ dict :: bases, Dict.get? d "base_shapes" = none) → optimizationMeta bases dict con obj = .error .attributeError) ∧
    ((∃ a, Cls.getattr (dict :: bases) "base_shapes" = .ok a) → ∀ l1 nd l2, con = l1 ++ nd :: l2 → ((l1 ++ [nd]).map Prod.fst).Nodup →
      (∀ md ∈ l1, ∃ a, Cls.getattr (dict :: bases) md.1 = .ok a ∧ a.callable = true) →
      ((∀ d ∈ dict :: bases, Dict.get? d nd.1 = none) → optimizationMeta bases dict con obj = .error .attributeError) ∧
      (∀ a, Cls.getattr (dict :: bases) nd.1 = .ok a → a.callable = false → optimizationMeta bases dict con obj = .error .typeError)) := by
  have none_of : ∀ k, (∀ d ∈ dict :: bases, Dict.get? d k = none) → Cls.getattr (dict :: bases) k = .error .attributeError := fun k hk => by
    unfold Cls.getattr
    rw [List.findSome?_eq_none_iff.2 hk]
  refine ⟨fun h => ?_, ?_⟩
  · unfold optimizationMeta
    dsimp only
    rw [none_of _ h]
    rfl
  · rintro ⟨b, hb⟩ l1 nd l2 rfl hn hl
    rw [List.map_append, List.nodup_append] at hn
    obtain ⟨c1, e1, e2, e3, e4, e5⟩ := register_all .constraint l1 (c := dict :: bases) (List.cons_ne_nil _ _) hn.1 hl
    have hnd : nd.1 ∉ l1.map Prod.fst := fun hm => hn.2.2 _ hm _ (by simp) rfl
    have key : ∀ e, register .constraint c1 nd = .error e → optimizationMeta bases dict (l1 ++ nd :: l2) obj = .error e := fun e he => by
      unfold optimizationMeta
      dsimp only
      rw [hb, py_bind_ok, List.foldlM_append, e1, py_bind_ok, List.foldlM_cons, he]
      rfl
    refine ⟨fun h => key _ ?_, fun a ha hcall => key _ ?_⟩
    · unfold register
      rw [e5 _ hnd, none_of _ h]
      rfl
    · unfold register functionClass
      rw [e5 _ hnd, ha, py_bind_ok, hcall]
      rfl

/-- **C121** (one name, twice). A name registered both as constraint and as objective becomes an objective whose method is the class of the constraint: called with arguments it raises TypeError, and
without it returns no number. -/
theorem C121_both {bases : Cls α} {dict : Dict String (Attr α)} {con obj : List (String × Desc)} (hbase : ∃ a, Cls.getattr (dict :: bases) "base_shapes" = .ok a)
    (hn : (con.map Prod.fst).Nodup) (hn' : (obj.map Prod.fst).Nodup) (h : ∀ nd ∈ con ++ obj, ∃ a, Cls.getattr (dict :: bases) nd.1 = .ok a ∧ a.callable = true)
    {n : String} {d d' : Desc} (hc : (n, d) ∈ con) (ho : (n, d') ∈ obj) :
    ∃ c, optimizationMeta bases dict con obj = .ok c ∧ ∀ dct, Dict.get? dct n = none →
      ∃ g, (Obj.mk dct c).getattr n = .ok g ∧ (∀ args, args ≠ [] → g.call args = .error .typeError) ∧ g.call [] = .ok .object ∧ (Obj.mk dct c).function n = .error .typeError := by
  obtain ⟨c1, e1, e2, e3, e4, e5⟩ := register_all .constraint con (c := dict :: bases) (List.cons_ne_nil _ _) hn fun nd hnd => h nd (by simp [hnd])
  obtain ⟨c2, f1, f2, f3, f4, f5⟩ := register_all .objective obj e2 hn' fun nd hnd => by
    by_cases hm : nd.1 ∈ con.map Prod.fst
    · obtain ⟨md, hmd, e⟩ := List.mem_map.1 hm
      obtain ⟨a, ha, -⟩ := h md (by simp [hmd])
      exact ⟨_, by rw [← e]; exact e4 md hmd a ha, rfl⟩
    · rw [e5 _ hm]
      exact h nd (by simp [hnd])
  obtain ⟨b, hb⟩ := hbase
  obtain ⟨a, ha, -⟩ := h (n, d) (by simp [hc])
  have hat := f4 _ ho _ (e4 _ hc a ha)
  dsimp only at hat
  refine ⟨c2, ?_, fun dct hdct => ⟨.fobj .objective n (.fclass .constraint n a d) d', ?_, fun args hargs => ?_, rfl, ?_⟩⟩
  · unfold optimizationMeta
    dsimp only
    rw [hb, py_bind_ok, e1, py_bind_ok, f1]
  · unfold Obj.getattr
    dsimp only
    rw [hdct]
    dsimp only
    rw [hat]
    rfl
  · unfold Got.call
    dsimp only
    rw [if_neg hargs]
  · unfold Obj.function Obj.getattr
    dsimp only
    rw [hdct]
    dsimp only
    rw [hat]
    rfl

/-! ### Derived classes and entries of objects -/

/-- The names under which the functions of description `d` read attributes of the model. -/
def Reads (d : Desc) (k : String) : Prop :=
  k = "base_shapes" ∨ (∃ wd ∈ d.grad, k = wd.2) ∨ ∃ wd ∈ d.jac ++ d.hess, k = wd.2 ++ "_nnz" ∨ k = wd.2 ++ "_ind" ∨ k = wd.2 ++ "_val"

theorem sparse_congr {o o' : Obj α} {n : String} (h1 : o'.getattr (n ++ "_nnz") = o.getattr (n ++ "_nnz")) (h2 : o'.getattr (n ++ "_ind") = o.getattr (n ++ "_ind"))
    (h3 : o'.getattr (n ++ "_val") = o.getattr (n ++ "_val")) : o'.sparse n = o.sparse n := by
  unfold Obj.sparse
  rw [h1, h2, h3]

theorem listM_congr {A B : Type} {f g : A → Py B} {l : List A} (h : ∀ a ∈ l, f a = g a) : l.mapM f = l.mapM g := by
  induction l with
  | nil => rfl
  | cons a l ih => rw [List.mapM_cons, List.mapM_cons, h a (by simp), ih fun b hb => h b (by simp [hb])]

/-- A function is known from the attributes it reads. -/
theorem function_congr {o o' : Obj α} {n : String} (h : o'.getattr n = o.getattr n)
    (hr : ∀ kind nm m d, o.getattr n = .ok (.fobj kind nm m d) → ∀ k, Reads d k → o'.getattr k = o.getattr k) : o'.function n = o.function n := by
  unfold Obj.function
  rw [h]
  refine py_bind_congr fun g hg => ?_
  split
  · next kind nm ps b d =>
    have hk := hr kind nm _ d hg
    rw [hk "base_shapes" (Or.inl rfl),
      listM_congr (l := d.grad) (f := fun (wd : String × String) => do return (wd.1, ← o'.dense wd.2)) (g := fun (wd : String × String) => do return (wd.1, ← o.dense wd.2)) fun wd hwd => by
        unfold Obj.dense
        rw [hk wd.2 (Or.inr (Or.inl ⟨wd, hwd, rfl⟩))],
      listM_congr (l := d.jac) (f := fun (wd : List String × String) => do return (wd.1, ← o'.sparse wd.2)) (g := fun (wd : List String × String) => do return (wd.1, ← o.sparse wd.2)) fun wd hwd => by
        have hm : wd ∈ d.jac ++ d.hess := by simp [hwd]
        rw [sparse_congr (hk _ (Or.inr (Or.inr ⟨wd, hm, Or.inl rfl⟩))) (hk _ (Or.inr (Or.inr ⟨wd, hm, Or.inr (Or.inl rfl)⟩))) (hk _ (Or.inr (Or.inr ⟨wd, hm, Or.inr (Or.inr rfl)⟩)))],
      listM_congr (l := d.hess) (f := fun (wd : List String × String) => do return (wd.1, ← o'.sparse wd.2)) (g := fun (wd : List String × String) => do return (wd.1, ← o.sparse wd.2)) fun wd hwd => by
        have hm : wd ∈ d.jac ++ d.hess := by simp [hwd]
        rw [sparse_congr (hk _ (Or.inr (Or.inr ⟨wd, hm, Or.inl rfl⟩))) (hk _ (Or.inr (Or.inr ⟨wd, hm, Or.inr (Or.inl rfl)⟩))) (hk _ (Or.inr (Or.inr ⟨wd, hm, Or.inr (Or.inr rfl)⟩)))]]
  · rfl
  · rfl

theorem derived_getattr {dct own : Dict String (Attr α)} {c : Cls α} {k : String} (h : Dict.get? own k = none) : (Obj.mk dct (derive own c)).getattr k = (Obj.mk dct c).getattr k := by
  unfold Obj.getattr Cls.getattr derive
  dsimp only
  rw [List.findSome?_cons, h]

/-- **C121** (derived classes). A derived class has the function with all its derivatives, if it has none of the names that the function reads. If it has a method of the name of a registered function,
objects have that method, without derivatives: what optimization problems read of it raises AttributeError. -/
theorem C121_derived (dct own : Dict String (Attr α)) (c : Cls α) (n : String) :
    (Dict.get? own n = none → (∀ kind nm m d, (Obj.mk dct c).getattr n = .ok (.fobj kind nm m d) → ∀ k, Reads d k → Dict.get? own k = none) →
      (Obj.mk dct (derive own c)).function n = (Obj.mk dct c).function n) ∧
    (∀ ps b, Dict.get? own n = some (.func ps b) → Dict.get? dct n = none →
      (∀ args, args.length + 1 = ps.length → ((Obj.mk dct (derive own c)).getattr n >>= Got.call args) = .ok (.array (b args))) ∧
      (Obj.mk dct (derive own c)).function n = .error .attributeError) := by
  refine ⟨fun h hr => function_congr (derived_getattr h) fun kind nm m d hg k hk => derived_getattr (hr kind nm m d hg k hk), fun ps b h hd => ?_⟩
  have hg : (Obj.mk dct (derive own c)).getattr n = .ok (.bound ps b) := by
    unfold Obj.getattr Cls.getattr derive
    dsimp only
    rw [hd, List.findSome?_cons, h]
    rfl
  refine ⟨fun args ha => ?_, ?_⟩
  · rw [hg, py_bind_ok]
    unfold Got.call
    dsimp only
    rw [if_pos ha.symm]
  · unfold Obj.function
    rw [hg]
    rfl

/-- **C121** (objects). An entry of the object hides a registered function, and what problems read of it raises AttributeError; other entries change no function that does not read them. -/
theorem C121_object (dct : Dict String (Attr α)) (c : Cls α) (n k : String) (a : Attr α) :
    (Obj.mk (Dict.set dct n a) c).getattr n = .ok (.value a) ∧ (Obj.mk (Dict.set dct n a) c).function n = .error .attributeError ∧
    (k ≠ n → (∀ kind nm m d, (Obj.mk dct c).getattr n = .ok (.fobj kind nm m d) → ¬ Reads d k) → (Obj.mk (Dict.set dct k a) c).function n = (Obj.mk dct c).function n) := by
  have self : ∀ n, (Obj.mk (Dict.set dct n a) c).getattr n = .ok (.value a) := fun n => by
    unfold Obj.getattr
    dsimp only
    rw [Dict.get?_set]
    simp
  have other : ∀ {j}, k ≠ j → (Obj.mk (Dict.set dct k a) c).getattr j = (Obj.mk dct c).getattr j := fun {j} hj => by
    unfold Obj.getattr
    dsimp only
    rw [Dict.get?_set]
    simp [hj]
  refine ⟨self n, ?_, fun hk hr => function_congr (other hk) fun kind nm m d hg j hj => other ?_⟩
  · unfold Obj.function
    rw [self]
    rfl
  · rintro rfl
    exact hr kind nm m d hg hj

theorem suffix_ne (a b : String) : a ++ "_val" ≠ b ++ "_nnz" ∧ a ++ "_val" ≠ b ++ "_ind" := by
  constructor <;>
  · intro h
    have h := congrArg (fun s : String => s.toList.getLast?) h
    simp [String.toList_append, List.getLast?_append] at h

/-- **C121** (derivatives are read from the model). A derived class that has the values of one derivative changes these values and nothing else. -/
theorem C121_override (dct : Dict String (Attr α)) (c : Cls α) (dname : String) (ps : List String) (b : List (NDArray α) → NDArray α) (hd : Dict.get? dct (dname ++ "_val") = none)
    {s : SparseDeriv α} (hs : (Obj.mk dct c).sparse dname = .ok s) :
    (Obj.mk dct (derive [(dname ++ "_val", .func ps b)] c)).sparse dname = .ok { s with val := b } ∧
    ∀ e, e ≠ dname → (Obj.mk dct (derive [(dname ++ "_val", .func ps b)] c)).sparse e = (Obj.mk dct c).sparse e := by
  have other : ∀ {k}, k ≠ dname ++ "_val" → (Obj.mk dct (derive [(dname ++ "_val", .func ps b)] c)).getattr k = (Obj.mk dct c).getattr k := fun {k} hk => by
    refine derived_getattr ?_
    rw [Dict.get?_cons]
    simp [hk.symm]
  refine ⟨?_, fun e he => sparse_congr (other (suffix_ne dname e).1.symm) (other (suffix_ne dname e).2.symm) (other fun h => he ?_)⟩
  · unfold Obj.sparse at hs ⊢
    rw [other (suffix_ne dname dname).1.symm, other (suffix_ne dname dname).2.symm]
    obtain ⟨g1, h1, hs⟩ := py_bind_eq_ok hs
    obtain ⟨n1, h2, hs⟩ := py_bind_eq_ok hs
    obtain ⟨g2, h3, hs⟩ := py_bind_eq_ok hs
    obtain ⟨n2, h4, hs⟩ := py_bind_eq_ok hs
    obtain ⟨g3, h5, hs⟩ := py_bind_eq_ok hs
    obtain ⟨n3, h6, hs⟩ := py_bind_eq_ok hs
    cases hs
    have hg : (Obj.mk dct (derive [(dname ++ "_val", .func ps b)] c)).getattr (dname ++ "_val") = .ok (.bound ps b) := by
      unfold Obj.getattr Cls.getattr derive
      dsimp only
      rw [hd, List.findSome?_cons, Dict.get?_cons, if_pos rfl]
      rfl
    rw [h1, py_bind_ok, h2, py_bind_ok, h3, py_bind_ok, h4, py_bind_ok, hg]
    rfl
  · exact String.append_left_inj _ |>.1 h

/-! ### The class of a symbolic model -/

/-- The body of the class generated from a model: its functions and the assignments of symoptim.py:44-56, none of which hides another. -/
structure HasBody (codegen : SymFn X → List (NDArray α) → NDArray α) (m : SymModel X) (dict : Dict String (Attr α)) : Prop where
  fn : ∀ n ∈ m.generate, ∀ f, Dict.get? m.funcs n = some f → Dict.get? dict n = some (.func ("self" :: f.args) (codegen f))
  nnz : ∀ d k, Dict.get? m.sparseNnz d = some k → Dict.get? dict (d ++ "_nnz") = some (.nnz k)
  ind : ∀ d i, Dict.get? m.sparseNzind d = some i → Dict.get? dict (d ++ "_ind") = some (.ind i)
  base : ∀ b, m.baseShapes = .ok b → Dict.get? dict "base_shapes" = some (.shapes b)

/-- The items of the two dictionaries of descriptions. -/
def conItems (m : SymModel X) : List (String × Desc) := m.constraints.map fun nd => (nd.1, ofCon nd.2)
/-- Those of objectives. -/
def objItems (m : SymModel X) : List (String × Desc) := m.objectives.map fun nd => (nd.1, ofObj nd.2)

theorem getattr_own {bases : Cls α} {dict : Dict String (Attr α)} {k : String} {a : Attr α} (h : Dict.get? dict k = some a) : Cls.getattr (dict :: bases) k = .ok a := by
  unfold Cls.getattr
  rw [List.findSome?_cons, h]

theorem obj_getattr {c : Cls α} {k : String} {a : Attr α} (h : c.getattr k = .ok a) :
    (Obj.mk [] c).getattr k = .ok a.got := by
  unfold Obj.getattr
  dsimp only
  rw [Dict.get?_nil]
  dsimp only
  rw [h]
  rfl

/-- **C121** (from the symbolic model). The class that `optimization_meta` makes of the body generated from a model has, through the attributes of its objects, exactly the functions and derivatives that
`Model.SymOptim` says, whatever its bases, if no function is registered under a name that other functions read. -/
theorem C121_generated {m : SymModel X} (hm : m.Closed) {codegen : SymFn X → List (NDArray α) → NDArray α} {dict : Dict String (Attr α)} (hb : HasBody codegen m dict) (bases : Cls α)
    (hd : ∀ a ∈ m.decision, ∃ s, Dict.get? m.shapes a = some s) (hn : ((conItems m ++ objItems m).map Prod.fst).Nodup)
    (hr : ∀ nd ∈ conItems m ++ objItems m, ∀ k, Reads nd.2 k → k ∉ (conItems m ++ objItems m).map Prod.fst) :
    ∃ c, optimizationMeta bases dict (conItems m) (objItems m) = .ok c ∧ (∀ n d, (n, d) ∈ m.constraints → (Obj.mk [] c).function n = m.genConstraint codegen n) ∧
      ∀ n d, (n, d) ∈ m.objectives → (Obj.mk [] c).function n = m.genObjective codegen n := by
  obtain ⟨base, hbase⟩ : ∃ b, m.baseShapes = .ok b := by
    refine mapM_exists fun a ha => ?_
    obtain ⟨s, hs⟩ := hd a ha
    exact ⟨(a, s), by simp only [Dict.getItem, hs]; rfl⟩
  rw [List.map_append, List.nodup_append] at hn
  have hnc : (Dict.keys m.constraints).Nodup := by
    have := hn.1
    rwa [conItems, List.map_map] at this
  have hno : (Dict.keys m.objectives).Nodup := by
    have := hn.2.1
    rwa [objItems, List.map_map] at this
  have gc : ∀ n d, (n, d) ∈ m.constraints → Dict.get? m.constraints n = some d := fun n d h => Dict.get?_of_mem hnc h
  have go : ∀ n d, (n, d) ∈ m.objectives → Dict.get? m.objectives n = some d := fun n d h => Dict.get?_of_mem hno h
  have own : ∀ n ∈ m.generate, ∃ f, Dict.get? m.funcs n = some f ∧ Cls.getattr (dict :: bases) n = .ok (.func ("self" :: f.args) (codegen f)) := fun n hg => by
    obtain ⟨f, hf⟩ := hm.functions n hg
    exact ⟨f, hf, getattr_own (hb.fn n hg f hf)⟩
  obtain ⟨c, h1, -, h2, h3, h4⟩ := C121_class (bases := bases) (dict := dict) (con := conItems m) (obj := objItems m) ⟨_, getattr_own (hb.base _ hbase)⟩
    (by rw [List.map_append, List.nodup_append]; exact hn) fun nd hnd => by
      rcases List.mem_append.1 hnd with hnd | hnd
      · obtain ⟨⟨n, d⟩, hmem, rfl⟩ := List.mem_map.1 hnd
        obtain ⟨f, -, hf⟩ := own n (hm.constraints n d (gc n d hmem)).fn
        exact ⟨_, hf, rfl⟩
      · obtain ⟨⟨n, d⟩, hmem, rfl⟩ := List.mem_map.1 hnd
        obtain ⟨f, -, hf⟩ := own n (hm.objectives n d (go n d hmem)).fn
        exact ⟨_, hf, rfl⟩
  have read : ∀ nd ∈ conItems m ++ objItems m, ∀ k, Reads nd.2 k → ∀ a, Cls.getattr (dict :: bases) k = .ok a →
      (Obj.mk [] c).getattr k = .ok a.got := fun nd hnd k hk a ha =>
    obj_getattr (by rw [h4 k (hr nd hnd k hk), ha])
  have sparse : ∀ nd ∈ conItems m ++ objItems m, ∀ wd ∈ nd.2.jac ++ nd.2.hess, m.Sparse wd.2 → (Obj.mk [] c).sparse wd.2 = m.sparseAttrs codegen wd.2 := fun nd hnd wd hwd hs => by
    obtain ⟨k, hk⟩ := hs.nnz
    obtain ⟨i, hi⟩ := hs.ind
    obtain ⟨f, hf, hf'⟩ := own _ hs.val
    unfold Obj.sparse SymModel.sparseAttrs SymModel.getFn
    rw [read nd hnd _ (Or.inr (Or.inr ⟨wd, hwd, Or.inl rfl⟩)) _ (getattr_own (hb.nnz _ _ hk)), read nd hnd _ (Or.inr (Or.inr ⟨wd, hwd, Or.inr (Or.inl rfl)⟩)) _ (getattr_own (hb.ind _ _ hi)),
      read nd hnd _ (Or.inr (Or.inr ⟨wd, hwd, Or.inr (Or.inr rfl)⟩)) _ hf', hk, hi, hf]
    rfl
  refine ⟨c, h1, fun n d hnd => ?_, fun n d hnd => ?_⟩
  · have ht := hm.constraints n d (gc n d hnd)
    obtain ⟨f, hf, hf'⟩ := own n ht.fn
    have hmem : (n, ofCon d) ∈ conItems m := List.mem_map.2 ⟨(n, d), hnd, rfl⟩
    have hmem' : (n, ofCon d) ∈ conItems m ++ objItems m := by simp [hmem]
    unfold Obj.function SymModel.genConstraint Dict.getItem SymModel.getFn
    rw [obj_getattr (h2 _ hmem _ hf'), hbase, gc n d hnd, hf]
    simp only [py_bind_ok, Attr.got]
    rw [read _ hmem' _ (Or.inl rfl) _ (getattr_own (hb.base _ hbase))]
    simp only [py_bind_ok, Got.shapes, Attr.got]
    rw [show (ofCon d).grad = [] from rfl, show (ofCon d).jac = d.jac from rfl, show (ofCon d).hess = d.hess from rfl,
      listM_congr (l := d.jac) fun wd hwd => by rw [sparse _ hmem' wd (by simp [ofCon, hwd]) (ht.jac wd hwd)],
      listM_congr (l := d.hess) fun wd hwd => by rw [sparse _ hmem' wd (by simp [ofCon, hwd]) (ht.hess wd hwd)]]
    rfl
  · have ht := hm.objectives n d (go n d hnd)
    obtain ⟨f, hf, hf'⟩ := own n ht.fn
    have hmem : (n, ofObj d) ∈ objItems m := List.mem_map.2 ⟨(n, d), hnd, rfl⟩
    have hmem' : (n, ofObj d) ∈ conItems m ++ objItems m := by simp [hmem]
    unfold Obj.function SymModel.genObjective Dict.getItem
    rw [obj_getattr (h3 _ hmem _ hf'), hbase, go n d hnd]
    simp only [py_bind_ok, Attr.got]
    rw [read _ hmem' _ (Or.inl rfl) _ (getattr_own (hb.base _ hbase))]
    simp only [py_bind_ok, Got.shapes, Attr.got]
    rw [show (ofObj d).jac = [] from rfl, show (ofObj d).grad = d.grad from rfl, show (ofObj d).hess = d.hess from rfl,
      show m.getFn n = .ok f by unfold SymModel.getFn; rw [hf],
      listM_congr (l := d.grad) (g := fun (wd : String × String) => do return (wd.1, codegen (← m.getFn wd.2))) fun wd hwd => by
        obtain ⟨g, hg, hg'⟩ := own _ (ht.grad wd hwd)
        unfold Obj.dense SymModel.getFn
        rw [read _ hmem' wd.2 (Or.inr (Or.inl ⟨wd, hwd, rfl⟩)) _ hg', hg]
        rfl,
      listM_congr (l := d.hess) fun wd hwd => by rw [sparse _ hmem' wd (by simp [ofObj, hwd]) (ht.hess wd hwd)]]
    rfl

/-! ### Examples -/

/-- The body of a class with the constraint `e(x) = x`, its Jacobian and `base_shapes`. -/
private def exBody : Dict String (Attr Int) :=
  [("e", .func ["self", "x"] fun a => a.getD 0 ⟨[], []⟩), ("de_dx_val", .func ["self", "x"] fun _ => ⟨[1], [1]⟩), ("de_dx_nnz", .nnz 1), ("de_dx_ind", .ind [[0], [0]]), ("base_shapes", .shapes [("x", [1])])]
private def exDesc : Desc := { shape := [1], jac := [(["x"], "de_dx")], hess := [] }

/-- The class; a derived class whose Jacobian is two; and one that has a method `e` of its own. -/
example : ∃ c, optimizationMeta [] exBody [("e", exDesc)] [] = .ok c ∧ (∃ g, (Obj.mk [] c).function "e" = .ok g ∧ g.argNames = ["x"] ∧ g.outShape = [1] ∧
      g.jac.map (fun wd => (wd.1, wd.2.nnz, wd.2.val [])) = [(["x"], 1, ⟨[1], [1]⟩)]) ∧
    (∃ g, (Obj.mk [] (derive [("de_dx_val", .func ["self", "x"] fun _ => ⟨[1], [2]⟩)] c)).function "e" = .ok g ∧ g.jac.map (fun wd => (wd.1, wd.2.nnz, wd.2.val [])) = [(["x"], 1, ⟨[1], [2]⟩)]) ∧
    (Obj.mk [] (derive [("e", .func ["self", "x"] fun _ => ⟨[1], [0]⟩)] c)).function "e" = .error .attributeError :=
  ⟨_, rfl, ⟨_, rfl, rfl, rfl, rfl⟩, ⟨_, rfl, rfl⟩, rfl⟩

/-- One name for both a constraint and an objective. -/
example : ∃ c, optimizationMeta [] exBody [("e", exDesc)] [("e", { hess := [] })] = .ok c ∧ ∃ g, (Obj.mk [] c).getattr "e" = .ok g ∧ g.call [⟨[1], [3]⟩] = .error .typeError := by
  obtain ⟨c, h1, h2⟩ := C121_both (bases := []) (dict := exBody) (con := [("e", exDesc)]) (obj := [("e", { hess := [] })]) ⟨_, rfl⟩ (by decide) (by decide)
    (fun nd hnd => by
      simp only [List.cons_append, List.nil_append, List.mem_cons, List.not_mem_nil, or_false] at hnd
      rcases hnd with rfl | rfl <;> exact ⟨_, rfl, rfl⟩) (n := "e") (List.mem_singleton.2 rfl) (List.mem_singleton.2 rfl)
  obtain ⟨g, h3, h4, -⟩ := h2 [] rfl
  exact ⟨c, h1, g, h3, h4 _ (by simp)⟩

/-- A symbolic model with a constraint, and the body generated from it. -/
private def exModel : SymModel Int :=
  ⟨[("x", [1])], ["x"], [("e", ⟨["x"], [1], [5]⟩), ("de_dx_val", ⟨["x"], [1], [1]⟩)], [("e", ⟨[1], [(["x"], "de_dx")], []⟩)], [], [("de_dx", [[0], [0]])], [("de_dx", 1)], ["e", "de_dx_val"]⟩
private def exCode (f : SymFn Int) (_ : List (NDArray Int)) : NDArray Int := ⟨f.outShape, f.out⟩
private def exDict : Dict String (Attr Int) :=
  [("e", .func ["self", "x"] (exCode ⟨["x"], [1], [5]⟩)), ("de_dx_val", .func ["self", "x"] (exCode ⟨["x"], [1], [1]⟩)), ("de_dx_nnz", .nnz 1), ("de_dx_ind", .ind [[0], [0]]), ("base_shapes", .shapes [("x", [1])])]

private theorem get?_one {κ β : Type} [DecidableEq κ] {a k : κ} {b v : β} (h : Dict.get? [(a, b)] k = some v) : a = k ∧ b = v := by
  rw [Dict.get?_cons] at h
  split at h
  · next e => exact ⟨e, Option.some.inj h⟩
  · cases h

example : ∃ c, optimizationMeta [] exDict (conItems exModel) (objItems exModel) = .ok c ∧ (Obj.mk [] c).function "e" = exModel.genConstraint exCode "e" := by
  have hm : exModel.Closed := by
    refine ⟨fun n d h => ?_, fun n d h => ?_, fun n hn => ?_⟩
    · cases h
    · obtain ⟨rfl, rfl⟩ := get?_one h
      refine ⟨by decide, fun wd hwd => ?_, fun wd hwd => by cases hwd⟩
      obtain rfl := List.mem_singleton.1 hwd
      exact ⟨by decide, ⟨_, rfl⟩, ⟨_, rfl⟩⟩
    · simp only [exModel, List.mem_cons, List.not_mem_nil, or_false] at hn
      rcases hn with rfl | rfl <;> exact ⟨_, rfl⟩
  have hb : HasBody exCode exModel exDict := by
    refine ⟨fun n hn f hf => ?_, fun d k h => ?_, fun d k h => ?_, fun b h => ?_⟩
    · simp only [exModel, List.mem_cons, List.not_mem_nil, or_false] at hn
      rcases hn with rfl | rfl <;> · cases hf; rfl
    · obtain ⟨rfl, rfl⟩ := get?_one h
      rfl
    · obtain ⟨rfl, rfl⟩ := get?_one h
      rfl
    · cases h
      rfl
  have hd : ∀ a ∈ exModel.decision, ∃ s, Dict.get? exModel.shapes a = some s := by
    intro a ha
    obtain rfl := List.mem_singleton.1 ha
    exact ⟨_, rfl⟩
  have hr : ∀ nd ∈ conItems exModel ++ objItems exModel, ∀ k, Reads nd.2 k → k ∉ (conItems exModel ++ objItems exModel).map Prod.fst := by
    intro nd hnd k hk
    obtain rfl : nd = ("e", ofCon ⟨[1], [(["x"], "de_dx")], []⟩) := by simpa [conItems, objItems, exModel] using hnd
    rcases hk with rfl | ⟨wd, hwd, -⟩ | ⟨wd, hwd, h⟩
    · decide
    · cases hwd
    · obtain rfl := List.mem_singleton.1 hwd
      rcases h with rfl | rfl | rfl <;> decide
  obtain ⟨c, h1, h2, -⟩ := C121_generated hm hb [] hd (by decide) hr
  exact ⟨c, h1, h2 "e" _ (List.mem_singleton.2 rfl)⟩

end GenMeta
end Ceacoest
