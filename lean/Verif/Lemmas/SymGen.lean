import Verif.Lemmas.SymBuild
import Verif.Spec.SymContract

/-! # The generated functions meet the contract of C08 – C13 -/

namespace Ceacoest
open Spec
variable {X : Type}

/-! ### The generated functions -/

/-- The value function of a sparse derivative. -/
def valFn (S : Sym2Num X) (m : SymModel X) (f : SymFn X) (wrt : List String) : SymFn X :=
  ⟨f.args, [(found S m f wrt).length], (found S m f wrt).map Prod.snd⟩

/-- A sparse derivative of the generated class. -/
def sparseOf (codegen : SymFn X → List (NDArray ℝ) → NDArray ℝ) (S : Sym2Num X) (m : SymModel X) (f : SymFn X) (wrt : List String) :
    SparseDeriv ℝ :=
  ⟨(found S m f wrt).length, (List.range (wrt.length + 1)).map fun i => (found S m f wrt).map fun iv => iv.1.getD i 0,
    codegen (valFn S m f wrt)⟩

/-- A generated function. -/
def genOf (codegen : SymFn X → List (NDArray ℝ) → NDArray ℝ) (S : Sym2Num X) (m : SymModel X) (shape : String → List Nat)
    (f : SymFn X) (c : SymCall) : GenFun ℝ :=
  ⟨c.fname, f.args, if c.objective then [] else f.outShape, m.decision.map fun d => (d, shape d), codegen f,
    if c.objective then c.order.map fun a => (a, codegen (S.deriv f [a])) else [],
    if c.objective then [] else (kept S m f (jacItems c.fname c.order)).map fun it => (it.1, sparseOf codegen S m f it.1),
    (kept S m f (hessItems c.fname c.order)).map fun it => (it.1, sparseOf codegen S m f it.1)⟩

theorem sparseAttrs_ok {codegen : SymFn X → List (NDArray ℝ) → NDArray ℝ} {S : Sym2Num X} {m0 m : SymModel X} {f : SymFn X} {wrt : List String}
    {d : String} (h : HasSparse S m0 f wrt d m) : m.sparseAttrs codegen d = .ok (sparseOf codegen S m0 f wrt) := by
  unfold SymModel.sparseAttrs SymModel.getFn
  rw [h.1, h.2.1, h.2.2]
  rfl

theorem gen_ok {codegen : SymFn X → List (NDArray ℝ) → NDArray ℝ} {S : Sym2Num X} {m0 m : SymModel X} {f : SymFn X} {c : SymCall}
    (h : Built S m0 f c m) (hs : m.shapes = m0.shapes) (hd : m.decision = m0.decision) (shape : String → List Nat)
    (hsh : ∀ a ∈ m0.decision, Dict.get? m0.shapes a = some (shape a)) :
    m.gen codegen c = .ok (genOf codegen S m0 shape f c) := by
  have hbase : m.baseShapes = .ok (m0.decision.map fun d => (d, shape d)) := by
    unfold SymModel.baseShapes
    rw [hd]
    refine mapM_ok fun a ha => ?_
    unfold Dict.getItem
    rw [hs, hsh a ha]
    rfl
  have hkeep : ∀ items, (∀ it ∈ items, HasSparse S m0 f it.1 it.2 m) →
      ((kept S m0 f items).mapM fun (wd : List String × String) => do return (wd.1, ← m.sparseAttrs codegen wd.2)) =
      (.ok ((kept S m0 f items).map fun it => (it.1, sparseOf codegen S m0 f it.1)) : Py _) := by
    intro items hi
    refine mapM_ok fun it hit => ?_
    rw [sparseAttrs_ok (hi it (List.mem_filter.1 hit).1)]
    rfl
  have hfn : m.getFn c.fname = .ok f := by
    unfold SymModel.getFn
    rw [h.fn]
  unfold SymModel.gen genOf
  cases hb : c.objective with
  | true =>
    simp only [if_true]
    unfold SymModel.genObjective
    rw [hbase]
    simp only [py_bind_ok]
    unfold Dict.getItem
    rw [h.obj hb]
    simp only [py_bind_ok]
    rw [hfn]
    simp only [py_bind_ok]
    have hg : ((c.order.map fun a => (a, firstDerivName c.fname a)).mapM fun (wd : String × String) =>
        (do return (wd.1, codegen (← m.getFn wd.2)) : Py _)) = .ok (c.order.map fun a => (a, codegen (S.deriv f [a]))) := by
      have := mapM_ok (f := fun (wd : String × String) => (do return (wd.1, codegen (← m.getFn wd.2)) : Py _))
        (g := fun wd => (wd.1, codegen ((Dict.get? m.funcs wd.2).getD f))) (l := c.order.map fun a => (a, firstDerivName c.fname a)) (by
          intro wd hwd
          obtain ⟨a, ha, rfl⟩ := List.mem_map.1 hwd
          unfold SymModel.getFn
          simp only [h.dense hb a ha]
          rfl)
      rw [this, List.map_map]
      refine congrArg _ (List.map_congr_left fun a ha => ?_)
      simp [h.dense hb a ha]
    rw [hg]
    simp only [py_bind_ok]
    rw [hkeep _ h.hess]
    rfl
  | false =>
    simp only [Bool.false_eq_true, if_false]
    unfold SymModel.genConstraint
    rw [hbase]
    simp only [py_bind_ok]
    unfold Dict.getItem
    rw [h.con hb]
    simp only [py_bind_ok]
    rw [hfn]
    simp only [py_bind_ok]
    rw [hkeep _ (h.jac hb)]
    simp only [py_bind_ok]
    rw [hkeep _ h.hess]
    rfl

/-! ### The mathematics behind them -/

/-- The mathematics behind a generated function. -/
noncomputable def symOf (ev : X → Env → ℝ) (S : Sym2Num X) (m : SymModel X) (f : SymFn X) : Sym :=
  ⟨symVal ev f, fun a => symVal ev (S.deriv f [a]), fun wrt => symVal ev (valFn S m f wrt), fun wrt => symVal ev (valFn S m f wrt)⟩

theorem HasPartialsAt.congr {n : Nat} {bsz bsz' : Nat → Nat} {var : Nat → Bool} {f : Args → ℝ} {D D' : Nat → Nat → ℝ} {x : Args}
    (h : HasPartialsAt n bsz var f D x) (hb : ∀ j < n, bsz' j = bsz j)
    (hD : ∀ j < n, var j = true → ∀ k < bsz j, D j k = D' j k) : HasPartialsAt n bsz' var f D' x := by
  intro c c' t h1 h2 h3 h4 h5
  have := h c c' t h1 (fun j hj k hk => h2 j hj k (by rw [hb j hj]; exact hk)) h3 h4 (fun j k hk s => by
    by_cases hj : j < n
    · exact h5 j k (by rw [hb j hj]; exact hk) s
    · rw [h4 j (Nat.le_of_not_lt hj) s])
  refine this.congr_deriv (Finset.sum_congr rfl fun j hj => ?_)
  split
  · rename_i hv
    rw [hb j (Finset.mem_range.1 hj)]
    refine Finset.sum_congr rfl fun k hk => ?_
    rw [hD j (Finset.mem_range.1 hj) hv k (Finset.mem_range.1 hk)]
  · rfl

/-- The hypotheses about one function: it is a function of variables of the model, its derivatives have the right form and code is
generated for it and its derivatives. -/
structure FnOK (S : Sym2Num X) (ev : X → Env → ℝ) (codegen : SymFn X → List (NDArray ℝ) → NDArray ℝ) (shape : String → List Nat)
    (m : SymModel X) (f : SymFn X) (c : SymCall) : Prop where
  shapes : ∀ a ∈ m.decision, Dict.get? m.shapes a = some (shape a)
  wrt : m.IsWrt f c.order
  form : DerivForm S ev shape f c.order
  scalar : c.objective = true → f.outShape = []
  fn : CodegenOK ev shape codegen f
  dense : c.objective = true → ∀ a ∈ c.order, CodegenOK ev shape codegen (S.deriv f [a])
  sparse : c.objective = false → ∀ it ∈ jacItems c.fname c.order, CodegenOK ev shape codegen (valFn S m f it.1)
  sparse2 : ∀ it ∈ hessItems c.fname c.order, CodegenOK ev shape codegen (valFn S m f it.1)

variable {S : Sym2Num X} {ev : X → Env → ℝ} {codegen : SymFn X → List (NDArray ℝ) → NDArray ℝ} {shape : String → List Nat}
    {m : SymModel X} {f : SymFn X} {c : SymCall}

theorem FnOK.derivs (h : FnOK S ev codegen shape m f c) : DerivsOK S m f c.order :=
  ⟨shape, fun a ha => h.shapes a ((h.wrt.2 a).1 ha).2, h.form.size, h.form.size2⟩

theorem FnOK.outShape_eq (h : FnOK S ev codegen shape m f c) : (genOf codegen S m shape f c).outShape = f.outShape := by
  unfold genOf
  cases hb : c.objective with
  | true => simp [h.scalar hb]
  | false => simp

theorem range_map_bs {args : List String} {R : Reg} {decision : List String} (h : Agrees shape decision args R) :
    (List.range args.length).map R.bs = args.map shape := by
  refine List.ext_getElem (by simp) fun j h1 h2 => ?_
  simp only [List.length_map, List.length_range] at h1
  simp [(h j h1).1, List.getD_eq_getElem?_getD, h1]

theorem getD_idxOf {args : List String} {a : String} (h : a ∈ args) : args.idxOf a < args.length ∧ args.getD (args.idxOf a) "" = a := by
  have := List.idxOf_lt_length_iff.2 h
  exact ⟨this, by simp [List.getD_eq_getElem?_getD, this]⟩

/-- A registered generated function meets the contract. -/
theorem FnOK.funOK (h : FnOK S ev codegen shape m f c) {p : Problem ℝ} {o : OptFun ℝ} {R : Reg} (ho : o.fn = genOf codegen S m shape f c)
    (hr : Registered p o R) (ha : Agrees shape m.decision f.args R) : FunOK p o (symOf ev S m f) R := by
  have hargs : o.fn.argNames = f.args := by rw [ho]; rfl
  refine ⟨hr.made, hr.sig, hr.nargs, hr.args, ?_, hr.vars, hr.consts, hr.bc, hr.shape, ?_⟩
  · intro j hj hv
    rw [hargs] at hj ⊢
    obtain ⟨h1, h2⟩ := ha j hj
    rw [ho, h1]
    have hmem := h2.1 hv
    generalize f.args.getD j "" = a at hmem
    simp only [genOf]
    generalize m.decision = l at hmem
    induction l with
    | nil => simp at hmem
    | cons b l ih =>
      rw [List.map_cons, Dict.get?_cons]
      by_cases hba : b = a
      · simp [hba]
      · rw [if_neg hba]
        rcases List.mem_cons.1 hmem with rfl | hm
        · exact absurd rfl hba
        · exact ih hm
  · rw [hargs, range_map_bs ha]
    have := h.fn
    unfold CodegenOK at this
    rw [ho, h.outShape_eq]
    exact this

theorem FnOK.gradOK (h : FnOK S ev codegen shape m f c) (hc : c.objective = true) {p : Problem ℝ} {o : OptFun ℝ} {R : Reg}
    (ho : o.fn = genOf codegen S m shape f c) (hr : Registered p o R) (ha : Agrees shape m.decision f.args R) :
    GradOK o R (symOf ev S m f).grad := by
  have hargs : o.fn.argNames = f.args := by rw [ho]; rfl
  have hgrad : o.fn.grad = c.order.map fun a => (a, codegen (S.deriv f [a])) := by rw [ho]; simp [genOf, hc]
  refine ⟨by rw [ho, h.outShape_eq, h.scalar hc], ?_, ?_⟩
  · rw [hgrad]
    simp [Dict.keys, List.map_map, Function.comp_def, h.wrt.1]
  · intro wrt g hg
    rw [hgrad] at hg
    obtain ⟨a, hao, he⟩ := List.mem_map.1 hg
    obtain ⟨rfl, rfl⟩ := Prod.mk.inj he
    obtain ⟨ha1, ha2⟩ := (h.wrt.2 a).1 hao
    obtain ⟨hlt, hget⟩ := getD_idxOf ha1
    have hv : R.var (f.args.idxOf a) = true := ((ha _ hlt).2).2 (by rw [hget]; exact ha2)
    refine ⟨f.args.idxOf a, by rw [hargs]; exact hlt, hv, by rw [hargs, hget], ?_, hr.suffix _ (by rw [hargs]; exact hlt) hv⟩
    rw [hargs, range_map_bs ha, (ha _ hlt).1, hget]
    have := h.dense hc a hao
    unfold CodegenOK at this
    rw [h.form.args a hao, h.form.outShape a hao, h.scalar hc, List.append_nil] at this
    exact this

theorem inBounds_getD {s idx : List Nat} (h : InBounds s idx) {i : Nat} (hi : i < s.length) : idx.getD i 0 < s.getD i 0 := by
  induction s generalizing idx i with
  | nil => simp at hi
  | cons n s ih =>
    cases idx with
    | nil => simp [InBounds] at h
    | cons j idx =>
      cases i with
      | zero => simpa using h.1
      | succ i => simpa using ih h.2 (by simpa using hi)

/-- The shape of the derivative of `f` with respect to `wrt`. -/
def tensorShape (shape : String → List Nat) (f : SymFn X) (wrt : List String) : List Nat := wrt.map (fun w => (shape w).prod) ++ [f.outShape.prod]

theorem found_lists (hs : ∀ a ∈ m.decision, Dict.get? m.shapes a = some (shape a)) {wrt : List String} (hw : ∀ w ∈ wrt, w ∈ m.decision) :
    Lists S.isZero (tensorShape shape f wrt) (wrt.length = 2 ∧ wrt.getD 0 "" = wrt.getD 1 "" ∧ true = true) (S.deriv f wrt).out
      ((List.range (wrt.length + 1)).map fun i => (found S m f wrt).map fun iv => iv.1.getD i 0) ((found S m f wrt).map Prod.snd)
      (found S m f wrt).length := by
  have hfo : SymModel.nonzeros S.isZero wrt (tensorShape shape f wrt) (S.deriv f wrt).out true = found S m f wrt := by
    unfold found tensorShape
    congr 2
    refine List.map_congr_left fun w hw' => ?_
    simp [hs w (hw w hw')]
  have := nonzeros_lists S.isZero wrt (tensorShape shape f wrt) (S.deriv f wrt).out true (by simp [tensorShape])
  rw [hfo] at this
  exact this

theorem found_inBounds (hs : ∀ a ∈ m.decision, Dict.get? m.shapes a = some (shape a)) {wrt : List String} (hw : ∀ w ∈ wrt, w ∈ m.decision)
    {iv : List Nat × X} (h : iv ∈ found S m f wrt) : InBounds (tensorShape shape f wrt) iv.1 := by
  have hfo : SymModel.nonzeros S.isZero wrt (tensorShape shape f wrt) (S.deriv f wrt).out true = found S m f wrt := by
    unfold found tensorShape
    congr 2
    refine List.map_congr_left fun w hw' => ?_
    simp [hs w (hw w hw')]
  rw [← hfo] at h
  exact (mem_zip_nd.1 (List.mem_filter.1 h).1).1

theorem sparseOf_indOK (hs : ∀ a ∈ m.decision, Dict.get? m.shapes a = some (shape a)) {wrt : List String} (hw : ∀ w ∈ wrt, w ∈ m.decision) :
    IndOK (sparseOf codegen S m f wrt).ind (sparseOf codegen S m f wrt).nnz (tensorShape shape f wrt) := by
  unfold IndOK
  rw [List.forall₂_iff_get]
  refine ⟨by simp [sparseOf, tensorShape], fun i h1 h2 => ?_⟩
  simp only [sparseOf, List.get_eq_getElem, List.getElem_map, List.getElem_range, List.length_map, true_and]
  intro k hk
  obtain ⟨iv, hiv, rfl⟩ := List.mem_map.1 hk
  have := inBounds_getD (found_inBounds hs hw hiv) h2
  have e : (tensorShape shape f wrt).getD i 0 = (tensorShape shape f wrt)[i] := by
    simp [List.getD_eq_getElem?_getD, h2]
  rw [e] at this
  exact this

/-- One dictionary of sparse derivatives. -/
theorem FnOK.sparseOK (h : FnOK S ev codegen shape m f c) {o : OptFun ℝ} {R : Reg}
    (ho : o.fn = genOf codegen S m shape f c) (ha : Agrees shape m.decision f.args R) (items : List (List String × String)) (order : Nat)
    (hn : (items.map Prod.fst).Nodup) (hi : ∀ it ∈ items, it.1.length = order ∧ ∀ w ∈ it.1, w ∈ c.order)
    (hcg : ∀ it ∈ items, CodegenOK ev shape codegen (valFn S m f it.1)) :
    SparseOK o R ((kept S m f items).map fun it => (it.1, sparseOf codegen S m f it.1))
      (fun wrt => symVal ev (valFn S m f wrt)) order := by
  have hargs : o.fn.argNames = f.args := by rw [ho]; rfl
  have hout : o.fn.outShape = f.outShape := by rw [ho]; exact h.outShape_eq
  refine ⟨?_, fun wrt d hd => ?_⟩
  · simp only [Dict.keys, List.map_map, Function.comp_def]
    exact ((List.filter_sublist).map _).nodup hn
  · obtain ⟨it, hit, he⟩ := List.mem_map.1 hd
    cases he
    obtain ⟨hlen, hmem⟩ := hi it (List.mem_filter.1 hit).1
    have hw : ∀ w ∈ it.1, w ∈ f.args ∧ w ∈ m.decision := fun w hw => (h.wrt.2 w).1 (hmem w hw)
    refine ⟨it.1.map f.args.idxOf, by simpa using hlen, ?_, ?_, ?_, ?_⟩
    · intro j hj
      obtain ⟨w, hw', rfl⟩ := List.mem_map.1 hj
      obtain ⟨h1, h2⟩ := getD_idxOf (hw w hw').1
      rw [hargs]
      exact ⟨h1, ((ha _ h1).2).2 (by rw [h2]; exact (hw w hw').2)⟩
    · rw [List.map_map, hargs]
      conv_lhs => rw [← List.map_id it.1]
      refine List.map_congr_left fun w hw' => ?_
      simp only [id_eq, Function.comp_apply]
      rw [(getD_idxOf (hw w hw').1).2]
    · have e : (it.1.map f.args.idxOf).map (fun j => (R.bs j).prod) ++ [o.fn.outShape.prod] = tensorShape shape f it.1 := by
        unfold tensorShape
        rw [hout, List.map_map]
        congr 1
        refine List.map_congr_left fun w hw' => ?_
        obtain ⟨h1, h2⟩ := getD_idxOf (hw w hw').1
        simp only [Function.comp_apply]
        rw [(ha _ h1).1, h2]
      rw [e]
      exact sparseOf_indOK h.shapes fun w hw' => (hw w hw').2
    · rw [hargs, range_map_bs ha]
      exact hcg it (List.mem_filter.1 hit).1

theorem FnOK.hessOK (h : FnOK S ev codegen shape m f c) {o : OptFun ℝ} {R : Reg}
    (ho : o.fn = genOf codegen S m shape f c) (ha : Agrees shape m.decision f.args R) :
    SparseOK o R o.fn.hess (symOf ev S m f).hess 2 := by
  have := h.sparseOK ho ha (hessItems c.fname c.order) 2 (hessItems_nodup _ h.wrt.1) (by
    intro it hit
    obtain ⟨p, hp, rfl⟩ := List.mem_map.1 hit
    obtain ⟨h1, h2⟩ := pairs_mem hp
    refine ⟨rfl, fun w hw => ?_⟩
    simp only [List.mem_cons, List.not_mem_nil, or_false] at hw
    rcases hw with rfl | rfl
    · exact h1
    · exact h2) h.sparse2
  have e : o.fn.hess = (kept S m f (hessItems c.fname c.order)).map fun it => (it.1, sparseOf codegen S m f it.1) := by rw [ho]; rfl
  rw [e]
  exact this

theorem FnOK.jacOK (h : FnOK S ev codegen shape m f c) (hc : c.objective = false) {o : OptFun ℝ} {R : Reg}
    (ho : o.fn = genOf codegen S m shape f c) (ha : Agrees shape m.decision f.args R) :
    SparseOK o R o.fn.jac (symOf ev S m f).jac 1 := by
  have := h.sparseOK ho ha (jacItems c.fname c.order) 1 (jacItems_nodup _ h.wrt.1) (by
    intro it hit
    obtain ⟨a, ha, rfl⟩ := List.mem_map.1 hit
    exact ⟨rfl, by simpa using ha⟩) (h.sparse hc)
  have e : o.fn.jac = (kept S m f (jacItems c.fname c.order)).map fun it => (it.1, sparseOf codegen S m f it.1) := by
    rw [ho]; simp [genOf, hc]
  rw [e]
  exact this

/-! ### Right derivatives -/

theorem sum_map_single {A : Type} (l : List A) (g : A → ℝ) (a : A) (hn : l.Nodup) (ha : a ∈ l) (h : ∀ b ∈ l, b ≠ a → g b = 0) :
    (l.map g).sum = g a := by
  induction l with
  | nil => simp at ha
  | cons b l ih =>
    rw [List.nodup_cons] at hn
    rw [List.map_cons, List.sum_cons]
    rcases List.mem_cons.1 ha with rfl | ha'
    · have : (l.map g).sum = 0 := by
        refine List.sum_eq_zero ?_
        intro x hx
        obtain ⟨b, hb, rfl⟩ := List.mem_map.1 hx
        exact h b (by simp [hb]) (fun e => hn.1 (e ▸ hb))
      rw [this, add_zero]
    · rw [h b (by simp) (fun e => hn.1 (e ▸ ha')), zero_add]
      exact ih hn.2 ha' fun b hb => h b (by simp [hb])

theorem sum_filter_eq {A : Type} (l : List A) (q : A → Bool) (g : A → ℝ) (h : ∀ a ∈ l, q a = false → g a = 0) :
    ((l.filter q).map g).sum = (l.map g).sum := by
  induction l with
  | nil => rfl
  | cons a l ih =>
    have ih := ih fun b hb => h b (by simp [hb])
    cases hq : q a with
    | true => simp [hq, ih]
    | false => simp [hq, ih, h a (by simp) hq]

theorem assemble_zero (hit : Nat → Prop) [DecidablePred hit] (val : Nat → ℝ) : assemble 0 hit val = 0 := by simp [assemble]

theorem symVal_some {g : SymFn X} {y : Args} {r : Nat} (hr : r < g.out.length) :
    ∃ v, g.out[r]? = some v ∧ symVal ev g y r = ev v (argEnv g.args y) :=
  ⟨g.out[r], by simp [hr], by simp [symVal, hr]⟩

theorem FnOK.mem_order (h : FnOK S ev codegen shape m f c) {R : Reg} (ha : Agrees shape m.decision f.args R) {j : Nat}
    (hj : j < f.args.length) (hv : R.var j = true) : f.args.getD j "" ∈ c.order := by
  refine (h.wrt.2 _).2 ⟨?_, (ha j hj).2.1 hv⟩
  simp [List.getD_eq_getElem?_getD, hj]

theorem FnOK.gradRight (h : FnOK S ev codegen shape m f c) (hc : c.objective = true) {o : OptFun ℝ} {R : Reg}
    (ho : o.fn = genOf codegen S m shape f c) (ha : Agrees shape m.decision f.args R) {x : Args}
    (hx : SymRight1 S ev shape f R.var x) : GradRight o (symOf ev S m f) R x := by
  have hargs : o.fn.argNames = f.args := by rw [ho]; rfl
  have hgrad : o.fn.grad = c.order.map fun a => (a, codegen (S.deriv f [a])) := by rw [ho]; simp [genOf, hc]
  have h0 := hx 0 (by rw [h.scalar hc]; simp)
  unfold GradRight
  rw [hargs]
  refine HasPartialsAt.congr h0 (fun j hj => by rw [(ha j hj).1]) fun j hj hv k hk => ?_
  unfold gradEntry
  rw [hgrad, hargs, List.map_map, sum_map_single c.order _ (f.args.getD j "") h.wrt.1 (h.mem_order ha hj hv)]
  · simp [symOf, h.scalar hc]
  · intro b _ hb
    simp only [Function.comp_apply, if_neg hb]

/-- The entries listed for the derivative with respect to `wrt` put back at their places (no triangle). -/
theorem FnOK.assemble_eq (h : FnOK S ev codegen shape m f c) {wrt : List String} (hw : ∀ w ∈ wrt, w ∈ m.decision)
    (hargs : (S.deriv f wrt).args = f.args)
    (hl : (S.deriv f wrt).out.length = (tensorShape shape f wrt).prod) (x : Args) {idx : List Nat} (hi : InBounds (tensorShape shape f wrt) idx)
    (ht : (wrt.length = 2 ∧ wrt.getD 0 "" = wrt.getD 1 "" ∧ true = true) → idx.getD 0 0 ≤ idx.getD 1 0) :
    (∑ n ∈ Finset.range (sparseOf codegen S m f wrt).nnz, if column (sparseOf codegen S m f wrt).ind n = idx then
      symVal ev (valFn S m f wrt) x n else 0) = symVal ev (S.deriv f wrt) x (cOrder (tensorShape shape f wrt) idx) := by
  have hlt : cOrder (tensorShape shape f wrt) idx < (S.deriv f wrt).out.length := by rw [hl]; exact cOrder_lt hi
  obtain ⟨v, hv, he⟩ := symVal_some (ev := ev) (g := S.deriv f wrt) (y := x) hlt
  rw [he, hargs, ← lists_sum S.isZero (fun v => ev v (argEnv f.args x)) (fun v hz => h.form.zero v hz _)
    (found_lists (S := S) (f := f) h.shapes hw) idx hi ht v hv]
  rfl

theorem column1 {wrt : String} {n k r : Nat} :
    (column (sparseOf codegen S m f [wrt]).ind n = [k, r]) ↔
      col (sparseOf codegen S m f [wrt]).ind 0 n = k ∧ col (sparseOf codegen S m f [wrt]).ind 1 n = r := by
  simp [column, col, sparseOf, List.range_succ]

theorem column2 {a b : String} {n k l r : Nat} :
    (column (sparseOf codegen S m f [a, b]).ind n = [k, l, r]) ↔
      col (sparseOf codegen S m f [a, b]).ind 0 n = k ∧ col (sparseOf codegen S m f [a, b]).ind 1 n = l ∧
      col (sparseOf codegen S m f [a, b]).ind 2 n = r := by
  simp [column, col, sparseOf, List.range_succ]

theorem FnOK.jacEntry_eq (h : FnOK S ev codegen shape m f c) (hc : c.objective = false) {o : OptFun ℝ} {R : Reg}
    (ho : o.fn = genOf codegen S m shape f c) (ha : Agrees shape m.decision f.args R) (x : Args) {r j k : Nat}
    (hr : r < f.outShape.prod) (hj : j < f.args.length) (hv : R.var j = true) (hk : k < (shape (f.args.getD j "")).prod) :
    jacEntry o (symOf ev S m f) x r j k = symVal ev (S.deriv f [f.args.getD j ""]) x (k * f.outShape.prod + r) := by
  have hargs : o.fn.argNames = f.args := by rw [ho]; rfl
  have hjac : o.fn.jac = (kept S m f (jacItems c.fname c.order)).map fun it => (it.1, sparseOf codegen S m f it.1) := by
    rw [ho]; simp [genOf, hc]
  have hmem := h.mem_order ha hj hv
  have hdec := (ha j hj).2.1 hv
  unfold jacEntry
  rw [hjac, hargs, List.map_map, kept, sum_filter_eq]
  · rw [jacItems, List.map_map, sum_map_single c.order _ (f.args.getD j "") h.wrt.1 hmem]
    · simp only [Function.comp_apply, true_and]
      have := h.assemble_eq (wrt := [f.args.getD j ""]) (by simpa using hdec) (h.form.args _ hmem)
        (by rw [h.form.size _ hmem]; simp [tensorShape]) x (idx := [k, r]) ⟨hk, hr, trivial⟩ (by simp)
      rw [show cOrder (tensorShape shape f [f.args.getD j ""]) [k, r] = k * f.outShape.prod + r by simp [tensorShape, cOrder]] at this
      rw [← this]
      unfold assemble
      refine Finset.sum_congr rfl fun n _ => ?_
      simp only [column1]
      rfl
    · intro b _ hb
      simp only [Function.comp_apply, List.cons.injEq, and_true, hb, false_and]
      simp [assemble]
  · intro it _ hq
    have : (found S m f it.1).length = 0 := by simpa using hq
    simp only [Function.comp_apply]
    have e : (sparseOf codegen S m f it.1).nnz = 0 := this
    rw [e]
    exact assemble_zero _ _

theorem FnOK.jacRight (h : FnOK S ev codegen shape m f c) (hc : c.objective = false) {o : OptFun ℝ} {R : Reg}
    (ho : o.fn = genOf codegen S m shape f c) (ha : Agrees shape m.decision f.args R) {x : Args}
    (hx : SymRight1 S ev shape f R.var x) : JacRight o (symOf ev S m f) R x := by
  have hargs : o.fn.argNames = f.args := by rw [ho]; rfl
  intro r hr
  rw [ho, h.outShape_eq] at hr
  rw [hargs]
  exact HasPartialsAt.congr (hx r hr) (fun j hj => by rw [(ha j hj).1]) fun j hj hv k hk => (h.jacEntry_eq hc ho ha x hr hj hv hk).symm

theorem FnOK.hessEntry_eq (h : FnOK S ev codegen shape m f c) {o : OptFun ℝ} {R : Reg}
    (ho : o.fn = genOf codegen S m shape f c) (ha : Agrees shape m.decision f.args R) (x : Args) {r j k j' k' : Nat}
    (hr : r < f.outShape.prod) (hj : j < f.args.length) (hv : R.var j = true) (hk : k < (shape (f.args.getD j "")).prod)
    (hj' : j' < f.args.length) (hv' : R.var j' = true) (hk' : k' < (shape (f.args.getD j' "")).prod) :
    hessEntry o (symOf ev S m f) x r j k j' k' = symVal ev (S.deriv f [f.args.getD j "", f.args.getD j' ""]) x
      ((k * (shape (f.args.getD j' "")).prod + k') * f.outShape.prod + r) := by
  have hargs : o.fn.argNames = f.args := by rw [ho]; rfl
  have hhess : o.fn.hess = (kept S m f (hessItems c.fname c.order)).map fun it => (it.1, sparseOf codegen S m f it.1) := by
    rw [ho]; rfl
  have hmem := h.mem_order ha hj hv
  have hdec := (ha j hj).2.1 hv
  have hmem' := h.mem_order ha hj' hv'
  have hdec' := (ha j' hj').2.1 hv'
  generalize hA : f.args.getD j "" = a at *
  generalize hB : f.args.getD j' "" = b at *
  have hidx : ∀ (p q : String) (k l : Nat), cOrder (tensorShape shape f [p, q]) [k, l, r] = (k * (shape q).prod + l) * f.outShape.prod + r := by
    intro p q k l
    simp [tensorShape, cOrder]
    ring
  -- entries of one block
  have hblock : ∀ p ∈ c.order, ∀ q ∈ c.order, ∀ k < (shape p).prod, ∀ l < (shape q).prod, (p = q → k ≤ l) →
      assemble (sparseOf codegen S m f [p, q]).nnz (fun n => col (sparseOf codegen S m f [p, q]).ind 2 n = r ∧
        col (sparseOf codegen S m f [p, q]).ind 0 n = k ∧ col (sparseOf codegen S m f [p, q]).ind 1 n = l) (symVal ev (valFn S m f [p, q]) x) =
      symVal ev (S.deriv f [p, q]) x ((k * (shape q).prod + l) * f.outShape.prod + r) := by
    intro p hp q hq k hk l hl hkl
    have := h.assemble_eq (wrt := [p, q]) (by
        intro w hw
        simp only [List.mem_cons, List.not_mem_nil, or_false] at hw
        rcases hw with rfl | rfl
        · exact ((h.wrt.2 _).1 hp).2
        · exact ((h.wrt.2 _).1 hq).2) (h.form.args2 _ hp _ hq)
      (by rw [h.form.size2 _ hp _ hq]; simp [tensorShape]) x (idx := [k, l, r]) ⟨hk, hl, hr, trivial⟩ (by simpa using hkl)
    rw [hidx] at this
    rw [← this]
    unfold assemble
    refine Finset.sum_congr rfl fun n _ => ?_
    simp only [column2]
    exact if_congr ⟨fun ⟨h1, h2, h3⟩ => ⟨h2, h3, h1⟩, fun ⟨h1, h2, h3⟩ => ⟨h3, h1, h2⟩⟩ rfl rfl
  unfold hessEntry
  rw [hhess, hargs, hA, hB, List.map_map, kept, sum_filter_eq]
  · rw [hessItems, List.map_map]
    obtain ⟨p, ⟨hp, hpab⟩, huniq⟩ := (C31_pairs c.order h.wrt.1).2.2 a hmem b hmem'
    rw [sum_map_single (pairs c.order) _ p (pairs_nodup h.wrt.1) hp]
    · simp only [Function.comp_apply]
      by_cases hab : a = b
      · subst hab
        have hpp : p = (a, a) := by rcases hpab with h | h <;> exact h
        subst hpp
        simp only [true_and]
        have hsw : ∀ k l, k < (shape a).prod → l < (shape a).prod → k ≤ l →
            assemble (sparseOf codegen S m f [a, a]).nnz (fun n => col (sparseOf codegen S m f [a, a]).ind 2 n = r ∧
              (col (sparseOf codegen S m f [a, a]).ind 0 n = k ∧ col (sparseOf codegen S m f [a, a]).ind 1 n = l ∨
                col (sparseOf codegen S m f [a, a]).ind 0 n = l ∧ col (sparseOf codegen S m f [a, a]).ind 1 n = k))
              (symVal ev (valFn S m f [a, a]) x) =
            symVal ev (S.deriv f [a, a]) x ((k * (shape a).prod + l) * f.outShape.prod + r) := by
          intro k l hk hl hkl
          rw [← hblock a hmem a hmem k hk l hl fun _ => hkl]
          unfold assemble
          refine Finset.sum_congr rfl fun n hn => ?_
          have htri := ((found_lists (S := S) (f := f) (m := m) (shape := shape) h.shapes (wrt := [a, a])
            (by simpa using hdec)).sound n (Finset.mem_range.1 hn)).2.1 ⟨rfl, rfl, rfl⟩
          have htri : col (sparseOf codegen S m f [a, a]).ind 0 n ≤ col (sparseOf codegen S m f [a, a]).ind 1 n := by
            simpa [column, col, sparseOf, List.range_succ] using htri
          refine if_congr ?_ rfl rfl
          constructor
          · rintro ⟨h1, h2 | ⟨h2, h3⟩⟩
            · exact ⟨h1, h2⟩
            · have : k = l := by omega
              subst this
              exact ⟨h1, h2, h3⟩
          · rintro ⟨h1, h2⟩
            exact ⟨h1, Or.inl h2⟩
        rcases Nat.le_total k k' with hkk | hkk
        · exact hsw k k' hk hk' hkk
        · rw [h.form.sym a hmem a hmem k hk k' hk' r hr x, ← hsw k' k hk' hk hkk]
          unfold assemble
          refine Finset.sum_congr rfl fun n _ => ?_
          exact if_congr (and_congr_right fun _ => or_comm) rfl rfl
      · rcases hpab with rfl | rfl
        · rw [← hblock a hmem b hmem' k hk k' hk' fun e => absurd e hab]
          unfold assemble
          refine Finset.sum_congr rfl fun n _ => ?_
          refine if_congr ?_ rfl rfl
          simp [hab, Ne.symm hab]
        · rw [h.form.sym a hmem b hmem' k hk k' hk' r hr x, ← hblock b hmem' a hmem k' hk' k hk fun e => absurd e.symm hab]
          unfold assemble
          refine Finset.sum_congr rfl fun n _ => ?_
          refine if_congr ?_ rfl rfl
          simp [hab, Ne.symm hab]
    · intro q hq hqp
      simp only [Function.comp_apply]
      unfold assemble
      refine Finset.sum_eq_zero fun n _ => if_neg ?_
      rintro ⟨-, ⟨h1, -⟩ | ⟨h1, -⟩⟩
      · simp only [List.cons.injEq, and_true] at h1
        exact hqp (huniq q ⟨hq, Or.inl (Prod.ext h1.1 h1.2)⟩)
      · simp only [List.cons.injEq, and_true] at h1
        exact hqp (huniq q ⟨hq, Or.inr (Prod.ext h1.1 h1.2)⟩)
  · intro it _ hq
    have : (found S m f it.1).length = 0 := by simpa using hq
    simp only [Function.comp_apply]
    have e : (sparseOf codegen S m f it.1).nnz = 0 := this
    rw [e]
    exact assemble_zero _ _

theorem FnOK.hessRight (h : FnOK S ev codegen shape m f c) {o : OptFun ℝ} {R : Reg}
    (ho : o.fn = genOf codegen S m shape f c) (ha : Agrees shape m.decision f.args R) {x : Args}
    (hx1 : ∀ᶠ y in nhds x, SymRight1 S ev shape f R.var y) (hx : SymRight2 S ev shape f R.var x) : HessRight o (symOf ev S m f) R x := by
  have hargs : o.fn.argNames = f.args := by rw [ho]; rfl
  have hout : o.fn.outShape = f.outShape := by rw [ho]; exact h.outShape_eq
  have hbs : ∀ j < f.args.length, (R.bs j).prod = (shape (f.args.getD j "")).prod := fun j hj => by rw [(ha j hj).1]
  refine ⟨fun y r j k => symVal ev (S.deriv f [f.args.getD j ""]) y (k * f.outShape.prod + r), ?_, ?_⟩
  · intro r hr
    rw [hout] at hr
    rw [hargs]
    filter_upwards [hx1] with y hy
    exact HasPartialsAt.congr (hy r hr) hbs fun _ _ _ _ _ => rfl
  · intro r hr j hj hv k hk
    rw [hout] at hr
    rw [hargs] at hj ⊢
    rw [hbs j hj] at hk
    refine HasPartialsAt.congr (hx r hr j hj hv k hk) hbs fun j' hj' hv' k' hk' => ?_
    exact (h.hessEntry_eq ho ha x hr hj hv hk hj' hv' hk').symm

end Ceacoest
