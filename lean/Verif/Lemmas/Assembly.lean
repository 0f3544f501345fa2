import Verif.Lemmas.Registered

/-! Helper lemmas: canonical form of the sparse derivative arrays. -/

namespace Ceacoest
open Spec

/-! ### Folds -/

theorem foldlM_ok {β γ : Type} {f : β → γ → Py β} {g : β → γ → β} (inv : β → List γ → Prop) (l : List γ) (b : β)
    (h0 : inv b l) (h : ∀ b c l, inv b (c :: l) → f b c = .ok (g b c) ∧ inv (g b c) l) :
    l.foldlM f b = .ok (l.foldl g b) := by
  induction l generalizing b with
  | nil => rfl
  | cons c l ih =>
    obtain ⟨h1, h2⟩ := h b c l h0
    rw [List.foldlM_cons, h1]
    exact ih _ h2

/-- Nested loops over components and their blocks, with the capacity assertion. -/
theorem fold_blocks {C K D β : Type} (comps : List C) (get : C → Py (List K)) (L : C → List D) (φ : C → D → K)
    (step : C → β → K → Py β) (app : C → β → D → β) (len : β → Nat) (w : C → D → Nat) (nnz : Nat)
    (hget : ∀ c ∈ comps, get c = .ok ((L c).map (φ c)))
    (hstep : ∀ c ∈ comps, ∀ k ∈ L c, ∀ b, len b + w c k ≤ nnz → step c b (φ c k) = .ok (app c b k))
    (happ : ∀ c ∈ comps, ∀ k ∈ L c, ∀ b, len (app c b k) = len b + w c k) (b0 : β)
    (h0 : len b0 + (comps.map fun c => ((L c).map (w c)).sum).sum ≤ nnz) :
    (comps.foldlM (fun b c => do (← get c).foldlM (step c) b) b0 =
      .ok (comps.foldl (fun b c => (L c).foldl (app c) b) b0)) ∧
    len (comps.foldl (fun b c => (L c).foldl (app c) b) b0) =
      len b0 + (comps.map fun c => ((L c).map (w c)).sum).sum := by
  induction comps generalizing b0 with
  | nil => simp
  | cons c comps ih =>
    rw [List.foldlM_cons, hget c (by simp)]
    simp only [py_bind_ok, List.map_cons, List.sum_cons, List.foldl_cons] at h0 ⊢
    have inner : ∀ (l : List D) (b : β), (∀ k ∈ l, k ∈ L c) → len b + (l.map (w c)).sum ≤ nnz →
        (l.map (φ c)).foldlM (step c) b = .ok (l.foldl (app c) b) ∧
          len (l.foldl (app c) b) = len b + (l.map (w c)).sum := by
      intro l
      induction l with
      | nil => intro b _ _; simp
      | cons k l ih =>
        intro b hm hb
        simp only [List.map_cons, List.sum_cons] at hb
        rw [List.map_cons, List.foldlM_cons, hstep c (by simp) k (hm k (by simp)) b (by omega)]
        simp only [py_bind_ok, List.foldl_cons, List.map_cons, List.sum_cons]
        have ha := happ c (by simp) k (hm k (by simp)) b
        obtain ⟨h1, h2⟩ := ih (app c b k) (fun k' hk' => hm k' (by simp [hk'])) (by omega)
        exact ⟨h1, by rw [h2]; omega⟩
    obtain ⟨h1, h2⟩ := inner (L c) b0 (fun _ h => h) (by omega)
    rw [h1]
    simp only [py_bind_ok]
    obtain ⟨h3, h4⟩ := ih (fun c' hc' => hget c' (by simp [hc'])) (fun c' hc' => hstep c' (by simp [hc']))
      (fun c' hc' => happ c' (by simp [hc'])) _ (by rw [h2]; omega)
    exact ⟨h3, by rw [h4, h2]; omega⟩

theorem foldl_append {C γ : Type} (l : List C) (A : C → List γ) (b : List γ) :
    l.foldl (fun b c => b ++ A c) b = b ++ l.flatMap A := by
  induction l generalizing b with
  | nil => simp
  | cons c l ih => simp [ih]

theorem foldl_append2 {C γ δ : Type} (l : List C) (A : C → List γ) (B : C → List δ) (b : List γ × List δ) :
    l.foldl (fun b c => (b.1 ++ A c, b.2 ++ B c)) b = (b.1 ++ l.flatMap A, b.2 ++ l.flatMap B) := by
  induction l generalizing b with
  | nil => simp
  | cons c l ih => simp [ih]

theorem foldl_append3 {C γ δ ε : Type} (l : List C) (A : C → List γ) (B : C → List δ) (D : C → List ε)
    (b : List γ × List δ × List ε) :
    l.foldl (fun b c => (b.1 ++ A c, b.2.1 ++ B c, b.2.2 ++ D c)) b =
      (b.1 ++ l.flatMap A, b.2.1 ++ l.flatMap B, b.2.2 ++ l.flatMap D) := by
  induction l generalizing b with
  | nil => simp
  | cons c l ih => simp [ih]

theorem sumNnz_eq {α C : Type} (p : Problem α) (comps : List C) (nnz : C → Dict String (List Nat) → Py Nat)
    (N : C → Nat) (h : ∀ c ∈ comps, nnz c p.variableShapes = .ok (N c)) :
    p.sumNnz comps nnz = .ok (comps.map N).sum := by
  unfold Problem.sumNnz
  have : ∀ (l : List C) (a : Nat), (∀ c ∈ l, c ∈ comps) →
      l.foldlM (fun s c => do return s + (← nnz c p.variableShapes)) a = (.ok (a + (l.map N).sum) : Py Nat) := by
    intro l
    induction l with
    | nil => intro a _; simp
    | cons c l ih =>
      intro a hm
      rw [List.foldlM_cons, h c (hm c (by simp))]
      refine (ih (a + N c) fun c' hc' => hm c' (by simp [hc'])).trans ?_
      simp [Nat.add_assoc]
  simpa using this comps 0 fun _ h => h

/-! ### One function -/

/-- Number of the `i`-th differentiated argument of a derivative. -/
def argOf (o : OptFun ℝ) (wrt : List String) (i : Nat) : Nat := o.fn.argNames.idxOf (wrt.getD i "")

/-- One list entry per extension element and base nonzero. -/
def blk {γ : Type} (R : Reg) (d : SparseDeriv ℝ) (f : Nat → Nat → γ) : List γ :=
  (List.range R.E.prod).flatMap fun e => (List.range d.nnz).map (f e)

theorem blk_length {γ : Type} (R : Reg) (d : SparseDeriv ℝ) (f : Nat → Nat → γ) :
    (blk R d f).length = R.E.prod * d.nnz := by
  unfold blk
  rw [range_flatMap_map R.E.prod d.nnz f]
  simp

theorem blk_map {γ δ : Type} (R : Reg) (d : SparseDeriv ℝ) (f : Nat → Nat → γ) (g : γ → δ) :
    (blk R d f).map g = blk R d fun e n => g (f e n) := by
  unfold blk
  rw [range_flatMap_map R.E.prod d.nnz f, range_flatMap_map R.E.prod d.nnz fun e n => g (f e n)]
  simp

theorem mem_blk {γ : Type} {R : Reg} {d : SparseDeriv ℝ} {f : Nat → Nat → γ} {x : γ} (h : x ∈ blk R d f) :
    ∃ e < R.E.prod, ∃ n < d.nnz, f e n = x := by
  unfold blk at h
  obtain ⟨e, he, h⟩ := List.mem_flatMap.1 h
  obtain ⟨n, hn, h⟩ := List.mem_map.1 h
  exact ⟨e, List.mem_range.1 he, n, List.mem_range.1 hn, h⟩

theorem blk_congr {γ : Type} {R : Reg} {d : SparseDeriv ℝ} {f g : Nat → Nat → γ}
    (h : ∀ e < R.E.prod, ∀ n < d.nnz, f e n = g e n) : blk R d f = blk R d g := by
  unfold blk
  refine List.flatMap_congr fun e he => List.map_congr_left fun n hn => h e (List.mem_range.1 he) n (List.mem_range.1 hn)

theorem blk_row {γ : Type} (R : Reg) (d : SparseDeriv ℝ) (row : List Nat) (hr : row.length = d.nnz)
    (f : Nat → Nat → γ) :
    ((List.range R.E.prod).flatMap fun e => row.map (f e)) = blk R d fun e n => f e (row.getD n 0) := by
  unfold blk
  refine List.flatMap_congr fun e _ => ?_
  conv_lhs => rw [eq_map_range_getD 0 row hr]
  simp

theorem blk_sum (R : Reg) (d : SparseDeriv ℝ) (f : Nat → Nat → ℝ) :
    (blk R d f).sum = ∑ e ∈ Finset.range R.E.prod, ∑ n ∈ Finset.range d.nnz, f e n := by
  unfold blk
  have h1 : ∀ (g : Nat → ℝ) (N : Nat), ((List.range N).map g).sum = ∑ n ∈ Finset.range N, g n := by
    intro g N
    induction N with
    | zero => simp
    | succ N ih => rw [List.range_succ, Finset.sum_range_succ, ← ih]; simp
  have h2 : ∀ N, ((List.range N).flatMap fun e => (List.range d.nnz).map (f e)).sum =
      ∑ e ∈ Finset.range N, ((List.range d.nnz).map (f e)).sum := by
    intro N
    induction N with
    | zero => simp
    | succ N ih => rw [List.range_succ, Finset.sum_range_succ, ← ih]; simp
  rw [h2]
  exact Finset.sum_congr rfl fun e _ => h1 _ _

section
variable {p : Problem ℝ} {calls : List (Problem.Call ℝ)} {o : OptFun ℝ} {s : Sym} {R : Reg}
  (hp : ProblemOK p calls) (ho : FunOK p o s R)
include hp ho
set_option linter.unusedSectionVars false

theorem Spec.FunOK.idx {j : Nat} (hj : j < o.fn.argNames.length) :
    o.fn.argNames.idxOf (o.fn.argNames.getD j "") = j := by
  have : o.fn.argNames.getD j "" = o.fn.argNames[j] := by simp [List.getD_eq_getElem?_getD, hj]
  rw [this]
  exact ho.sig.idxOf_getElem j hj

theorem Spec.FunOK.shapes {j : Nat} (hj : j < o.fn.argNames.length) (hv : R.var j = true) :
    Dict.get? (o.renameKwargs p.variableShapes) (o.fn.argNames.getD j "") = some (R.ext j ++ R.bs j) := by
  obtain ⟨h1, h2⟩ := ho.spec hp hj hv
  have h3 := variableShapes_get hp h1
  rw [h2] at h3
  obtain ⟨args, hargs⟩ := ho.made
  have hl : ∀ as, args = some as → as.length = o.fn.argNames.length := by
    intro as h
    subst h
    have := ho.nargs
    rw [hargs] at this
    simpa [OptFun.mk'] using this
  have := C32_renameKwargs o.shape o.fn args ho.sig hl p.variableShapes j hj (R.ext j ++ R.bs j)
    (by rw [← hargs]; exact h3)
  rw [← hargs] at this
  simpa [List.getD_eq_getElem?_getD, hj] using this

theorem Spec.FunOK.rename {β : Type} (deriv : Dict (List String) β) (hk : (Dict.keys deriv).Nodup)
    (hin : ∀ kv ∈ deriv, ∀ a ∈ kv.1, a ∈ o.fn.argNames) :
    o.renameTup deriv = deriv.map fun kv => (kv.1.map fun a => o.args.getD (o.fn.argNames.idxOf a) "", kv.2) := by
  obtain ⟨args, hargs⟩ := ho.made
  have hl : ∀ as, args = some as → as.length = o.fn.argNames.length ∧ as.Nodup := by
    intro as h
    subst h
    have h1 := ho.nargs
    have h2 := ho.args
    rw [hargs] at h1 h2
    exact ⟨by simpa [OptFun.mk'] using h1, by simpa [OptFun.mk'] using h2⟩
  have := C32_renameTup o.shape o.fn args ho.sig hl deriv hk hin
  rwa [← hargs] at this

theorem Spec.SparseOK.names {deriv : Dict (List String) (SparseDeriv ℝ)} {V : List String → Args → Nat → ℝ} {order : Nat}
    (hs : SparseOK o R deriv V order) : ∀ kv ∈ deriv, ∀ a ∈ kv.1, a ∈ o.fn.argNames := by
  intro kv hkv a ha
  obtain ⟨js, -, h2, h3, -⟩ := hs.2 kv.1 kv.2 hkv
  rw [h3] at ha
  obtain ⟨j, hj, rfl⟩ := List.mem_map.1 ha
  have := (h2 j hj).1
  simp [List.getD_eq_getElem?_getD, this]

/-- Facts about one derivative of order 1. -/
theorem Spec.SparseOK.one {deriv : Dict (List String) (SparseDeriv ℝ)} {V : List String → Args → Nat → ℝ}
    (hs : SparseOK o R deriv V 1) {wrt : List String} {d : SparseDeriv ℝ} (hd : (wrt, d) ∈ deriv) :
    argOf o wrt 0 < o.fn.argNames.length ∧ R.var (argOf o wrt 0) = true ∧
    wrt = [o.fn.argNames.getD (argOf o wrt 0) ""] ∧
    (∃ r0 r1, d.ind = [r0, r1] ∧ r0.length = d.nnz ∧ r1.length = d.nnz) ∧
    (∀ n < d.nnz, col d.ind 0 n < (R.bs (argOf o wrt 0)).prod ∧ col d.ind 1 n < o.fn.outShape.prod) ∧
    Vectorised d.val ((List.range o.fn.argNames.length).map R.bs) [d.nnz] (V wrt) := by
  obtain ⟨js, h1, h2, h3, h4, h5⟩ := hs.2 wrt d hd
  obtain ⟨j, rfl⟩ := List.length_eq_one_iff.1 h1
  obtain ⟨hj, hv⟩ := h2 j (by simp)
  have ha : argOf o wrt 0 = j := by
    rw [argOf, h3]
    simpa using ho.idx hp hj
  rw [ha]
  unfold IndOK at h4
  simp only [List.map_cons, List.map_nil, List.singleton_append] at h4
  obtain ⟨r0, u, hr0, hu, e1⟩ := List.forall₂_cons_right_iff.1 h4
  obtain ⟨r1, u', hr1, hu', e2⟩ := List.forall₂_cons_right_iff.1 hu
  obtain rfl := List.forall₂_nil_right_iff.1 hu'
  subst e2
  refine ⟨hj, hv, h3, ⟨r0, r1, e1, hr0.1, hr1.1⟩, fun n hn => ?_, h5⟩
  rw [e1]
  constructor
  · have : n < r0.length := by omega
    simpa [col, List.getD_eq_getElem?_getD, this] using hr0.2 _ (List.getElem_mem this)
  · have : n < r1.length := by omega
    simpa [col, List.getD_eq_getElem?_getD, this] using hr1.2 _ (List.getElem_mem this)

/-- Facts about one derivative of order 2. -/
theorem Spec.SparseOK.two {deriv : Dict (List String) (SparseDeriv ℝ)} {V : List String → Args → Nat → ℝ}
    (hs : SparseOK o R deriv V 2) {wrt : List String} {d : SparseDeriv ℝ} (hd : (wrt, d) ∈ deriv) :
    argOf o wrt 0 < o.fn.argNames.length ∧ R.var (argOf o wrt 0) = true ∧
    argOf o wrt 1 < o.fn.argNames.length ∧ R.var (argOf o wrt 1) = true ∧
    wrt = [o.fn.argNames.getD (argOf o wrt 0) "", o.fn.argNames.getD (argOf o wrt 1) ""] ∧
    (∃ r0 r1 r2, d.ind = [r0, r1, r2] ∧ r0.length = d.nnz ∧ r1.length = d.nnz ∧ r2.length = d.nnz) ∧
    (∀ n < d.nnz, col d.ind 0 n < (R.bs (argOf o wrt 0)).prod ∧ col d.ind 1 n < (R.bs (argOf o wrt 1)).prod ∧
      col d.ind 2 n < o.fn.outShape.prod) ∧
    Vectorised d.val ((List.range o.fn.argNames.length).map R.bs) [d.nnz] (V wrt) := by
  obtain ⟨js, h1, h2, h3, h4, h5⟩ := hs.2 wrt d hd
  obtain ⟨j, j', rfl⟩ := List.length_eq_two.1 h1
  obtain ⟨hj, hv⟩ := h2 j (by simp)
  obtain ⟨hj', hv'⟩ := h2 j' (by simp)
  have ha : argOf o wrt 0 = j := by
    rw [argOf, h3]
    simpa using ho.idx hp hj
  have ha' : argOf o wrt 1 = j' := by
    rw [argOf, h3]
    simpa using ho.idx hp hj'
  rw [ha, ha']
  unfold IndOK at h4
  simp only [List.map_cons, List.map_nil, List.cons_append, List.nil_append] at h4
  obtain ⟨r0, u, hr0, hu, e1⟩ := List.forall₂_cons_right_iff.1 h4
  obtain ⟨r1, u', hr1, hu', e2⟩ := List.forall₂_cons_right_iff.1 hu
  obtain ⟨r2, u'', hr2, hu'', e3⟩ := List.forall₂_cons_right_iff.1 hu'
  obtain rfl := List.forall₂_nil_right_iff.1 hu''
  subst e3
  subst e2
  refine ⟨hj, hv, hj', hv', h3, ⟨r0, r1, r2, e1, hr0.1, hr1.1, hr2.1⟩, fun n hn => ?_, h5⟩
  rw [e1]
  refine ⟨?_, ?_, ?_⟩
  · have : n < r0.length := by omega
    simpa [col, List.getD_eq_getElem?_getD, this] using hr0.2 _ (List.getElem_mem this)
  · have : n < r1.length := by omega
    simpa [col, List.getD_eq_getElem?_getD, this] using hr1.2 _ (List.getElem_mem this)
  · have : n < r2.length := by omega
    simpa [col, List.getD_eq_getElem?_getD, this] using hr2.2 _ (List.getElem_mem this)

/-- Flat index row of differentiated argument `i`. -/
def wrtRowOf (o : OptFun ℝ) (R : Reg) (wd : List String × SparseDeriv ℝ) (i : Nat) : List Nat :=
  blk R wd.2 fun e n => bcIdx (R.ext (argOf o wd.1 i)) R.E e * (R.bs (argOf o wd.1 i)).prod + col wd.2.ind i n

/-- Flat index row of the output, the last index row being number `i`. -/
def outRowOf (o : OptFun ℝ) (R : Reg) (wd : List String × SparseDeriv ℝ) (i : Nat) : List Nat :=
  blk R wd.2 fun e n => e * o.fn.outShape.prod + col wd.2.ind i n

/-- The problem variables to which a block is credited. -/
def renOf (o : OptFun ℝ) (wrt : List String) : List String := wrt.map fun a => o.args.getD (o.fn.argNames.idxOf a) ""

theorem sparse_rows {deriv : Dict (List String) (SparseDeriv ℝ)} (hk : (Dict.keys deriv).Nodup)
    (hin : ∀ kv ∈ deriv, ∀ a ∈ kv.1, a ∈ o.fn.argNames) (rows : List String × SparseDeriv ℝ → List (List Nat))
    (h : ∀ wd ∈ deriv, o.fn.derivInd (o.renameKwargs p.variableShapes) o.shape wd.1 wd.2 = .ok (rows wd)) :
    (do return o.renameTup (← o.fn.sparseInd deriv (o.renameKwargs p.variableShapes) o.shape) : Py _) =
      .ok (deriv.map fun wd => (renOf o wd.1, rows wd)) := by
  unfold GenFun.sparseInd
  rw [mapM_ok (g := fun wd => (wd.1, rows wd))]
  · simp only [py_bind_ok, py_pure]
    rw [ho.rename hp]
    · simp [renOf, Function.comp_def]
    · simpa [Dict.keys, Function.comp_def] using hk
    · intro kv hkv a ha
      obtain ⟨wd, hwd, rfl⟩ := List.mem_map.1 hkv
      exact hin wd hwd a ha
  · intro wd hwd
    rw [h wd hwd]
    rfl

theorem sparse_vals {deriv : Dict (List String) (SparseDeriv ℝ)} (hk : (Dict.keys deriv).Nodup)
    (hin : ∀ kv ∈ deriv, ∀ a ∈ kv.1, a ∈ o.fn.argNames) (V : List String → Args → Nat → ℝ)
    (hV : ∀ wrt d, (wrt, d) ∈ deriv → Vectorised d.val ((List.range o.fn.argNames.length).map R.bs) [d.nnz] (V wrt))
    (dvec : List ℝ) (hl : dvec.length = p.ndec) (vs : Dict String (NDArray ℝ)) (hvs : p.variables dvec = .ok vs) :
    (do return o.renameTup (GenFun.sparseVal deriv (← o.argVals vs)) : Py _) =
      .ok (deriv.map fun wd => (renOf o wd.1, (⟨R.E ++ [wd.2.nnz], blk R wd.2 fun e n =>
        V wd.1 (argsOf p o R e dvec) n⟩ : NDArray ℝ))) := by
  obtain ⟨vals, h0, -⟩ := ho.vals hp dvec hl vs hvs
  rw [h0]
  simp only [py_bind_ok, py_pure]
  congr 1
  have h1 : GenFun.sparseVal deriv vals = deriv.map fun wd => (wd.1, (⟨R.E ++ [wd.2.nnz], blk R wd.2 fun e n =>
        V wd.1 (argsOf p o R e dvec) n⟩ : NDArray ℝ)) := by
    unfold GenFun.sparseVal
    refine List.map_congr_left fun wd hwd => ?_
    obtain ⟨h2, h3⟩ := ho.vec hp dvec hl vals vs hvs h0 (hV wd.1 wd.2 hwd)
    congr 1
    cases hx : wd.2.val vals with
    | mk sh dat =>
      rw [hx] at h2 h3
      simp only at h2 h3
      subst h2
      subst h3
      simp [blk]
  rw [h1, ho.rename hp]
  · simp [renOf, Function.comp_def]
  · simpa [Dict.keys, Function.comp_def] using hk
  · intro kv hkv a ha
    obtain ⟨wd, hwd, rfl⟩ := List.mem_map.1 hkv
    exact hin wd hwd a ha

theorem Spec.FunOK.derivInd1 {deriv : Dict (List String) (SparseDeriv ℝ)} {V : List String → Args → Nat → ℝ}
    (hs : SparseOK o R deriv V 1) (wd : List String × SparseDeriv ℝ) (hd : wd ∈ deriv) :
    o.fn.derivInd (o.renameKwargs p.variableShapes) o.shape wd.1 wd.2 = .ok [wrtRowOf o R wd 0, outRowOf o R wd 1] := by
  obtain ⟨hj, hv, hw, ⟨r0, r1, hi, hl0, hl1⟩, -, -⟩ := hs.one hp ho (wrt := wd.1) (d := wd.2) hd
  have hidx := ho.idx hp hj
  rw [ho.shape]
  rw [derivInd_eq o.fn (o.renameKwargs p.variableShapes) R.E wd.1 wd.2 [r0] r1
    (fun a => R.ext (o.fn.argNames.idxOf a)) (fun a => R.bs (o.fn.argNames.idxOf a)) (by rw [hw]; simp)
    (by rw [hw]; simp) (by rw [hi]; simp)]
  · have e0 : wrtRowOf o R wd 0 = (List.range R.E.prod).flatMap fun e =>
        r0.map fun i => i + bcIdx (R.ext (argOf o wd.1 0)) R.E e * (R.bs (argOf o wd.1 0)).prod := by
      rw [blk_row R wd.2 r0 hl0]
      exact blk_congr fun e _ n _ => by simp [hi, col, Nat.add_comm]
    have e1 : outRowOf o R wd 1 = (List.range R.E.prod).flatMap fun e =>
        r1.map fun i => i + e * o.fn.outShape.prod := by
      rw [blk_row R wd.2 r1 hl1]
      exact blk_congr fun e _ n _ => by simp [hi, col, Nat.add_comm]
    rw [e0, e1]
    have : wd.1.zip [r0] = [(o.fn.argNames.getD (argOf o wd.1 0) "", r0)] := by
      conv_lhs => rw [hw]
      rfl
    rw [this]
    simp only [List.map_cons, List.map_nil, List.cons_append, List.nil_append, hidx]
  · intro a ha
    rw [hw] at ha
    simp only [List.mem_singleton] at ha
    subst ha
    rw [hidx]
    exact ⟨by rw [ho.shapes hp hj hv, Option.getD_some], ho.base _ hj hv, ho.canBc hp hj⟩

theorem Spec.FunOK.derivInd2 {deriv : Dict (List String) (SparseDeriv ℝ)} {V : List String → Args → Nat → ℝ}
    (hs : SparseOK o R deriv V 2) (wd : List String × SparseDeriv ℝ) (hd : wd ∈ deriv) :
    o.fn.derivInd (o.renameKwargs p.variableShapes) o.shape wd.1 wd.2 =
      .ok [wrtRowOf o R wd 0, wrtRowOf o R wd 1, outRowOf o R wd 2] := by
  obtain ⟨hj, hv, hj', hv', hw, ⟨r0, r1, r2, hi, hl0, hl1, hl2⟩, -, -⟩ := hs.two hp ho (wrt := wd.1) (d := wd.2) hd
  have hidx := ho.idx hp hj
  have hidx' := ho.idx hp hj'
  rw [ho.shape]
  rw [derivInd_eq o.fn (o.renameKwargs p.variableShapes) R.E wd.1 wd.2 [r0, r1] r2
    (fun a => R.ext (o.fn.argNames.idxOf a)) (fun a => R.bs (o.fn.argNames.idxOf a)) (by rw [hw]; simp)
    (by rw [hw]; simp) (by rw [hi]; simp)]
  · have e0 : wrtRowOf o R wd 0 = (List.range R.E.prod).flatMap fun e =>
        r0.map fun i => i + bcIdx (R.ext (argOf o wd.1 0)) R.E e * (R.bs (argOf o wd.1 0)).prod := by
      rw [blk_row R wd.2 r0 hl0]
      exact blk_congr fun e _ n _ => by simp [hi, col, Nat.add_comm]
    have e1 : wrtRowOf o R wd 1 = (List.range R.E.prod).flatMap fun e =>
        r1.map fun i => i + bcIdx (R.ext (argOf o wd.1 1)) R.E e * (R.bs (argOf o wd.1 1)).prod := by
      rw [blk_row R wd.2 r1 hl1]
      exact blk_congr fun e _ n _ => by simp [hi, col, Nat.add_comm]
    have e2 : outRowOf o R wd 2 = (List.range R.E.prod).flatMap fun e =>
        r2.map fun i => i + e * o.fn.outShape.prod := by
      rw [blk_row R wd.2 r2 hl2]
      exact blk_congr fun e _ n _ => by simp [hi, col, Nat.add_comm]
    rw [e0, e1, e2]
    have : wd.1.zip [r0, r1] = [(o.fn.argNames.getD (argOf o wd.1 0) "", r0),
        (o.fn.argNames.getD (argOf o wd.1 1) "", r1)] := by
      conv_lhs => rw [hw]
      rfl
    rw [this]
    simp only [List.map_cons, List.map_nil, List.cons_append, List.nil_append, hidx, hidx']
  · intro a ha
    rw [hw] at ha
    simp only [List.mem_cons, List.not_mem_nil, or_false] at ha
    rcases ha with rfl | rfl
    · rw [hidx]
      exact ⟨by rw [ho.shapes hp hj hv, Option.getD_some], ho.base _ hj hv, ho.canBc hp hj⟩
    · rw [hidx']
      exact ⟨by rw [ho.shapes hp hj' hv', Option.getD_some], ho.base _ hj' hv', ho.canBc hp hj'⟩

/-- Converting an index row to decision indices. -/
theorem convert_row (wd : List String × SparseDeriv ℝ) (i : Nat) (hj : argOf o wd.1 i < o.fn.argNames.length)
    (hv : R.var (argOf o wd.1 i) = true) (hc : ∀ n < wd.2.nnz, col wd.2.ind i n < (R.bs (argOf o wd.1 i)).prod) :
    p.variableSpec (o.args.getD (argOf o wd.1 i) "") = .ok (specOf p o (argOf o wd.1 i)) ∧
    (wrtRowOf o R wd i).mapM (specOf p o (argOf o wd.1 i)).convertInd =
      .ok (blk R wd.2 fun e n => posOf p o R e (argOf o wd.1 i) (col wd.2.ind i n)) := by
  obtain ⟨h1, h2⟩ := ho.spec hp hj hv
  refine ⟨h1, ?_⟩
  rw [mapM_ok (g := convOf (specOf p o (argOf o wd.1 i)))]
  · rw [wrtRowOf, blk_map]
    rfl
  · intro q hq
    obtain ⟨e, he, n, hn, rfl⟩ := mem_blk hq
    have := (spec_gathers hp h1).ind (bcIdx (R.ext (argOf o wd.1 i)) R.E e * (R.bs (argOf o wd.1 i)).prod +
      col wd.2.ind i n) (by rw [h2]; exact ho.flat_lt hp hj he (hc n hn))
    exact this

end

end Ceacoest
