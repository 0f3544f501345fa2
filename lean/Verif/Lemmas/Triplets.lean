import Verif.Lemmas.Assembly

/-! Helper lemmas: the sparse derivative arrays of a problem, as lists over its functions. -/

namespace Ceacoest
open Spec

/-- Concatenation over components, derivatives, extension elements and base nonzeros. -/
def spread {C γ : Type} (cs : List C) (D : C → Dict (List String) (SparseDeriv ℝ)) (R : C → Reg)
    (f : C → List String × SparseDeriv ℝ → Nat → Nat → γ) : List γ :=
  cs.flatMap fun c => (D c).flatMap fun wd => blk (R c) wd.2 (f c wd)

/-- Its length. -/
def spreadLen {C : Type} (cs : List C) (D : C → Dict (List String) (SparseDeriv ℝ)) (R : C → Reg) : Nat :=
  (cs.map fun c => ((D c).map fun wd => (R c).E.prod * wd.2.nnz).sum).sum

section
variable {C γ δ : Type} {cs : List C} {D : C → Dict (List String) (SparseDeriv ℝ)} {R : C → Reg}

theorem spread_length (f : C → List String × SparseDeriv ℝ → Nat → Nat → γ) :
    (spread cs D R f).length = spreadLen cs D R := by
  simp [spread, spreadLen, List.length_flatMap, blk_length]

theorem spread_map (f : C → List String × SparseDeriv ℝ → Nat → Nat → γ) (g : γ → δ) :
    (spread cs D R f).map g = spread cs D R fun c wd e n => g (f c wd e n) := by
  simp [spread, List.map_flatMap, blk_map]

theorem mem_spread {f : C → List String × SparseDeriv ℝ → Nat → Nat → γ} {x : γ} (h : x ∈ spread cs D R f) :
    ∃ c ∈ cs, ∃ wd ∈ D c, ∃ e < (R c).E.prod, ∃ n < wd.2.nnz, f c wd e n = x := by
  obtain ⟨c, hc, h⟩ := List.mem_flatMap.1 h
  obtain ⟨wd, hwd, h⟩ := List.mem_flatMap.1 h
  obtain ⟨e, he, n, hn, h⟩ := mem_blk h
  exact ⟨c, hc, wd, hwd, e, he, n, hn, h⟩

theorem spread_congr {f g : C → List String × SparseDeriv ℝ → Nat → Nat → γ}
    (h : ∀ c ∈ cs, ∀ wd ∈ D c, ∀ e < (R c).E.prod, ∀ n < wd.2.nnz, f c wd e n = g c wd e n) :
    spread cs D R f = spread cs D R g := by
  unfold spread
  refine List.flatMap_congr fun c hc => List.flatMap_congr fun wd hwd => blk_congr fun e he n hn => h c hc wd hwd e he n hn

theorem list_sum_flatMap {β : Type} (l : List β) (f : β → List ℝ) : (l.flatMap f).sum = (l.map fun b => (f b).sum).sum := by
  induction l with
  | nil => simp
  | cons a l ih => simp [ih]

theorem spread_sum (f : C → List String × SparseDeriv ℝ → Nat → Nat → ℝ) :
    (spread cs D R f).sum = (cs.map fun c => ((D c).map fun wd =>
      ∑ e ∈ Finset.range (R c).E.prod, ∑ n ∈ Finset.range wd.2.nnz, f c wd e n).sum).sum := by
  simp [spread, list_sum_flatMap, blk_sum]

theorem sum_getD {β : Type} (l : List β) (d : β) (g : β → ℝ) :
    ∑ n ∈ Finset.range l.length, g (l.getD n d) = (l.map g).sum := by
  induction l using List.reverseRecOn with
  | nil => simp
  | append_singleton l a ih =>
    rw [List.length_append, List.length_singleton, Finset.sum_range_succ, List.map_append, List.sum_append, ← ih]
    congr 1
    · refine Finset.sum_congr rfl fun n hn => ?_
      simp [List.getD_eq_getElem?_getD, List.getElem?_append_left (Finset.mem_range.1 hn)]
    · simp

/-- Assembling a sparse list written as index rows and values. -/
theorem assemble_spread (f g : C → List String × SparseDeriv ℝ → Nat → Nat → Nat)
    (v : C → List String × SparseDeriv ℝ → Nat → Nat → ℝ) (hit : Nat → Nat → Prop) [∀ a b, Decidable (hit a b)] :
    assemble (spread cs D R v).length (fun n => hit ((spread cs D R f).getD n 0) ((spread cs D R g).getD n 0))
      (fun n => (spread cs D R v).getD n 0) =
    (cs.map fun c => ((D c).map fun wd => ∑ e ∈ Finset.range (R c).E.prod, ∑ n ∈ Finset.range wd.2.nnz,
      if hit (f c wd e n) (g c wd e n) then v c wd e n else 0).sum).sum := by
  set T := spread cs D R fun c wd e n => (f c wd e n, g c wd e n, v c wd e n) with hT
  have h1 : spread cs D R f = T.map (·.1) := by rw [hT, spread_map]
  have h2 : spread cs D R g = T.map (·.2.1) := by rw [hT, spread_map]
  have h3 : spread cs D R v = T.map (·.2.2) := by rw [hT, spread_map]
  have := sum_getD T (0, 0, 0) fun t => if hit t.1 t.2.1 then t.2.2 else 0
  rw [h1, h2, h3, ← spread_sum fun c wd e n => if hit (f c wd e n) (g c wd e n) then v c wd e n else 0]
  rw [hT, spread_map] at this
  rw [← this]
  unfold assemble
  rw [List.length_map]
  refine Finset.sum_congr rfl fun n hn => ?_
  have hn : n < T.length := Finset.mem_range.1 hn
  rw [← hT]
  simp [List.getD_eq_getElem?_getD, hn]

end

section
variable {p : Problem ℝ} {calls : List (Problem.Call ℝ)} (S : OptFun ℝ → Sym) (R : OptFun ℝ → Reg)

theorem constr_le {α : Type} {p : Problem α} {calls : List (Problem.Call α)} (hp : ProblemOK p calls)
    {c : Constr α} (hc : c ∈ p.constraints) : c.offset + c.fn.shape.prod ≤ p.ncons := by
  obtain ⟨ex, rfl⟩ := hp.reach
  exact (inv_run calls).conTiles.mem_le (x := (c.offset, c.fn.shape.prod)) (List.mem_map_of_mem hc)

/-- Position in the constraint vector. -/
def cposOf (row : Nat) (c : Constr ℝ) (wd : List String × SparseDeriv ℝ) (e n : Nat) : Nat :=
  e * c.fn.fn.outShape.prod + col wd.2.ind row n + c.offset

variable (hp : ProblemOK p calls)
include hp
set_option linter.unusedSectionVars false

theorem nnz_form {C : Type} (cs : List C) (fn : C → OptFun ℝ) (D : GenFun ℝ → Dict (List String) (SparseDeriv ℝ))
    (h : ∀ c ∈ cs, FunOK p (fn c) (S (fn c)) (R (fn c))) :
    (p.sumNnz cs fun c _ => (fn c).fn.sparseNnz (D (fn c).fn) (fn c).shape) =
      .ok (spreadLen cs (fun c => D (fn c).fn) fun c => R (fn c)) := by
  refine sumNnz_eq p cs _ _ fun c hc => ?_
  rw [(h c hc).shape]
  exact C29_nnz _ _ _

theorem val_form {C : Type} (cs : List C) (fn : C → OptFun ℝ) (D : GenFun ℝ → Dict (List String) (SparseDeriv ℝ))
    (V : Sym → List String → Args → Nat → ℝ) (order : Nat)
    (h : ∀ c ∈ cs, FunOK p (fn c) (S (fn c)) (R (fn c)) ∧ SparseOK (fn c) (R (fn c)) (D (fn c).fn) (V (S (fn c))) order)
    (dvec : List ℝ) (hl : dvec.length = p.ndec) :
    p.sparseFunVal dvec (spreadLen cs (fun c => D (fn c).fn) fun c => R (fn c)) cs
      (fun c vs => do return (fn c).renameTup (GenFun.sparseVal (D (fn c).fn) (← (fn c).argVals vs))) =
      .ok (spread cs (fun c => D (fn c).fn) (fun c => R (fn c)) fun c wd e n =>
        V (S (fn c)) wd.1 (argsOf p (fn c) (R (fn c)) e dvec) n) := by
  obtain ⟨vs, hvs, -, -⟩ := variables_eq hp dvec hl
  unfold Problem.sparseFunVal
  rw [hvs]
  simp only [py_bind_ok]
  obtain ⟨h1, h2⟩ := fold_blocks cs
    (fun c => (do return (fn c).renameTup (GenFun.sparseVal (D (fn c).fn) (← (fn c).argVals vs)) : Py _))
    (fun c => D (fn c).fn)
    (fun c wd => (renOf (fn c) wd.1, (⟨(R (fn c)).E ++ [wd.2.nnz], blk (R (fn c)) wd.2 fun e n =>
        V (S (fn c)) wd.1 (argsOf p (fn c) (R (fn c)) e dvec) n⟩ : NDArray ℝ)))
    (fun _ (val : List ℝ) kv => do
      pyAssert (val.length + kv.2.data.length ≤ spreadLen cs (fun c => D (fn c).fn) fun c => R (fn c))
      return val ++ kv.2.data)
    (fun c b wd => b ++ blk (R (fn c)) wd.2 fun e n => V (S (fn c)) wd.1 (argsOf p (fn c) (R (fn c)) e dvec) n)
    List.length (fun c wd => (R (fn c)).E.prod * wd.2.nnz) (spreadLen cs (fun c => D (fn c).fn) fun c => R (fn c))
    (fun c hc => by
      obtain ⟨ho, hs⟩ := h c hc
      exact sparse_vals hp ho hs.1 (hs.names hp ho) (V (S (fn c)))
        (fun wrt d hd => by obtain ⟨_, _, _, _, _, h⟩ := hs.2 wrt d hd; exact h) dvec hl vs hvs)
    (fun c hc wd hwd b hb => by
      simp only [blk_length]
      rw [pyAssert_true hb]
      rfl)
    (fun c hc wd hwd b => by rw [List.length_append, blk_length]) []
    (by simp [spreadLen])
  rw [h1]
  simp only [py_bind_ok]
  rw [pyAssert_true (by rw [h2]; simp [spreadLen])]
  simp only [py_bind_ok, py_pure]
  congr 1
  simp only [foldl_append]
  simp [spread]

/-- `constr_jac_ind` and `constr_jac_val`. -/
theorem jac_form (h : ∀ c ∈ p.constraints, FunOK p c.fn (S c.fn) (R c.fn) ∧
      SparseOK c.fn (R c.fn) c.fn.fn.jac (S c.fn).jac 1) :
    p.constrJacNnz = .ok (spreadLen p.constraints (fun c => c.fn.fn.jac) fun c => R c.fn) ∧
    p.constrJacInd = .ok
      (spread p.constraints (fun c => c.fn.fn.jac) (fun c => R c.fn) fun c wd e n =>
        posOf p c.fn (R c.fn) e (argOf c.fn wd.1 0) (col wd.2.ind 0 n),
       spread p.constraints (fun c => c.fn.fn.jac) (fun c => R c.fn) (cposOf 1)) ∧
    ∀ dvec : List ℝ, dvec.length = p.ndec → p.constrJacVal dvec = .ok
      (spread p.constraints (fun c => c.fn.fn.jac) (fun c => R c.fn) fun c wd e n =>
        (S c.fn).jac wd.1 (argsOf p c.fn (R c.fn) e dvec) n) := by
  have hn : p.constrJacNnz = .ok (spreadLen p.constraints (fun c => c.fn.fn.jac) fun c => R c.fn) :=
    nnz_form S R hp p.constraints (·.fn) (·.jac) fun c hc => (h c hc).1
  refine ⟨hn, ?_, fun dvec hl => ?_⟩
  · unfold Problem.constrJacInd
    rw [hn]
    simp only [py_bind_ok]
    obtain ⟨h1, h2⟩ := fold_blocks p.constraints (fun c => c.fn.jacInd p.variableShapes) (fun c => c.fn.fn.jac)
      (fun c wd => (renOf c.fn wd.1, [wrtRowOf c.fn (R c.fn) wd 0, outRowOf c.fn (R c.fn) wd 1]))
      (fun c (ind : List Nat × List Nat) kv => (do
        match kv.1, kv.2 with
        | [n0], [r0, r1] =>
          let v ← p.variableSpec n0
          pyAssert (ind.1.length + r0.length ≤ spreadLen p.constraints (fun c => c.fn.fn.jac) fun c => R c.fn)
          return (ind.1 ++ (← r0.mapM v.convertInd), ind.2 ++ r1.map c.component.convertInd)
        | _, _ => .error .valueError : Py (List Nat × List Nat)))
      (fun c b wd => (b.1 ++ blk (R c.fn) wd.2 fun e n => posOf p c.fn (R c.fn) e (argOf c.fn wd.1 0) (col wd.2.ind 0 n),
        b.2 ++ blk (R c.fn) wd.2 (cposOf 1 c wd)))
      (fun b => b.1.length) (fun c wd => (R c.fn).E.prod * wd.2.nnz)
      (spreadLen p.constraints (fun c => c.fn.fn.jac) fun c => R c.fn)
      (fun c hc => by
        obtain ⟨ho, hs⟩ := h c hc
        exact sparse_rows hp ho hs.1 (hs.names hp ho) _ fun wd hwd => ho.derivInd1 hp hs wd hwd)
      (fun c hc wd hwd b hb => by
        obtain ⟨ho, hs⟩ := h c hc
        obtain ⟨hj, hv, hw, -, hc, -⟩ := hs.one hp ho (wrt := wd.1) (d := wd.2) hwd
        have hr : renOf c.fn wd.1 = [c.fn.args.getD (argOf c.fn wd.1 0) ""] := by
          conv_lhs => rw [hw]
          simp only [renOf, List.map_cons, List.map_nil]
          rw [ho.idx hp hj]
        simp only [hr]
        obtain ⟨h1, h2⟩ := convert_row hp ho wd 0 hj hv fun n hn => (hc n hn).1
        rw [h1]
        simp only [py_bind_ok]
        rw [pyAssert_true (by rw [wrtRowOf, blk_length]; exact hb), h2]
        simp only [py_bind_ok, py_pure, outRowOf, blk_map]
        rfl)
      (fun c hc wd hwd b => by simp [blk_length]) ([], []) (by simp [spreadLen])
    erw [h1]
    simp only [py_bind_ok]
    rw [pyAssert_true (by rw [h2]; simp [spreadLen])]
    simp only [py_bind_ok, py_pure]
    congr 1
    simp only [foldl_append2]
    simp [spread]
  · unfold Problem.constrJacVal
    rw [hn]
    exact val_form S R hp p.constraints (·.fn) (·.jac) Sym.jac 1 h dvec hl

/-- `obj_hess_ind` and `obj_hess_val`. -/
theorem ohess_form (h : ∀ o ∈ p.objectives, FunOK p o (S o) (R o) ∧ SparseOK o (R o) o.fn.hess (S o).hess 2) :
    p.objHessNnz = .ok (spreadLen p.objectives (fun o => o.fn.hess) R) ∧
    p.objHessInd = .ok
      (spread p.objectives (fun o => o.fn.hess) R fun o wd e n =>
        posOf p o (R o) e (argOf o wd.1 0) (col wd.2.ind 0 n),
       spread p.objectives (fun o => o.fn.hess) R fun o wd e n =>
        posOf p o (R o) e (argOf o wd.1 1) (col wd.2.ind 1 n)) ∧
    ∀ dvec : List ℝ, dvec.length = p.ndec → p.objHessVal dvec = .ok
      (spread p.objectives (fun o => o.fn.hess) R fun o wd e n => (S o).hess wd.1 (argsOf p o (R o) e dvec) n) := by
  have hn : p.objHessNnz = .ok (spreadLen p.objectives (fun o => o.fn.hess) R) :=
    nnz_form S R hp p.objectives id (·.hess) fun o ho => (h o ho).1
  refine ⟨hn, ?_, fun dvec hl => ?_⟩
  · unfold Problem.objHessInd
    rw [hn]
    simp only [py_bind_ok]
    obtain ⟨h1, h2⟩ := fold_blocks p.objectives (fun o => o.hessInd p.variableShapes) (fun o => o.fn.hess)
      (fun o wd => (renOf o wd.1, [wrtRowOf o (R o) wd 0, wrtRowOf o (R o) wd 1, outRowOf o (R o) wd 2]))
      (fun _ (ind : List Nat × List Nat) kv => (do
        match kv.1, kv.2 with
        | [n0, n1], [r0, r1, _] =>
          let v0 ← p.variableSpec n0
          let v1 ← p.variableSpec n1
          pyAssert (ind.1.length + r0.length ≤ spreadLen p.objectives (fun o => o.fn.hess) R)
          return (ind.1 ++ (← r0.mapM v0.convertInd), ind.2 ++ (← r1.mapM v1.convertInd))
        | _, _ => .error .valueError : Py (List Nat × List Nat)))
      (fun o b wd => (b.1 ++ blk (R o) wd.2 fun e n => posOf p o (R o) e (argOf o wd.1 0) (col wd.2.ind 0 n),
        b.2 ++ blk (R o) wd.2 fun e n => posOf p o (R o) e (argOf o wd.1 1) (col wd.2.ind 1 n)))
      (fun b => b.1.length) (fun o wd => (R o).E.prod * wd.2.nnz)
      (spreadLen p.objectives (fun o => o.fn.hess) R)
      (fun o hmem => by
        obtain ⟨ho, hs⟩ := h o hmem
        exact sparse_rows hp ho hs.1 (hs.names hp ho) _ fun wd hwd => ho.derivInd2 hp hs wd hwd)
      (fun o hmem wd hwd b hb => by
        obtain ⟨ho, hs⟩ := h o hmem
        obtain ⟨hj, hv, hj', hv', hw, -, hc, -⟩ := hs.two hp ho (wrt := wd.1) (d := wd.2) hwd
        have hr : renOf o wd.1 = [o.args.getD (argOf o wd.1 0) "", o.args.getD (argOf o wd.1 1) ""] := by
          conv_lhs => rw [hw]
          simp only [renOf, List.map_cons, List.map_nil]
          rw [ho.idx hp hj, ho.idx hp hj']
        simp only [hr]
        obtain ⟨h1, h2⟩ := convert_row hp ho wd 0 hj hv fun n hn => (hc n hn).1
        obtain ⟨h3, h4⟩ := convert_row hp ho wd 1 hj' hv' fun n hn => (hc n hn).2.1
        rw [h1]
        simp only [py_bind_ok]
        rw [h3]
        simp only [py_bind_ok]
        rw [pyAssert_true (by rw [wrtRowOf, blk_length]; exact hb), h2, h4]
        rfl)
      (fun c hc wd hwd b => by simp [blk_length]) ([], []) (by simp [spreadLen])
    erw [h1]
    simp only [py_bind_ok]
    rw [pyAssert_true (by rw [h2]; simp [spreadLen])]
    simp only [py_bind_ok, py_pure]
    congr 1
    simp only [foldl_append2]
    simp [spread]
  · unfold Problem.objHessVal
    rw [hn]
    exact val_form S R hp p.objectives id (·.hess) Sym.hess 2 h dvec hl

/-- `constr_hess_ind` and `constr_hess_val`. -/
theorem chess_form (h : ∀ c ∈ p.constraints, FunOK p c.fn (S c.fn) (R c.fn) ∧
      SparseOK c.fn (R c.fn) c.fn.fn.hess (S c.fn).hess 2) :
    p.constrHessNnz = .ok (spreadLen p.constraints (fun c => c.fn.fn.hess) fun c => R c.fn) ∧
    p.constrHessInd = .ok
      (spread p.constraints (fun c => c.fn.fn.hess) (fun c => R c.fn) fun c wd e n =>
        posOf p c.fn (R c.fn) e (argOf c.fn wd.1 0) (col wd.2.ind 0 n),
       spread p.constraints (fun c => c.fn.fn.hess) (fun c => R c.fn) fun c wd e n =>
        posOf p c.fn (R c.fn) e (argOf c.fn wd.1 1) (col wd.2.ind 1 n),
       spread p.constraints (fun c => c.fn.fn.hess) (fun c => R c.fn) (cposOf 2)) ∧
    ∀ dvec : List ℝ, dvec.length = p.ndec → p.constrHessVal dvec = .ok
      (spread p.constraints (fun c => c.fn.fn.hess) (fun c => R c.fn) fun c wd e n =>
        (S c.fn).hess wd.1 (argsOf p c.fn (R c.fn) e dvec) n) := by
  have hn : p.constrHessNnz = .ok (spreadLen p.constraints (fun c => c.fn.fn.hess) fun c => R c.fn) :=
    nnz_form S R hp p.constraints (·.fn) (·.hess) fun c hc => (h c hc).1
  refine ⟨hn, ?_, fun dvec hl => ?_⟩
  · unfold Problem.constrHessInd
    rw [hn]
    simp only [py_bind_ok]
    obtain ⟨h1, h2⟩ := fold_blocks p.constraints (fun c => c.fn.hessInd p.variableShapes) (fun c => c.fn.fn.hess)
      (fun c wd => (renOf c.fn wd.1, [wrtRowOf c.fn (R c.fn) wd 0, wrtRowOf c.fn (R c.fn) wd 1,
        outRowOf c.fn (R c.fn) wd 2]))
      (fun c (ind : List Nat × List Nat × List Nat) kv => (do
        match kv.1, kv.2 with
        | [n0, n1], [r0, r1, r2] =>
          let v0 ← p.variableSpec n0
          let v1 ← p.variableSpec n1
          pyAssert (ind.1.length + r0.length ≤ spreadLen p.constraints (fun c => c.fn.fn.hess) fun c => R c.fn)
          return (ind.1 ++ (← r0.mapM v0.convertInd), ind.2.1 ++ (← r1.mapM v1.convertInd),
            ind.2.2 ++ r2.map c.component.convertInd)
        | _, _ => .error .valueError : Py (List Nat × List Nat × List Nat)))
      (fun c b wd => (b.1 ++ blk (R c.fn) wd.2 fun e n => posOf p c.fn (R c.fn) e (argOf c.fn wd.1 0) (col wd.2.ind 0 n),
        b.2.1 ++ blk (R c.fn) wd.2 fun e n => posOf p c.fn (R c.fn) e (argOf c.fn wd.1 1) (col wd.2.ind 1 n),
        b.2.2 ++ blk (R c.fn) wd.2 (cposOf 2 c wd)))
      (fun b => b.1.length) (fun c wd => (R c.fn).E.prod * wd.2.nnz)
      (spreadLen p.constraints (fun c => c.fn.fn.hess) fun c => R c.fn)
      (fun c hc => by
        obtain ⟨ho, hs⟩ := h c hc
        exact sparse_rows hp ho hs.1 (hs.names hp ho) _ fun wd hwd => ho.derivInd2 hp hs wd hwd)
      (fun c hmem wd hwd b hb => by
        obtain ⟨ho, hs⟩ := h c hmem
        obtain ⟨hj, hv, hj', hv', hw, -, hc, -⟩ := hs.two hp ho (wrt := wd.1) (d := wd.2) hwd
        have hr : renOf c.fn wd.1 = [c.fn.args.getD (argOf c.fn wd.1 0) "", c.fn.args.getD (argOf c.fn wd.1 1) ""] := by
          conv_lhs => rw [hw]
          simp only [renOf, List.map_cons, List.map_nil]
          rw [ho.idx hp hj, ho.idx hp hj']
        simp only [hr]
        obtain ⟨h1, h2⟩ := convert_row hp ho wd 0 hj hv fun n hn => (hc n hn).1
        obtain ⟨h3, h4⟩ := convert_row hp ho wd 1 hj' hv' fun n hn => (hc n hn).2.1
        rw [h1]
        simp only [py_bind_ok]
        rw [h3]
        simp only [py_bind_ok]
        rw [pyAssert_true (by rw [wrtRowOf, blk_length]; exact hb), h2, h4]
        simp only [py_bind_ok, py_pure, outRowOf, blk_map]
        rfl)
      (fun c hc wd hwd b => by simp [blk_length]) ([], [], []) (by simp [spreadLen])
    erw [h1]
    simp only [py_bind_ok]
    rw [pyAssert_true (by rw [h2]; simp [spreadLen])]
    simp only [py_bind_ok, py_pure]
    congr 1
    simp only [foldl_append3]
    simp [spread]
  · unfold Problem.constrHessVal
    rw [hn]
    exact val_form S R hp p.constraints (·.fn) (·.hess) Sym.hess 2 h dvec hl

theorem cpos_lt {c : Constr ℝ} (hc : c ∈ p.constraints) (ho : FunOK p c.fn (S c.fn) (R c.fn)) {e r : Nat}
    (he : e < (R c.fn).E.prod) (hr : r < c.fn.fn.outShape.prod) :
    e * c.fn.fn.outShape.prod + r < c.fn.shape.prod ∧ e * c.fn.fn.outShape.prod + r + c.offset < p.ncons := by
  have h1 := constr_le hp hc
  have h2 : e * c.fn.fn.outShape.prod + r < c.fn.shape.prod := by
    rw [ho.shape, List.prod_append]
    exact mul_add_lt he hr
  exact ⟨h2, by omega⟩

end

end Ceacoest
