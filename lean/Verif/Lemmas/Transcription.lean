import Verif.Lemmas.SymClasses
import Verif.Props.Classes

/-! # Values of the functions of a problem, and where their arguments come from -/

namespace Ceacoest
open Spec RK
variable {X : Type}

theorem lgl_lengths {n : Int} (hn : 2 ≤ n) :
    ∃ col, ∃ N : Nat, lglCollocation n = .ok col ∧ (N : Int) + 1 = n ∧ col.n = N + 1 ∧ col.ninterv = N ∧ col.J.length = N ∧
      (∀ r ∈ col.J, r.length = N + 1) ∧ col.K.length = N + 1 := by
  obtain ⟨col, hcol, hcn, hci, hci1, hpl, hpts, -, -, hinc⟩ := lgl_ok n hn
  obtain ⟨col', hcol', h1, h2, h3, -⟩ := C24_exact col.points (hinc.imp fun h => h.ne) (by omega)
  have : lglCollocation n = .ok col' := by rw [lglCollocation, hpts]; exact hcol'
  obtain rfl : col = col' := Except.ok.inj (hcol.symm.trans this)
  exact ⟨col, col.ninterv, hcol, by omega, by omega, rfl, by omega, fun r hr => by rw [h2 r hr]; omega, by omega⟩

/-- The output of a function for element `e` of its extension. -/
noncomputable def outAt (M : SymSide X) (T : Table) (p : Problem ℝ) (d : List ℝ) (o : OptFun ℝ) (e : Nat) : List ℝ :=
  (M.fn o.fn.name).out.map (M.ev · (argEnv (M.fn o.fn.name).args (argsOf p o (T.reg o) e d)))

theorem symVal_map {ev : X → Env → ℝ} {f : SymFn X} (y : Args) (h : f.out.length = f.outShape.prod) :
    ((List.range f.outShape.prod).map fun r => symVal ev f y r) = f.out.map (ev · (argEnv f.args y)) := by
  refine List.ext_getElem (by simp [h]) fun r h1 h2 => ?_
  have hr : r < f.out.length := by simpa using h2
  simp [symVal, hr]

/-- The values of the objectives and constraints of a problem. -/
theorem UsedIn.values {M : SymSide X} {T : Table} {p : Problem ℝ} (h : UsedIn M T p)
    (ho : ∀ o ∈ p.objectives, (M.fn o.fn.name).out.length = (M.fn o.fn.name).outShape.prod)
    (hc : ∀ c ∈ p.constraints, (M.fn c.fn.fn.name).out.length = (M.fn c.fn.fn.name).outShape.prod)
    {d : List ℝ} (hl : d.length = p.ndec) :
    p.obj d = .ok ((p.objectives.map fun o => ((List.range (T.reg o).E.prod).map fun e => (outAt M T p d o e).sum).sum).sum) ∧
    p.constr d = .ok (p.constraints.flatMap fun c => (List.range (T.reg c.fn).E.prod).flatMap fun e => outAt M T p d c.fn e) := by
  obtain ⟨⟨calls, hp⟩, hUo, hUc⟩ := h
  obtain ⟨vs, hvs, -, -⟩ := variables_eq hp d hl
  have fo : ∀ o ∈ p.objectives, FunOK p o (M.s (M.fn o.fn.name)) (T.reg o) :=
    fun o h => (hUo o h).meets.funOK p o _ rfl (hUo o h).reg (hUo o h).agrees
  have fc : ∀ c ∈ p.constraints, FunOK p c.fn (M.s (M.fn c.fn.fn.name)) (T.reg c.fn) :=
    fun c h => (hUc c h).meets.funOK p c.fn _ rfl (hUc c h).reg (hUc c h).agrees
  have hval : ∀ (o : OptFun ℝ) b, Meets M.S M.ev M.shape M.decision (M.fn o.fn.name) b o.fn (M.s (M.fn o.fn.name)) →
      (M.fn o.fn.name).out.length = (M.fn o.fn.name).outShape.prod → ∀ e,
      ((List.range o.fn.outShape.prod).map fun r => (M.s (M.fn o.fn.name)).F (argsOf p o (T.reg o) e d) r) = outAt M T p d o e := by
    intro o b hm hlen e
    rw [hm.outShape, hm.val]
    exact symVal_map _ hlen
  constructor
  · rw [obj_form (fun o => M.s (M.fn o.fn.name)) T.reg hp fo d hl, wsum]
    congr 2
    refine List.map_congr_left fun o hoo => ?_
    have h1 := flat_sum (p := p) hp (T.reg o).E.prod o.fn.outShape.prod fun e r => (M.s (M.fn o.fn.name)).F (argsOf p o (T.reg o) e d) r
    simp only [id, one_mul]
    rw [← h1, list_sum_flatMap]
    congr 1
    exact List.map_congr_left fun e _ => by rw [hval o _ (hUo o hoo).meets (ho o hoo)]
  · set val : Constr ℝ → NDArray ℝ := fun c => ⟨c.fn.shape, (List.range (T.reg c.fn).E.prod).flatMap fun e =>
      (List.range c.fn.fn.outShape.prod).map fun r => (M.s (M.fn c.fn.fn.name)).F (argsOf p c.fn (T.reg c.fn) e d) r⟩ with hval'
    obtain ⟨cvec, h1, h2, h3, -⟩ := C07_constr p ⟨calls, hp.reach⟩ d vs hvs val (fun c hcc =>
      ⟨val c, call_form (fun o => M.s (M.fn o.fn.name)) T.reg hp (fc c hcc) d hl vs hvs,
        broadcastTo_self' (val c) rfl (call_length (fun o => M.s (M.fn o.fn.name)) T.reg hp (fc c hcc) fun e r =>
          (M.s (M.fn c.fn.fn.name)).F (argsOf p c.fn (T.reg c.fn) e d) r)⟩)
    rw [h1, h3]
    congr 1
    refine List.flatMap_congr fun c hcc => List.flatMap_congr fun e _ => ?_
    exact hval c.fn _ (hUc c hcc).meets (hc c hcc) e

/-- All environments in which the problem evaluates its functions have the property `Q`. -/
def Sees (M : SymSide X) (T : Table) (p : Problem ℝ) (d : List ℝ) (Q : String → Env → Prop) : Prop :=
  ∀ vs, p.variables d = .ok vs →
    (∀ o ∈ p.objectives, ∀ e < (T.reg o).E.prod, Q o.fn.name (argEnv (M.fn o.fn.name).args (baseArgs o (T.reg o) vs e))) ∧
    ∀ c ∈ p.constraints, ∀ e < (T.reg c.fn).E.prod, Q c.fn.fn.name (argEnv (M.fn c.fn.fn.name).args (baseArgs c.fn (T.reg c.fn) vs e))

theorem UsedIn.sees {M : SymSide X} {T : Table} {p : Problem ℝ} (h : UsedIn M T p) {d : List ℝ} (hl : d.length = p.ndec) {Q : String → Env → Prop}
    (ho : ∀ o ∈ p.objectives, ∀ e < (T.reg o).E.prod, Q o.fn.name (argEnv (M.fn o.fn.name).args (argsOf p o (T.reg o) e d)))
    (hc : ∀ c ∈ p.constraints, ∀ e < (T.reg c.fn).E.prod, Q c.fn.fn.name (argEnv (M.fn c.fn.fn.name).args (argsOf p c.fn (T.reg c.fn) e d))) :
    Sees M T p d Q := by
  obtain ⟨⟨calls, hp⟩, hUo, hUc⟩ := h
  refine fun vs hvs => ⟨fun o hoo e he => ?_, fun c hcc e he => ?_⟩
  · rw [args_base hp ((hUo o hoo).meets.funOK p o _ rfl (hUo o hoo).reg (hUo o hoo).agrees) hl hvs he]
    exact ho o hoo e he
  · rw [args_base hp ((hUc c hcc).meets.funOK p c.fn _ rfl (hUc c hcc).reg (hUc c hcc).agrees) hl hvs he]
    exact hc c hcc e he

section rows
variable {p : Problem ℝ} {T : Table} {o : OptFun ℝ} {args : List String} {n n' : String} {d : List ℝ} {e : Nat}

/-- An argument that depends on the decision vector. -/
theorem env_var (hi : args.idxOf n < o.fn.argNames.length) (hg : o.args.getD (args.idxOf n) "" = n') (hv : T.var n' = true) {v : VarSpec}
    (hs : p.variableSpec n' = .ok v) {k : Nat} (hk : k < (T.bs n').prod) :
    argEnv args (argsOf p o (T.reg o) e d) n k = d.getD (convOf v (bcIdx (T.ext n') (T.reg o).E e * (T.bs n').prod + k)) 0 := by
  subst hg
  simp only [argEnv, argsOf, gArgs, posOf, specOf, hs]
  rw [if_pos ⟨hi, hk⟩]
  exact if_pos hv

/-- A constant argument. -/
theorem env_const (hi : args.idxOf n < o.fn.argNames.length) (hg : o.args.getD (args.idxOf n) "" = n') (hv : T.var n' = false) {a : NDArray ℝ}
    (hs : Dict.get? p.extra n' = some a) {k : Nat} (hk : k < (T.bs n').prod) :
    argEnv args (argsOf p o (T.reg o) e d) n k = a.data.getD (bcIdx (T.ext n') (T.reg o).E e * (T.bs n').prod + k) 0 := by
  subst hg
  simp only [argEnv, argsOf, gArgs, constOf, hs]
  rw [if_pos ⟨hi, hk⟩]
  exact if_neg (fun h => Bool.false_ne_true (hv.symm.trans h))

theorem envRow_eq {env : Env} {c i : Nat} {l : List ℝ} {off r : Nat} (h : ∀ j < c, env n (i * c + j) = l.getD (off + (r * c + j)) 0) :
    envRow env n c i = rowAt l off c r :=
  List.map_congr_left fun j hj => h j (List.mem_range.1 hj)

variable (hi : args.idxOf n < o.fn.argNames.length) (hg : o.args.getD (args.idxOf n) "" = n')
include hi hg

/-- One row for every element of the extension. -/
theorem row_comp {N w off : Nat} (hv : T.var n' = true) (hs : p.variableSpec n' = .ok (.comp ⟨[N, w], off⟩)) (hx : T.ext n' = [N])
    (hb : T.bs n' = [w]) (hE : (T.reg o).E = [N]) (he : e < N) : envRow (argEnv args (argsOf p o (T.reg o) e d)) n w 0 = rowAt d off w e := by
  refine envRow_eq fun j hj => ?_
  rw [env_var hi hg hv hs (by rw [hb]; simpa using hj), hx, hE, bcIdx_self [N] (by simpa using he), hb, List.prod_singleton]
  change d.getD (_ + off) 0 = _
  congr 1
  omega

/-- Several rows for every element of the extension. -/
theorem row_comp2 {N c w off l : Nat} (hv : T.var n' = true) (hs : p.variableSpec n' = .ok (.comp ⟨[N, c, w], off⟩)) (hx : T.ext n' = [N])
    (hb : T.bs n' = [c, w]) (hE : (T.reg o).E = [N]) (he : e < N) (hl : l < c) :
    envRow (argEnv args (argsOf p o (T.reg o) e d)) n w l = rowAt d off w (e * c + l) := by
  refine envRow_eq fun j hj => ?_
  rw [env_var hi hg hv hs (by rw [hb]; simpa using mul_add_lt hl hj), hx, hE, bcIdx_self [N] (by simpa using he), hb]
  have : [c, w].prod = c * w := by simp
  rw [this]
  change d.getD (_ + off) 0 = _
  congr 1
  ring

/-- A single row. -/
theorem row_single {E : List Nat} {w off : Nat} (hv : T.var n' = true) (hs : p.variableSpec n' = .ok (.comp ⟨[w], off⟩)) (hx : T.ext n' = [])
    (hb : T.bs n' = [w]) (hE : (T.reg o).E = E) (he : e < E.prod) :
    envRow (argEnv args (argsOf p o (T.reg o) e d)) n w 0 = rowAt d off w 0 := by
  refine envRow_eq fun j hj => ?_
  rw [env_var hi hg hv hs (by rw [hb]; simpa using hj), hx, hE, bcIdx_nil E he, hb]
  change d.getD (_ + off) 0 = _
  congr 1
  omega

/-- The rows of a piece. -/
theorem row_piece {P N w off l : Nat} (hv : T.var n' = true) (hs : p.variableSpec n' = .ok (.piece ⟨⟨[P * N + 1, w], off⟩, P, N + 1⟩))
    (hx : T.ext n' = [P]) (hb : T.bs n' = [N + 1, w]) (hE : (T.reg o).E = [P]) (he : e < P) (hl : l < N + 1) :
    envRow (argEnv args (argsOf p o (T.reg o) e d)) n w l = rowAt d off w (e * N + l) := by
  refine envRow_eq fun j hj => ?_
  rw [env_var hi hg hv hs (by rw [hb]; simpa using mul_add_lt hl hj), hx, hE, bcIdx_self [P] (by simpa using he), hb]
  obtain ⟨a, -, -⟩ := C16_piece_convertInd off P N [w] e l j he hl (by simpa using hj)
  have e1 : e * [N + 1, w].prod + (l * w + j) = (e * (N + 1) + l) * [w].prod + j := by simp; ring
  have : convOf (.piece ⟨⟨[P * N + 1, w], off⟩, P, N + 1⟩) (e * [N + 1, w].prod + (l * w + j)) = off + ((e * N + l) * [w].prod + j) := by
    rw [e1]
    exact a
  rw [this]
  simp

/-- The end points. -/
theorem row_xe {E : List Nat} {N w off : Nat} (hN : 2 ≤ N) (hv : T.var n' = true) (hs : p.variableSpec n' = .ok (.xe ⟨⟨[N, w], off⟩⟩))
    (hx : T.ext n' = []) (hb : T.bs n' = [2, w]) (hE : (T.reg o).E = E) (he : e < E.prod) :
    envRow (argEnv args (argsOf p o (T.reg o) e d)) n (2 * w) 0 = rowAt d off w 0 ++ rowAt d off w (N - 1) := by
  have key : ∀ k < 2 * w, argEnv args (argsOf p o (T.reg o) e d) n k = d.getD (convOf (.xe ⟨⟨[N, w], off⟩⟩) k) 0 := by
    intro k hk
    rw [env_var hi hg hv hs (by rw [hb]; simpa using hk), hx, hE, bcIdx_nil E he, hb]
    simp
  have c1 : ∀ k < w, convOf (.xe ⟨⟨[N, w], off⟩⟩) k = off + k := fun k hk => by
    have := (C17_xe_convertInd off N w hN k hk).1
    unfold convOf
    simp only [VarSpec.convertInd, this]
  have c2 : ∀ k < w, convOf (.xe ⟨⟨[N, w], off⟩⟩) (w + k) = off + ((N - 1) * w + k) := fun k hk => by
    have := (C17_xe_convertInd off N w hN k hk).2
    unfold convOf
    simp only [VarSpec.convertInd, this]
  unfold envRow rowAt
  rw [two_mul, List.range_add, List.map_append, List.map_map]
  congr 1
  · refine List.map_congr_left fun j hj => ?_
    have hj := List.mem_range.1 hj
    rw [key _ (by omega), c1 _ (by omega)]
    simp
  · refine List.map_congr_left fun j hj => ?_
    have hj := List.mem_range.1 hj
    simp only [Function.comp, Nat.zero_mul, Nat.zero_add]
    rw [key _ (by omega), c2 _ (by omega)]

/-- The states at the measurements. -/
theorem row_xm {N w off : Nat} {K : List Nat} (hK : ∀ a ∈ K, a < N) (hv : T.var n' = true)
    (hs : p.variableSpec n' = .ok (.xm ⟨⟨[N, w], off⟩, K⟩)) (hx : T.ext n' = [K.length]) (hb : T.bs n' = [w]) (hE : (T.reg o).E = [K.length])
    (he : e < K.length) : envRow (argEnv args (argsOf p o (T.reg o) e d)) n w 0 = rowAt d off w (K.getD e 0) := by
  refine envRow_eq fun j hj => ?_
  rw [env_var hi hg hv hs (by rw [hb]; simpa using hj), hx, hE, bcIdx_self [K.length] (by simpa using he), hb, List.prod_singleton]
  have := C18_xm_convertInd off N w K hK e he j hj
  have c : convOf (.xm ⟨⟨[N, w], off⟩, K⟩) (e * w + (0 * w + j)) = off + (K.getD e 0 * w + j) := by
    unfold convOf
    simp only [VarSpec.convertInd, Nat.zero_mul, Nat.zero_add, this]
    simp [List.getD_eq_getElem?_getD, he]
  rw [c]

/-- A constant with one row for every element of the extension. -/
theorem crow_comp {N w : Nat} {a : NDArray ℝ} (hv : T.var n' = false) (hs : Dict.get? p.extra n' = some a) (hx : T.ext n' = [N])
    (hb : T.bs n' = [w]) (hE : (T.reg o).E = [N]) (he : e < N) :
    envRow (argEnv args (argsOf p o (T.reg o) e d)) n w 0 = rowAt a.data 0 w e := by
  refine envRow_eq fun j hj => ?_
  rw [env_const hi hg hv hs (by rw [hb]; simpa using hj), hx, hE, bcIdx_self [N] (by simpa using he), hb, List.prod_singleton]
  congr 1
  omega

/-- A constant with several rows for every element of the extension. -/
theorem crow_comp2 {N c w l : Nat} {a : NDArray ℝ} (hv : T.var n' = false) (hs : Dict.get? p.extra n' = some a) (hx : T.ext n' = [N])
    (hb : T.bs n' = [c, w]) (hE : (T.reg o).E = [N]) (he : e < N) (hl : l < c) :
    envRow (argEnv args (argsOf p o (T.reg o) e d)) n w l = rowAt a.data 0 w (e * c + l) := by
  refine envRow_eq fun j hj => ?_
  rw [env_const hi hg hv hs (by rw [hb]; simpa using mul_add_lt hl hj), hx, hE, bcIdx_self [N] (by simpa using he), hb]
  have : [c, w].prod = c * w := by simp
  rw [this]
  congr 1
  ring

/-- A constant scalar for every element of the extension. -/
theorem cscalar {N : Nat} {a : NDArray ℝ} (hv : T.var n' = false) (hs : Dict.get? p.extra n' = some a) (hx : T.ext n' = [N])
    (hb : T.bs n' = []) (hE : (T.reg o).E = [N]) (he : e < N) :
    argEnv args (argsOf p o (T.reg o) e d) n 0 = a.data.getD e 0 := by
  rw [env_const hi hg hv hs (by rw [hb]; simp), hx, hE, bcIdx_self [N] (by simpa using he), hb]
  simp

/-- The rows of a constant matrix. -/
theorem crow_mat {E : List Nat} {c w l : Nat} {a : NDArray ℝ} (hv : T.var n' = false) (hs : Dict.get? p.extra n' = some a) (hx : T.ext n' = [])
    (hb : T.bs n' = [c, w]) (hE : (T.reg o).E = E) (he : e < E.prod) (hl : l < c) :
    envRow (argEnv args (argsOf p o (T.reg o) e d)) n w l = rowAt a.data 0 w l := by
  refine envRow_eq fun j hj => ?_
  rw [env_const hi hg hv hs (by rw [hb]; simpa using mul_add_lt hl hj), hx, hE, bcIdx_nil E he, hb]
  congr 1
  omega

/-- A constant vector. -/
theorem crow_single {E : List Nat} {w : Nat} {a : NDArray ℝ} (hv : T.var n' = false) (hs : Dict.get? p.extra n' = some a) (hx : T.ext n' = [])
    (hb : T.bs n' = [w]) (hE : (T.reg o).E = E) (he : e < E.prod) :
    envRow (argEnv args (argsOf p o (T.reg o) e d)) n w 0 = rowAt a.data 0 w 0 := by
  refine envRow_eq fun j hj => ?_
  rw [env_const hi hg hv hs (by rw [hb]; simpa using hj), hx, hE, bcIdx_nil E he, hb]
  congr 1
  omega

end rows

end Ceacoest
