import Verif.Lemmas.SymGen
import Verif.Props.Derivatives

/-! # C66: from symbolic functions to the derivatives of a problem -/

namespace Ceacoest
open Spec
variable {X : Type}

/-- A symbolic model `m0` on which `calls` are made: distinct functions `fn` of the model with plain names (C33), differentiated
with respect to their decision arguments in any order, with derivatives of the right form; objectives are scalar. -/
structure SymOK (S : Sym2Num X) (ev : X → Env → ℝ) (shape : String → List Nat) (m0 : SymModel X) (fn : String → SymFn X)
    (calls : List SymCall) : Prop where
  shapes : ∀ a ∈ m0.decision, Dict.get? m0.shapes a = some (shape a)
  nodup : (calls.map SymCall.fname).Nodup
  plain : ∀ c ∈ calls, DerivId.Plain.PlainFn c.fname ∧ ∀ a ∈ c.order, DerivId.Plain.PlainVar a
  funcs : ∀ c ∈ calls, Dict.get? m0.funcs c.fname = some (fn c.fname)
  wrt : ∀ c ∈ calls, m0.IsWrt (fn c.fname) c.order
  form : ∀ c ∈ calls, DerivForm S ev shape (fn c.fname) c.order
  scalar : ∀ c ∈ calls, c.objective = true → (fn c.fname).outShape = []

theorem SymOK.callsOK {S : Sym2Num X} {ev : X → Env → ℝ} {shape : String → List Nat} {m0 : SymModel X} {fn : String → SymFn X}
    {calls : List SymCall} (h : SymOK S ev shape m0 fn calls) : CallsOK S m0 fn calls :=
  ⟨h.nodup, h.plain, h.funcs, h.wrt, fun c hc =>
    ⟨shape, fun a ha => h.shapes a (((h.wrt c hc).2 a).1 ha).2, (h.form c hc).size, (h.form c hc).size2⟩⟩

/-- What is to be shown of the function `g` generated for the symbolic function `f`: wherever it is registered, in agreement with
the model, it meets the contracts of C08 – C13, and its listed derivatives are right where the symbolic derivatives are. -/
structure Meets (S : Sym2Num X) (ev : X → Env → ℝ) (shape : String → List Nat) (decision : List String) (f : SymFn X)
    (objective : Bool) (g : GenFun ℝ) (s : Sym) : Prop where
  args : g.argNames = f.args
  outShape : g.outShape = f.outShape
  val : s.F = symVal ev f
  funOK : ∀ p o R, o.fn = g → Registered p o R → Agrees shape decision f.args R → FunOK p o s R
  gradOK : objective = true → ∀ p o R, o.fn = g → Registered p o R → Agrees shape decision f.args R → GradOK o R s.grad
  jacOK : objective = false → ∀ p o R, o.fn = g → Registered p o R → Agrees shape decision f.args R → SparseOK o R o.fn.jac s.jac 1
  hessOK : ∀ p o R, o.fn = g → Registered p o R → Agrees shape decision f.args R → SparseOK o R o.fn.hess s.hess 2
  gradRight : objective = true → ∀ o R x, o.fn = g → Agrees shape decision f.args R → SymRight1 S ev shape f R.var x → GradRight o s R x
  jacRight : objective = false → ∀ o R x, o.fn = g → Agrees shape decision f.args R → SymRight1 S ev shape f R.var x → JacRight o s R x
  hessRight : ∀ o R x, o.fn = g → Agrees shape decision f.args R → (∀ᶠ y in nhds x, SymRight1 S ev shape f R.var y) →
    SymRight2 S ev shape f R.var x → HessRight o s R x

/-- **C66.** The calls succeed, and if the code generated for the functions of the resulting model evaluates them, then every
generated function meets the contracts under which C08 – C13 hold. -/
theorem C66_generated (S : Sym2Num X) (ev : X → Env → ℝ) (shape : String → List Nat) (m0 : SymModel X) (fn : String → SymFn X)
    (calls : List SymCall) (h : SymOK S ev shape m0 fn calls) :
    ∃ m, m0.addAll S calls = .ok m ∧ m.shapes = m0.shapes ∧ m.decision = m0.decision ∧ ∃ s : SymFn X → Sym,
      ∀ codegen : SymFn X → List (NDArray ℝ) → NDArray ℝ,
        (∀ name g, Dict.get? m.funcs name = some g → CodegenOK ev shape codegen g) →
        ∀ c ∈ calls, ∃ g, m.gen codegen c = .ok g ∧ g.name = c.fname ∧
          Meets S ev shape m0.decision (fn c.fname) c.objective g (s (fn c.fname)) := by
  obtain ⟨m, e, hs, hd, -, hb⟩ := addAll_ok S m0 fn calls h.callsOK
  refine ⟨m, e, hs, hd, symOf ev S m0, fun codegen hcg c hc => ?_⟩
  have hB := hb c hc
  have hF : FnOK S ev codegen shape m0 (fn c.fname) c :=
    ⟨h.shapes, h.wrt c hc, h.form c hc, h.scalar c hc, hcg _ _ hB.fn, fun ho a ha => hcg _ _ (hB.dense ho a ha),
      fun ho it hit => hcg _ _ (hB.jac ho it hit).2.2, fun it hit => hcg _ _ (hB.hess it hit).2.2⟩
  exact ⟨_, gen_ok hB hs hd shape h.shapes, rfl, rfl, hF.outShape_eq, rfl,
    fun p o R ho hr ha => hF.funOK ho hr ha, fun hc p o R ho hr ha => hF.gradOK hc ho hr ha, fun hc p o R ho _ ha => hF.jacOK hc ho ha,
    fun p o R ho _ ha => hF.hessOK ho ha, fun hc o R x ho ha hx => hF.gradRight hc ho ha hx, fun hc o R x ho ha hx => hF.jacRight hc ho ha hx,
    fun o R x ho ha h1 h2 => hF.hessRight ho ha h1 h2⟩

/-- The symbolic derivatives of `f` are right at `x`, the first derivatives also around `x`. -/
def SmoothAt (S : Sym2Num X) (ev : X → Env → ℝ) (shape : String → List Nat) (f : SymFn X) (var : Nat → Bool) (x : Args) : Prop :=
  (∀ᶠ y in nhds x, SymRight1 S ev shape f var y) ∧ SymRight2 S ev shape f var x

/-- What a solver needs to read entries `val` at the places `r`, `c` of an `n` by `m` matrix: as many as were announced, and all places exist. -/
structure EntriesFit (nnz : Py Nat) (n m : Nat) (r c : List Nat) (val : List ℝ) : Prop where
  nnz : nnz = .ok val.length
  rows : r.length = val.length
  cols : c.length = val.length
  row_lt : ∀ i ∈ r, i < n
  col_lt : ∀ i ∈ c, i < m

/-- The derivatives that a problem computes at `dvec` are right: `obj` and `constr` are defined on all decision vectors, and
`obj_grad`, `constr_jac`, `obj_hess` and `lag_hess` (for all multipliers) are their first and second derivatives. -/
def DerivativesRight (p : Problem ℝ) (dvec : List ℝ) : Prop :=
  ∃ (f : List ℝ → ℝ) (cf : List ℝ → List ℝ),
    (∀ d : List ℝ, d.length = p.ndec → p.obj d = .ok (f d) ∧ p.constr d = .ok (cf d) ∧ (cf d).length = p.ncons) ∧
    (∃ g, p.objGrad dvec = .ok g ∧ g.length = p.ndec ∧
      ∀ i < p.ndec, HasDerivAt (fun t => f (dvec.set i t)) (g.getD i 0) (dvec.getD i 0)) ∧
    (∃ di ci val, p.constrJacInd = .ok (di, ci) ∧ p.constrJacVal dvec = .ok val ∧ EntriesFit p.constrJacNnz p.ndec p.ncons di ci val ∧
      ∀ i < p.ndec, ∀ q < p.ncons, HasDerivAt (fun t => (cf (dvec.set i t)).getD q 0)
        (assemble val.length (fun n => di.getD n 0 = i ∧ ci.getD n 0 = q) fun n => val.getD n 0) (dvec.getD i 0)) ∧
    (∃ r c val, p.objHessInd = .ok (r, c) ∧ p.objHessVal dvec = .ok val ∧ EntriesFit p.objHessNnz p.ndec p.ndec r c val ∧ ∀ i < p.ndec, ∀ j < p.ndec,
      (∀ᶠ s in nhds (dvec.getD i 0), DifferentiableAt ℝ (fun t => f ((dvec.set i s).set j t)) ((dvec.set i s).getD j 0)) ∧
      HasDerivAt (fun s => deriv (fun t => f ((dvec.set i s).set j t)) ((dvec.set i s).getD j 0))
        (assemble val.length (fun n => symHit i j (r.getD n 0) (c.getD n 0)) fun n => val.getD n 0) (dvec.getD i 0)) ∧
    ∀ (σ : ℝ) (lam : List ℝ), lam.length = p.ncons →
      let L : List ℝ → ℝ := fun d => σ * f d + ∑ q ∈ Finset.range p.ncons, lam.getD q 0 * (cf d).getD q 0
      ∃ r c val, p.lagHessInd = .ok (r, c) ∧ p.lagHessVal dvec σ lam = .ok val ∧ EntriesFit p.lagHessNnz p.ndec p.ndec r c val ∧ ∀ i < p.ndec, ∀ j < p.ndec,
        (∀ᶠ s in nhds (dvec.getD i 0), DifferentiableAt ℝ (fun t => L ((dvec.set i s).set j t)) ((dvec.set i s).getD j 0)) ∧
        HasDerivAt (fun s => deriv (fun t => L ((dvec.set i s).set j t)) ((dvec.set i s).getD j 0))
          (assemble val.length (fun n => symHit i j (r.getD n 0) (c.getD n 0)) fun n => val.getD n 0) (dvec.getD i 0)

/-- The derivatives of a problem are right where those of its functions are. -/
theorem derivativesRight_of {p : Problem ℝ} {pcalls : List (Problem.Call ℝ)} (hp : ProblemOK p pcalls) (S : OptFun ℝ → Sym) (R : OptFun ℝ → Reg)
    (hF : ∀ o ∈ p.objectives, FunOK p o (S o) (R o)) (hF' : ∀ c ∈ p.constraints, FunOK p c.fn (S c.fn) (R c.fn))
    (hG : ∀ o ∈ p.objectives, GradOK o (R o) (S o).grad) (hJ : ∀ c ∈ p.constraints, SparseOK c.fn (R c.fn) c.fn.fn.jac (S c.fn).jac 1)
    (hH : ∀ o ∈ p.objectives, SparseOK o (R o) o.fn.hess (S o).hess 2) (hH' : ∀ c ∈ p.constraints, SparseOK c.fn (R c.fn) c.fn.fn.hess (S c.fn).hess 2)
    (hna : ∀ o ∈ p.objectives, NoAlias p o (R o)) (hna' : ∀ c ∈ p.constraints, NoAlias p c.fn (R c.fn))
    {dvec : List ℝ} (hl : dvec.length = p.ndec) {vs : Dict String (NDArray ℝ)} (hvs : p.variables dvec = .ok vs)
    (hRg : ∀ o ∈ p.objectives, ∀ e < (R o).E.prod, GradRight o (S o) (R o) (baseArgs o (R o) vs e))
    (hRj : ∀ c ∈ p.constraints, ∀ e < (R c.fn).E.prod, JacRight c.fn (S c.fn) (R c.fn) (baseArgs c.fn (R c.fn) vs e))
    (hRo : ∀ o ∈ p.objectives, ∀ e < (R o).E.prod, HessRight o (S o) (R o) (baseArgs o (R o) vs e))
    (hRc : ∀ c ∈ p.constraints, ∀ e < (R c.fn).E.prod, HessRight c.fn (S c.fn) (R c.fn) (baseArgs c.fn (R c.fn) vs e)) :
    DerivativesRight p dvec := by
  obtain ⟨f, g, f1, g1, g2, g3⟩ := C09_obj_grad S R hp (fun o h => ⟨hF o h, hG o h⟩) dvec hl vs hvs
    hRg
  obtain ⟨cf, di, ci, val, c1, c2, c3, c4⟩ := C10_constr_jac S R hp (fun c h => ⟨hF' c h, hJ c h⟩) dvec hl vs hvs
    hRj
  have hset : ∀ i t, (dvec.set i t).length = p.ndec := fun i t => by simp [hl]
  have hset2 : ∀ i j t u, ((dvec.set i t).set j u).length = p.ndec := fun i j t u => by simp [hl]
  refine ⟨f, cf, fun d hd => ⟨f1 d hd, c1 d hd⟩, ⟨g, g1, g2, g3⟩, ⟨di, ci, val, c2, c3, ?_, c4⟩, ?_, fun σ lam hlam => ?_⟩
  · obtain ⟨n, r, c, a1, a2, a3, a4, a5, a6, a7⟩ := C08_constr_jac S R hp fun c h => ⟨hF' c h, hJ c h⟩
    obtain ⟨v, b1, b2⟩ := a7 dvec hl
    rw [c2] at a2
    rw [c3] at b1
    cases a2
    cases b1
    exact ⟨by rw [a1, b2], a3.trans b2.symm, a4.trans b2.symm, a5, a6⟩
  · obtain ⟨f', r, c, v, h1, h2, h3, h4⟩ := C11_obj_hess S R hp (fun o h => ⟨hF o h, hH o h⟩)
      hna dvec hl vs hvs hRo
    have hff : ∀ d : List ℝ, d.length = p.ndec → f' d = f d := fun d hd => Except.ok.inj ((h1 d hd).symm.trans (f1 d hd))
    simp only [hff _ (hset2 _ _ _ _)] at h4
    refine ⟨r, c, v, h2, h3, ?_, h4⟩
    obtain ⟨n, r', c', a1, a2, a3, a4, a5, a6, a7⟩ := C08_obj_hess S R hp fun o h => ⟨hF o h, hH o h⟩
    obtain ⟨v', b1, b2⟩ := a7 dvec hl
    rw [h2] at a2
    rw [h3] at b1
    cases a2
    cases b1
    exact ⟨by rw [a1, b2], a3.trans b2.symm, a4.trans b2.symm, a5, a6⟩
  · obtain ⟨L, r, c, v, h1, h2, h3, h4⟩ := C12_lag_hess S R hp (fun o h => ⟨hF o h, hH o h⟩) (fun c h => ⟨hF' c h, hH' c h⟩)
      hna hna' dvec hl vs hvs hRo hRc σ lam hlam
    have hLL : ∀ d : List ℝ, d.length = p.ndec →
        L d = σ * f d + ∑ q ∈ Finset.range p.ncons, lam.getD q 0 * (cf d).getD q 0 := by
      intro d hd
      obtain ⟨o, cv, e1, e2, -, e4⟩ := h1 d hd
      rw [e4, Except.ok.inj (e1.symm.trans (f1 d hd)), Except.ok.inj (e2.symm.trans (c1 d hd).1)]
    simp only [hLL _ (hset2 _ _ _ _)] at h4
    refine ⟨r, c, v, h2, h3, ?_, h4⟩
    obtain ⟨n, r', c', a1, a2, a3, a4, a5, a6, a7⟩ := C08_lag_hess S R hp (fun o h => ⟨hF o h, hH o h⟩) fun c h => ⟨hF' c h, hH' c h⟩
    obtain ⟨v', b1, b2⟩ := a7 dvec σ lam hl hlam
    rw [h2] at a2
    rw [h3] at b1
    cases a2
    cases b1
    exact ⟨by rw [a1, b2], a3.trans b2.symm, a4.trans b2.symm, a5, a6⟩

/-- How a function of a problem is made and registered: it meets the contract of the symbolic function `f`, it is registered in
agreement with the model, and its variables do not alias. -/
structure Used (S : Sym2Num X) (ev : X → Env → ℝ) (shape : String → List Nat) (decision : List String) (p : Problem ℝ) (o : OptFun ℝ)
    (f : SymFn X) (objective : Bool) (s : Sym) (R : Reg) : Prop where
  meets : Meets S ev shape decision f objective o.fn s
  reg : Registered p o R
  agrees : Agrees shape decision f.args R
  noAlias : NoAlias p o R

/-- **C66** (end to end). In a problem all of whose functions are generated from symbolic functions and registered in agreement
with the symbolic model, the derivatives are right wherever the symbolic derivatives are. -/
theorem C66_problem (S : Sym2Num X) (ev : X → Env → ℝ) (shape : String → List Nat) (decision : List String) (p : Problem ℝ)
    (pcalls : List (Problem.Call ℝ)) (hp : ProblemOK p pcalls) (s : SymFn X → Sym) (F : OptFun ℝ → SymFn X) (R : OptFun ℝ → Reg)
    (ho : ∀ o ∈ p.objectives, Used S ev shape decision p o (F o) true (s (F o)) (R o))
    (hc : ∀ c ∈ p.constraints, Used S ev shape decision p c.fn (F c.fn) false (s (F c.fn)) (R c.fn))
    (dvec : List ℝ) (hl : dvec.length = p.ndec) (vs : Dict String (NDArray ℝ)) (hvs : p.variables dvec = .ok vs)
    (hdo : ∀ o ∈ p.objectives, ∀ e < (R o).E.prod, SmoothAt S ev shape (F o) (R o).var (baseArgs o (R o) vs e))
    (hdc : ∀ c ∈ p.constraints, ∀ e < (R c.fn).E.prod,
      SmoothAt S ev shape (F c.fn) (R c.fn).var (baseArgs c.fn (R c.fn) vs e)) :
    DerivativesRight p dvec := by
  have hF : ∀ o ∈ p.objectives, FunOK p o (s (F o)) (R o) := fun o h => (ho o h).meets.funOK p o _ rfl (ho o h).reg (ho o h).agrees
  have hF' : ∀ c ∈ p.constraints, FunOK p c.fn (s (F c.fn)) (R c.fn) :=
    fun c h => (hc c h).meets.funOK p c.fn _ rfl (hc c h).reg (hc c h).agrees
  have hG : ∀ o ∈ p.objectives, GradOK o (R o) (s (F o)).grad :=
    fun o h => (ho o h).meets.gradOK rfl p o _ rfl (ho o h).reg (ho o h).agrees
  have hJ : ∀ c ∈ p.constraints, SparseOK c.fn (R c.fn) c.fn.fn.jac (s (F c.fn)).jac 1 :=
    fun c h => (hc c h).meets.jacOK rfl p c.fn _ rfl (hc c h).reg (hc c h).agrees
  have hH : ∀ o ∈ p.objectives, SparseOK o (R o) o.fn.hess (s (F o)).hess 2 :=
    fun o h => (ho o h).meets.hessOK p o _ rfl (ho o h).reg (ho o h).agrees
  have hH' : ∀ c ∈ p.constraints, SparseOK c.fn (R c.fn) c.fn.fn.hess (s (F c.fn)).hess 2 :=
    fun c h => (hc c h).meets.hessOK p c.fn _ rfl (hc c h).reg (hc c h).agrees
  have hRo : ∀ o ∈ p.objectives, ∀ e < (R o).E.prod, HessRight o (s (F o)) (R o) (baseArgs o (R o) vs e) :=
    fun o h e he => (ho o h).meets.hessRight o _ _ rfl (ho o h).agrees (hdo o h e he).1 (hdo o h e he).2
  have hRc : ∀ c ∈ p.constraints, ∀ e < (R c.fn).E.prod, HessRight c.fn (s (F c.fn)) (R c.fn) (baseArgs c.fn (R c.fn) vs e) :=
    fun c h e he => (hc c h).meets.hessRight c.fn _ _ rfl (hc c h).agrees (hdc c h e he).1 (hdc c h e he).2
  exact derivativesRight_of hp (fun o => s (F o)) R hF hF' hG hJ hH hH' (fun o h => (ho o h).noAlias) (fun c h => (hc c h).noAlias) hl hvs
    (fun o h e he => (ho o h).meets.gradRight rfl o _ _ rfl (ho o h).agrees (hdo o h e he).1.self_of_nhds)
    (fun c h e he => (hc c h).meets.jacRight rfl c.fn _ _ rfl (hc c h).agrees (hdc c h e he).1.self_of_nhds) hRo hRc

end Ceacoest
