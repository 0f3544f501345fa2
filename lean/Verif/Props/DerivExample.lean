import Verif.Props.Derivatives
import Verif.Tactic.KernelRfl
import Mathlib.Tactic.IntervalCases
import Mathlib.Analysis.Calculus.Deriv.Pow

/-!
# A problem that meets the contracts of C08 – C13, and problems outside them

`f(x, q) = x² q` evaluated at the four piece-ravelled entries of three states `x` (so the middle state enters twice) and
one parameter `q`, both as an objective and as a constraint.
-/

namespace Ceacoest
open Spec

/-- The vectorised NumPy function of a mathematical one. -/
def vectorise {α : Type} [Zero α] (bshapes : List (List Nat)) (oshape : List Nat) (F : (Nat → Nat → α) → Nat → α)
    (args : List (NDArray α)) : NDArray α :=
  let exts := (List.range bshapes.length).map fun j =>
    let s := (args.getD j ⟨[], []⟩).shape
    s.take (s.length - (bshapes.getD j []).length)
  let E := (bcShapes exts).getD []
  ⟨E ++ oshape, (List.range E.prod).flatMap fun e => (List.range oshape.prod).map fun r =>
    F (fun j k => if j < bshapes.length ∧ k < (bshapes.getD j []).prod then
        (args.getD j ⟨[], []⟩).data.getD (bcIdx (exts.getD j []) E e * (bshapes.getD j []).prod + k) 0 else 0) r⟩

/-- The contract of generated code can be met for every function. -/
theorem vectorise_ok (bshapes : List (List Nat)) (oshape : List Nat) (F : Args → Nat → ℝ) :
    Vectorised (vectorise bshapes oshape F) bshapes oshape F := by
  intro args exts E hl hle hargs hE
  have hexts : ((List.range bshapes.length).map fun j =>
      (args.getD j ⟨[], []⟩).shape.take ((args.getD j ⟨[], []⟩).shape.length - (bshapes.getD j []).length)) = exts := by
    refine List.ext_getElem (by simp [hle]) fun j h1 h2 => ?_
    simp only [List.length_map, List.length_range] at h1
    obtain ⟨a, ha, -, hs⟩ := hargs j h1
    simp only [List.getElem_map, List.getElem_range]
    have h3 : args.getD j ⟨[], []⟩ = a := by simp [List.getD_eq_getElem?_getD, ha]
    rw [h3, hs]
    simp [List.getD_eq_getElem?_getD, h2]
  unfold vectorise
  simp only
  rw [hexts, hE]
  simp only [Option.getD_some]
  refine ⟨trivial, ?_, fun e he r hr => ?_⟩
  · unfold NDArray.WF
    simp only
    rw [range_flatMap_map E.prod oshape.prod, List.prod_append]
    simp
  · rw [range_flatMap_map E.prod oshape.prod fun e r => F (fun j k => if j < bshapes.length ∧ k < (bshapes.getD j []).prod
      then (args.getD j ⟨[], []⟩).data.getD (bcIdx (exts.getD j []) E e * (bshapes.getD j []).prod + k) 0 else 0) r,
      getD_map_range 0 _ (mul_add_lt he hr)]
    have hpos : 0 < oshape.prod := by omega
    have e1 : (e * oshape.prod + r) / oshape.prod = e := by
      rw [Nat.add_comm, Nat.add_mul_div_right _ _ hpos, Nat.div_eq_of_lt hr, Nat.zero_add]
    have e2 : (e * oshape.prod + r) % oshape.prod = r := by
      rw [Nat.add_comm, Nat.add_mul_mod_self_right, Nat.mod_eq_of_lt hr]
    rw [e1, e2]

namespace DerivExample

/-- `f(x, q) = x² q` with its derivatives. -/
noncomputable def sym : Sym where
  F y _ := y 0 0 ^ 2 * y 1 0
  grad wrt y _ := if wrt = "x" then 2 * y 0 0 * y 1 0 else y 0 0 ^ 2
  jac wrt y _ := if wrt = ["x"] then 2 * y 0 0 * y 1 0 else y 0 0 ^ 2
  hess wrt y _ := if wrt = ["x", "x"] then 2 * y 1 0 else 2 * y 0 0

noncomputable def fn : GenFun ℝ where
  name := "f"
  argNames := ["x", "q"]
  outShape := []
  baseShapes := [("x", []), ("q", [])]
  method := vectorise [[], []] [] sym.F
  grad := [("x", vectorise [[], []] [] (sym.grad "x")), ("q", vectorise [[], []] [] (sym.grad "q"))]
  jac := [(["x"], ⟨1, [[0], [0]], vectorise [[], []] [1] (sym.jac ["x"])⟩),
    (["q"], ⟨1, [[0], [0]], vectorise [[], []] [1] (sym.jac ["q"])⟩)]
  hess := [(["x", "x"], ⟨1, [[0], [0], [0]], vectorise [[], []] [1] (sym.hess ["x", "x"])⟩),
    (["x", "q"], ⟨1, [[0], [0], [0]], vectorise [[], []] [1] (sym.hess ["x", "q"])⟩)]

noncomputable def calls : List (Problem.Call ℝ) :=
  [.decision (.str "x") (.tuple [3]), .dependent (.str "xp") (.piece ⟨⟨[3], 0⟩, 2, 2⟩), .decision (.str "q") (.tuple []),
   .objective fn (.tuple [2, 2]) (some ["xp", "q"]), .constraint fn (.tuple [2, 2]) (some ["xp", "q"])]

noncomputable def prob : Problem ℝ := Problem.run calls

noncomputable def obj : OptFun ℝ := OptFun.mk' [2, 2] fn (some ["xp", "q"])

def reg : Reg := ⟨[2, 2], fun j => if j = 0 then [2, 2] else [], fun _ => [], fun _ => true⟩

theorem prob_ok : ProblemOK prob calls where
  reach := ⟨[], rfl⟩
  dep := by
    intro kv hkv
    have : prob.remapped = [("xp", .piece ⟨⟨[3], 0⟩, 2, 2⟩)] := by krfl
    rw [this] at hkv
    simp only [List.mem_singleton] at hkv
    subst hkv
    have : prob.ndec = 4 := by krfl
    simp [VarOK, this]

theorem fun_ok : FunOK prob obj sym reg where
  made := ⟨_, rfl⟩
  sig := by decide
  nargs := by krfl
  args := by decide
  base := by
    intro j hj _
    change j < 2 at hj
    interval_cases j <;> rfl
  vars := by
    intro j hj _
    change j < 2 at hj
    interval_cases j
    · exact ⟨.piece ⟨⟨[3], 0⟩, 2, 2⟩, rfl, rfl⟩
    · exact ⟨.comp ⟨[], 3⟩, rfl, rfl⟩
  consts := by
    intro j _ h
    exact absurd h (by simp [reg])
  bc := by decide
  shape := by krfl
  method := vectorise_ok _ _ _

theorem vec2 {g : List (NDArray ℝ) → NDArray ℝ} {osh F} (h : Vectorised g [[], []] osh F) :
    Vectorised g ((List.range obj.fn.argNames.length).map reg.bs) osh F := h

theorem grad_ok : GradOK obj reg sym.grad := by
  refine ⟨rfl, by decide, ?_⟩
  intro wrt g h
  have : (wrt, g) ∈ fn.grad := h
  simp only [fn, List.mem_cons, List.not_mem_nil, or_false, Prod.mk.injEq] at this
  rcases this with ⟨rfl, rfl⟩ | ⟨rfl, rfl⟩
  · exact ⟨0, by decide, rfl, rfl, vec2 (vectorise_ok _ _ _), 0, [], [2, 2], rfl, rfl⟩
  · exact ⟨1, by decide, rfl, rfl, vec2 (vectorise_ok _ _ _), 0, [2, 2], [], rfl, rfl⟩

theorem ind_ok2 : IndOK [[0], [0]] 1 [1, 1] := by simp [IndOK]
theorem ind_ok3 : IndOK [[0], [0], [0]] 1 [1, 1, 1] := by simp [IndOK]

theorem jac_ok : SparseOK obj reg obj.fn.jac sym.jac 1 := by
  refine ⟨by decide, ?_⟩
  intro wrt d h
  have : (wrt, d) ∈ fn.jac := h
  simp only [fn, List.mem_cons, List.not_mem_nil, or_false, Prod.mk.injEq] at this
  rcases this with ⟨rfl, rfl⟩ | ⟨rfl, rfl⟩
  · exact ⟨[0], rfl, by decide, rfl, ind_ok2, vec2 (vectorise_ok _ _ _)⟩
  · exact ⟨[1], rfl, by decide, rfl, ind_ok2, vec2 (vectorise_ok _ _ _)⟩

theorem hess_ok : SparseOK obj reg obj.fn.hess sym.hess 2 := by
  refine ⟨by decide, ?_⟩
  intro wrt d h
  have : (wrt, d) ∈ fn.hess := h
  simp only [fn, List.mem_cons, List.not_mem_nil, or_false, Prod.mk.injEq] at this
  rcases this with ⟨rfl, rfl⟩ | ⟨rfl, rfl⟩
  · exact ⟨[0, 0], rfl, by decide, rfl, ind_ok3, vec2 (vectorise_ok _ _ _)⟩
  · exact ⟨[0, 1], rfl, by decide, rfl, ind_ok3, vec2 (vectorise_ok _ _ _)⟩

theorem partials (x : Args) (D : Nat → Nat → ℝ) (h0 : D 0 0 = 2 * x 0 0 * x 1 0) (h1 : D 1 0 = x 0 0 ^ 2) :
    HasPartialsAt 2 (fun _ => 1) (fun _ => true) (fun y => y 0 0 ^ 2 * y 1 0) D x := by
  intro c c' t hc hd _ _ _
  have a := (hd 0 (by norm_num) 0 (by norm_num))
  have b := (hd 1 (by norm_num) 0 (by norm_num))
  refine ((a.pow 2).mul b).congr_deriv ?_
  simp only [Finset.sum_range_succ, Finset.sum_range_zero, if_true, h0, h1, ← hc]
  simp
  ring

theorem grad_right (x : Args) : GradRight obj sym reg x := by
  refine partials x _ ?_ ?_
  · simp [gradEntry, obj, OptFun.mk', fn, sym]
  · simp [gradEntry, obj, OptFun.mk', fn, sym]

theorem jac_right (x : Args) : JacRight obj sym reg x := by
  intro r hr
  have : r = 0 := Nat.lt_one_iff.1 hr
  subst this
  refine partials x _ ?_ ?_
  · simp [jacEntry, assemble, obj, OptFun.mk', fn, sym, col]
  · simp [jacEntry, assemble, obj, OptFun.mk', fn, sym, col]

theorem hess_right (x : Args) : HessRight obj sym reg x := by
  refine ⟨fun y _ j _ => if j = 0 then 2 * y 0 0 * y 1 0 else y 0 0 ^ 2, fun r _ => Filter.Eventually.of_forall fun y =>
    partials y _ (by simp) (by simp), ?_⟩
  intro r hr j hj _ k hk
  have : r = 0 := Nat.lt_one_iff.1 hr
  subst this
  have : k = 0 := Nat.lt_one_iff.1 hk
  subst this
  change j < 2 at hj
  intro c c' t hc hd _ _ _
  have a := (hd 0 (by decide) 0 (by decide))
  have b := (hd 1 (by decide) 0 (by decide))
  have hlen : obj.fn.argNames.length = 2 := by krfl
  have hbs : ∀ j, (reg.bs j).prod = 1 := fun _ => rfl
  have hvar : ∀ j, reg.var j = true := fun _ => rfl
  interval_cases j
  · simp only [if_true]
    refine ((a.const_mul 2).mul b).congr_deriv ?_
    simp only [hlen, hbs, hvar, Finset.sum_range_succ, Finset.sum_range_zero, if_true]
    simp [hessEntry, assemble, obj, OptFun.mk', fn, sym, col, ← hc]
    ring
  · simp only [one_ne_zero, if_false]
    refine (a.pow 2).congr_deriv ?_
    simp only [hlen, hbs, hvar, Finset.sum_range_succ, Finset.sum_range_zero, if_true]
    simp [hessEntry, assemble, obj, OptFun.mk', fn, sym, col, ← hc]

theorem no_alias : NoAlias prob obj reg := by
  intro e he j hj j' hj' _ _ k hk k' hk' v v' hv hv' heq
  change e < 4 at he
  change j < 2 at hj
  change j' < 2 at hj'
  have : k = 0 := Nat.lt_one_iff.1 hk
  subst this
  have : k' = 0 := Nat.lt_one_iff.1 hk'
  subst this
  have h0 : prob.variableSpec (obj.args.getD 0 "") = .ok (.piece ⟨⟨[3], 0⟩, 2, 2⟩) := by krfl
  have h1 : prob.variableSpec (obj.args.getD 1 "") = .ok (.comp ⟨[], 3⟩) := by krfl
  interval_cases j <;> interval_cases j' <;> simp only [h0, h1, Except.ok.injEq] at hv hv' <;> subst hv <;> subst hv'
  · simp
  · exfalso; revert heq; interval_cases e <;> decide
  · exfalso; revert heq; interval_cases e <;> decide
  · simp

/-- Three states and one parameter. -/
def dvec : List ℝ := [1, 2, 3, 4]

theorem objectives_eq : prob.objectives = [obj] := by krfl
theorem constraints_eq : prob.constraints = [⟨obj, 0⟩] := by krfl

/-- The hypotheses of C08 – C13 hold of the example, for every decision vector. -/
example : ∃ (f : List ℝ → ℝ) (g : List ℝ), (∀ d : List ℝ, d.length = prob.ndec → prob.obj d = .ok (f d)) ∧ prob.objGrad dvec = .ok g ∧
    g.length = 4 ∧ ∀ i < 4, HasDerivAt (fun t => f (dvec.set i t)) (g.getD i 0) (dvec.getD i 0) := by
  obtain ⟨vs, hvs, -, -⟩ := variables_eq prob_ok dvec rfl
  refine C09_obj_grad (fun _ => sym) (fun _ => reg) prob_ok ?_ dvec rfl vs hvs ?_
  · rw [objectives_eq]
    simpa using ⟨fun_ok, grad_ok⟩
  · rw [objectives_eq]
    intro o ho e _
    rw [List.mem_singleton.1 ho]
    exact grad_right _

example : ∃ (f : List ℝ → List ℝ) (di ci : List Nat) (val : List ℝ),
      (∀ d : List ℝ, d.length = prob.ndec → prob.constr d = .ok (f d) ∧ (f d).length = prob.ncons) ∧
      prob.constrJacInd = .ok (di, ci) ∧ prob.constrJacVal dvec = .ok val ∧
      ∀ i < 4, ∀ q < 4, HasDerivAt (fun t => (f (dvec.set i t)).getD q 0)
        (assemble val.length (fun n => di.getD n 0 = i ∧ ci.getD n 0 = q) fun n => val.getD n 0) (dvec.getD i 0) := by
  obtain ⟨vs, hvs, -, -⟩ := variables_eq prob_ok dvec rfl
  refine C10_constr_jac (fun _ => sym) (fun _ => reg) prob_ok ?_ dvec rfl vs hvs ?_
  · rw [constraints_eq]
    simpa using ⟨fun_ok, jac_ok⟩
  · rw [constraints_eq]
    intro c hc e _
    rw [List.mem_singleton.1 hc]
    exact jac_right _

example (σ : ℝ) (lam : List ℝ) (hlam : lam.length = 4) : ∃ (L : List ℝ → ℝ) (r c : List Nat) (val : List ℝ),
      (∀ d : List ℝ, d.length = prob.ndec → ∃ o cv, prob.obj d = .ok o ∧ prob.constr d = .ok cv ∧ cv.length = prob.ncons ∧
        L d = σ * o + ∑ q ∈ Finset.range prob.ncons, lam.getD q 0 * cv.getD q 0) ∧
      prob.lagHessInd = .ok (r, c) ∧ prob.lagHessVal dvec σ lam = .ok val ∧
      ∀ i < prob.ndec, ∀ j < prob.ndec,
        (∀ᶠ s in nhds (dvec.getD i 0),
          DifferentiableAt ℝ (fun t => L ((dvec.set i s).set j t)) ((dvec.set i s).getD j 0)) ∧
        HasDerivAt (fun s => deriv (fun t => L ((dvec.set i s).set j t)) ((dvec.set i s).getD j 0))
          (assemble val.length (fun n => symHit i j (r.getD n 0) (c.getD n 0)) fun n => val.getD n 0) (dvec.getD i 0) := by
  obtain ⟨vs, hvs, -, -⟩ := variables_eq prob_ok dvec rfl
  refine C12_lag_hess (fun _ => sym) (fun _ => reg) prob_ok ?_ ?_ ?_ ?_ dvec rfl vs hvs ?_ ?_ σ lam hlam
  · rw [objectives_eq]
    simpa using ⟨fun_ok, hess_ok⟩
  · rw [constraints_eq]
    simpa using ⟨fun_ok, hess_ok⟩
  · rw [objectives_eq]
    simpa using no_alias
  · rw [constraints_eq]
    simpa using no_alias
  · rw [objectives_eq]
    intro o ho e _
    rw [List.mem_singleton.1 ho]
    exact hess_right _
  · rw [constraints_eq]
    intro c hc e _
    rw [List.mem_singleton.1 hc]
    exact hess_right _

/-! ## Outside the contracts the code is wrong

Stated over any commutative ring, in particular over `ℝ`. -/

variable {α : Type} [CommRing α]

/-- One state vector of two entries, seen both directly and piece-ravelled. -/
def aliasFn : GenFun α where
  name := "f"
  argNames := ["a", "b"]
  outShape := []
  baseShapes := [("a", [2]), ("b", [2])]
  method := vectorise [[2], [2]] [] fun y _ => y 0 0 * y 1 0
  grad := []
  jac := []
  hess := [(["a", "b"], ⟨1, [[0], [0], [0]], vectorise [[2], [2]] [1] fun _ _ => 1⟩)]

def aliasProb : Problem α := Problem.run
  [.decision (.str "x") (.tuple [2]), .dependent (.str "xp") (.piece ⟨⟨[2], 0⟩, 1, 2⟩),
   .objective aliasFn (.tuple [1]) (some ["x", "xp"])]

/-- `NoAlias` is needed in C11: for `f(a, b) = a₀ b₀`, whose only second derivative is `1` at `(a₀, b₀)`, registered with
`a = x` and `b = xp`, the objective is `x₀²`, but the triplets give the diagonal Hessian entry `1` instead of `2`. -/
theorem C11_alias_counterexample :
    (∀ x₀ x₁ : α, aliasProb.obj [x₀, x₁] = .ok (x₀ * x₀)) ∧ (aliasProb (α := α)).objHessInd = .ok ([0], [0]) ∧
    (∀ x₀ x₁ : α, aliasProb.objHessVal [x₀, x₁] = .ok [1]) := by
  refine ⟨fun x₀ x₁ => ?_, by krfl, fun x₀ x₁ => by krfl⟩
  have : aliasProb.obj [x₀, x₁] = .ok (0 + (0 + x₀ * x₀)) := by krfl
  rw [this]
  simp

/-- `f(x, q) = x² q` and its gradient. -/
def bcFn : GenFun α where
  name := "f"
  argNames := ["x", "q"]
  outShape := []
  baseShapes := [("x", []), ("q", [])]
  method := vectorise [[], []] [] fun y _ => y 0 0 * y 0 0 * y 1 0
  grad := [("x", vectorise [[], []] [] fun y _ => 2 * y 0 0 * y 1 0), ("q", vectorise [[], []] [] fun y _ => y 0 0 * y 0 0)]
  jac := []
  hess := []

def bcProb : Problem α := Problem.run
  [.decision (.str "x") (.tuple [2, 1]), .decision (.str "q") (.tuple [2]), .objective bcFn (.tuple [2, 2]) none]

/-- The suffix condition of `GradOK` is needed in C09: with `x` of shape `(2, 1)` broadcast against `q` of shape `(2,)`,
`reshape((-1,) + wrt_shape).sum(0)` adds up the wrong entries.  The derivative of `(x₀² + x₁²)(q₀ + q₁)` with respect to
`x₀` is `2 x₀ (q₀ + q₁)`, the code returns `2 (x₀ + x₁) q₀`. -/
theorem C09_broadcast_counterexample (x₀ x₁ q₀ q₁ : α) :
    bcProb.obj [x₀, x₁, q₀, q₁] = .ok ((x₀ ^ 2 + x₁ ^ 2) * (q₀ + q₁)) ∧
    bcProb.objGrad [x₀, x₁, q₀, q₁] =
      .ok [2 * (x₀ + x₁) * q₀, 2 * (x₀ + x₁) * q₁, x₀ ^ 2 + x₁ ^ 2, x₀ ^ 2 + x₁ ^ 2] := by
  constructor
  · have : bcProb.obj [x₀, x₁, q₀, q₁] =
        .ok (0 + (0 + x₀ * x₀ * q₀ + x₀ * x₀ * q₁ + x₁ * x₁ * q₀ + x₁ * x₁ * q₁)) := by krfl
    rw [this]
    congr 1
    ring
  · have : bcProb.objGrad [x₀, x₁, q₀, q₁] =
      .ok [0 + (0 + 2 * x₀ * q₀ + 2 * x₁ * q₀), 0 + (0 + 2 * x₀ * q₁ + 2 * x₁ * q₁), 0 + (0 + x₀ * x₀ + x₁ * x₁), 0 + (0 + x₀ * x₀ + x₁ * x₁)] := by krfl
    rw [this]
    simp only [Except.ok.injEq, List.cons.injEq, and_true]
    refine ⟨?_, ?_, ?_, ?_⟩ <;> ring

end DerivExample

end Ceacoest
