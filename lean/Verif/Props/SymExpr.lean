import Verif.Props.SymContract
import Verif.Props.DerivExample
import Verif.Lemmas.SymExpr

/-!
# C66 for a language of expressions

The contracts that C66 assumes of sympy, sym2num and the generated code are met by the expressions of Spec/SymExpr.lean, for all
functions and at all points at which the expressions are defined.
-/

namespace Ceacoest
open Spec

/-- **C66.** Derivatives by the rules of calculus have the form that C66 asks for. -/
theorem C66_expr_form (shape : String → List Nat) (f : SymFn SExpr) (hf : f.out.length = f.outShape.prod) (order : List String) :
    DerivForm (SExpr.sym2num shape) SExpr.ev shape f order where
  zero := fun v h env => SExpr.isZero_ev v h env
  args := fun _ _ => rfl
  args2 := fun _ _ _ _ => rfl
  outShape := fun a _ => by simp [SExpr.sym2num]
  size := fun a _ => by
    have := SExpr.outs_length shape [a] f.out
    simpa [SExpr.sym2num, hf] using this
  size2 := fun a _ b _ => by
    have := SExpr.outs_length shape [a, b] f.out
    simpa [SExpr.sym2num, hf, List.prod_append, Nat.mul_assoc] using this
  sym := by
    intro a _ b _ k hk l hl r hr y
    rw [SExpr.deriv2_entry shape f hf a b hk hl hr, SExpr.deriv2_entry shape f hf b a hl hk hr, SExpr.D_comm]

/-- The output of a function is defined at `x`. -/
def DefinedAt (f : SymFn SExpr) (x : Args) : Prop := ∀ e ∈ f.out, e.Defined (argEnv f.args x)

theorem DefinedAt.right1 {shape : String → List Nat} {f : SymFn SExpr} (hf : f.out.length = f.outShape.prod) (hn : f.args.Nodup)
    (var : Nat → Bool) {x : Args} (h : DefinedAt f x) : SymRight1 (SExpr.sym2num shape) SExpr.ev shape f var x := by
  intro r hr c c' t hc hd hv hm hk
  have hr' : r < f.out.length := by omega
  have := SExpr.hasDerivAt hn hc hd hv hm hk (f.out.getD r (.const 0)) (h _ (by simp [hr']))
  simp only [SExpr.val_entry f hf hr]
  refine this.congr_deriv ?_
  unfold SExpr.diff
  refine Finset.sum_congr rfl fun j _ => ?_
  split
  · refine Finset.sum_congr rfl fun k hk => ?_
    rw [SExpr.deriv_entry shape f hf _ (Finset.mem_range.1 hk) hr]
  · rfl

theorem DefinedAt.right2 {shape : String → List Nat} {f : SymFn SExpr} (hf : f.out.length = f.outShape.prod) (hn : f.args.Nodup)
    (var : Nat → Bool) {x : Args} (h : DefinedAt f x) : SymRight2 (SExpr.sym2num shape) SExpr.ev shape f var x := by
  intro r hr j hj _ k hk c c' t hc hd hv hm hcst
  have hr' : r < f.out.length := by omega
  have := SExpr.hasDerivAt hn hc hd hv hm hcst ((f.out.getD r (.const 0)).D (f.args.getD j "") k) (h _ (by simp [hr'])).D
  simp only [SExpr.deriv_entry shape f hf _ hk hr]
  refine this.congr_deriv ?_
  unfold SExpr.diff
  refine Finset.sum_congr rfl fun j' _ => ?_
  split
  · refine Finset.sum_congr rfl fun k' hk' => ?_
    rw [SExpr.deriv2_entry shape f hf _ _ hk (Finset.mem_range.1 hk') hr]
  · rfl

theorem DefinedAt.eventually {f : SymFn SExpr} {x : Args} (h : DefinedAt f x) : ∀ᶠ y in nhds x, DefinedAt f y := by
  unfold DefinedAt at *
  generalize f.out = l at h
  induction l with
  | nil => exact Filter.Eventually.of_forall fun _ e he => absurd he (by simp)
  | cons e l ih =>
    filter_upwards [SExpr.Defined.eventually f.args x e (h e (by simp)), ih fun e' he => h e' (by simp [he])] with y h1 h2
    intro e' he
    rcases List.mem_cons.1 he with rfl | he
    · exact h1
    · exact h2 e' he

/-- **C66.** Derivatives by the rules of calculus are right wherever the function is defined. -/
theorem C66_expr_smooth (shape : String → List Nat) (f : SymFn SExpr) (hf : f.out.length = f.outShape.prod) (hn : f.args.Nodup)
    (var : Nat → Bool) (x : Args) (h : DefinedAt f x) : SmoothAt (SExpr.sym2num shape) SExpr.ev shape f var x :=
  ⟨h.eventually.mono fun _ hy => hy.right1 hf hn var, h.right2 hf hn var⟩

/-- Code for a function of expressions. -/
noncomputable def exprCode (shape : String → List Nat) (g : SymFn SExpr) : List (NDArray ℝ) → NDArray ℝ :=
  vectorise (g.args.map shape) g.outShape (symVal SExpr.ev g)

/-- **C66.** The contract of generated code can be met for all functions of expressions. -/
theorem C66_expr_code (shape : String → List Nat) (g : SymFn SExpr) : CodegenOK SExpr.ev shape (exprCode shape) g :=
  vectorise_ok _ _ _

/-! ## An example: `f(x, q) = x² sin q` as objective and `c(x, q) = (x q, 1 / q)` as constraint

They are evaluated at the four piece-ravelled entries of three states and one parameter. -/

namespace SymExample
open SExpr

def x : SExpr := .var "x" 0
def q : SExpr := .var "q" 0

def f : SymFn SExpr := ⟨["x", "q"], [], [.mul (.mul x x) (.sin q)]⟩
def c : SymFn SExpr := ⟨["x", "q"], [2], [.mul x q, .inv q]⟩

def fn (n : String) : SymFn SExpr := if n = "f" then f else c
def shape : String → List Nat := fun _ => []
def m0 : SymModel SExpr := ⟨[("x", []), ("q", [])], ["x", "q"], [("f", f), ("c", c)], [], [], [], [], []⟩
def calls : List SymCall := [⟨false, "c", ["q", "x"]⟩, ⟨true, "f", ["x", "q"]⟩]

theorem sym_ok : SymOK (sym2num shape) ev shape m0 fn calls where
  shapes := by
    intro a ha
    rcases List.mem_cons.1 ha with rfl | ha
    · rfl
    · rw [List.mem_singleton.1 ha]; rfl
  nodup := by decide
  plain := by
    intro k hk
    simp only [calls, List.mem_cons, List.not_mem_nil, or_false] at hk
    unfold DerivId.Plain.PlainFn DerivId.Plain.PlainVar SepFree
    rcases hk with rfl | rfl <;> decide
  funcs := by
    intro k hk
    simp only [calls, List.mem_cons, List.not_mem_nil, or_false] at hk
    rcases hk with rfl | rfl <;> rfl
  wrt := by
    intro k hk
    simp only [calls, List.mem_cons, List.not_mem_nil, or_false] at hk
    rcases hk with rfl | rfl
    · refine ⟨by decide, fun a => ?_⟩
      simp [fn, c, m0, or_comm]
    · refine ⟨by decide, fun a => ?_⟩
      simp [fn, f, m0]
  form := by
    intro k hk
    simp only [calls, List.mem_cons, List.not_mem_nil, or_false] at hk
    rcases hk with rfl | rfl <;> exact C66_expr_form _ _ rfl _
  scalar := by
    intro k hk
    simp only [calls, List.mem_cons, List.not_mem_nil, or_false] at hk
    rcases hk with rfl | rfl
    · intro h; simp at h
    · intro _; rfl

/-- The problem with generated functions `gf` and `gc`. -/
noncomputable def pcalls (gf gc : GenFun ℝ) : List (Problem.Call ℝ) :=
  [.decision (.str "x") (.tuple [3]), .dependent (.str "xp") (.piece ⟨⟨[3], 0⟩, 2, 2⟩), .decision (.str "q") (.tuple []),
   .objective gf (.tuple [2, 2]) (some ["xp", "q"]), .constraint gc (.tuple [2, 2, 2]) (some ["xp", "q"])]

noncomputable def prob (gf gc : GenFun ℝ) : Problem ℝ := Problem.run (pcalls gf gc)

theorem prob_ok (gf gc : GenFun ℝ) : ProblemOK (prob gf gc) (pcalls gf gc) where
  reach := ⟨[], rfl⟩
  dep := by
    intro kv hkv
    have : (prob gf gc).remapped = [("xp", .piece ⟨⟨[3], 0⟩, 2, 2⟩)] := by krfl
    rw [this] at hkv
    simp only [List.mem_singleton] at hkv
    subst hkv
    have : (prob gf gc).ndec = 4 := by krfl
    simp [VarOK, this]

def reg : Reg := ⟨[2, 2], fun j => if j = 0 then [2, 2] else [], fun _ => [], fun _ => true⟩

theorem registered (gf gc g : GenFun ℝ) (ha : g.argNames = ["x", "q"]) (sh : List Nat) (hs : sh = [2, 2] ++ g.outShape) :
    Registered (prob gf gc) (OptFun.mk' sh g (some ["xp", "q"])) reg where
  made := ⟨_, rfl⟩
  sig := by change g.argNames.Nodup; rw [ha]; decide
  nargs := by change 2 = g.argNames.length; rw [ha]; rfl
  args := by change ["xp", "q"].Nodup; decide
  vars := by
    intro j hj _
    change j < g.argNames.length at hj
    rw [ha] at hj
    change j < 2 at hj
    interval_cases j
    · exact ⟨.piece ⟨⟨[3], 0⟩, 2, 2⟩, by krfl, rfl⟩
    · exact ⟨.comp ⟨[], 3⟩, by krfl, rfl⟩
  consts := fun j _ h => absurd h (by simp [reg])
  bc := by
    change bcShapes ((List.range g.argNames.length).map reg.ext) = _
    rw [ha]
    decide
  shape := hs
  suffix := by
    intro j hj _
    change j < g.argNames.length at hj
    rw [ha] at hj
    change j < 2 at hj
    interval_cases j
    · exact ⟨0, [], [2, 2], rfl, rfl⟩
    · exact ⟨0, [2, 2], [], rfl, rfl⟩

theorem agrees : Agrees shape m0.decision ["x", "q"] reg := by
  intro j hj
  change j < 2 at hj
  interval_cases j <;> simp [reg, shape, m0]

theorem no_alias (gf gc g : GenFun ℝ) (ha : g.argNames = ["x", "q"]) (sh : List Nat) :
    NoAlias (prob gf gc) (OptFun.mk' sh g (some ["xp", "q"])) reg := by
  intro e he j hj j' hj' _ _ k hk k' hk' v v' hv hv' heq
  change e < 4 at he
  change j < g.argNames.length at hj
  change j' < g.argNames.length at hj'
  rw [ha] at hj hj'
  change j < 2 at hj
  change j' < 2 at hj'
  have : k = 0 := Nat.lt_one_iff.1 hk
  subst this
  have : k' = 0 := Nat.lt_one_iff.1 hk'
  subst this
  have h0 : (prob gf gc).variableSpec ((OptFun.mk' sh g (some ["xp", "q"])).args.getD 0 "") = .ok (.piece ⟨⟨[3], 0⟩, 2, 2⟩) := by krfl
  have h1 : (prob gf gc).variableSpec ((OptFun.mk' sh g (some ["xp", "q"])).args.getD 1 "") = .ok (.comp ⟨[], 3⟩) := by krfl
  interval_cases j <;> interval_cases j' <;> simp only [h0, h1, Except.ok.injEq] at hv hv' <;> subst hv <;> subst hv'
  · simp
  · exfalso; revert heq; interval_cases e <;> decide
  · exfalso; revert heq; interval_cases e <;> decide
  · simp

/-- The whole way from expressions to derivatives: the functions can be added to the symbolic model and generated, and the derivatives
of the problem in which they are registered are right at every decision vector with `q ≠ 0`. -/
example : ∃ m gf gc, m0.addAll (sym2num shape) calls = .ok m ∧ m.gen (exprCode shape) ⟨true, "f", ["x", "q"]⟩ = .ok gf ∧
    m.gen (exprCode shape) ⟨false, "c", ["q", "x"]⟩ = .ok gc ∧
    ∀ x₀ x₁ x₂ q₀ : ℝ, q₀ ≠ 0 → DerivativesRight (prob gf gc) [x₀, x₁, x₂, q₀] := by
  obtain ⟨m, hm, -, -, s, hs⟩ := C66_generated (sym2num shape) ev shape m0 fn calls sym_ok
  have hs := hs (exprCode shape) fun _ g _ => C66_expr_code shape g
  obtain ⟨gc, hgc, -, mc⟩ := hs ⟨false, "c", ["q", "x"]⟩ (by simp [calls])
  obtain ⟨gf, hgf, -, mf⟩ := hs ⟨true, "f", ["x", "q"]⟩ (by simp [calls])
  refine ⟨m, gf, gc, hm, hgf, hgc, fun x₀ x₁ x₂ q₀ hq => ?_⟩
  have af : gf.argNames = ["x", "q"] := mf.args
  have ac : gc.argNames = ["x", "q"] := mc.args
  have sf : gf.outShape = [] := mf.outShape
  have sc : gc.outShape = [2] := mc.outShape
  have ho : (prob gf gc).objectives = [OptFun.mk' [2, 2] gf (some ["xp", "q"])] := by krfl
  have hc : (prob gf gc).constraints = [⟨OptFun.mk' [2, 2, 2] gc (some ["xp", "q"]), 0⟩] := by krfl
  obtain ⟨vs, hvs, -, -⟩ := variables_eq (prob_ok gf gc) [x₀, x₁, x₂, q₀] (by krfl)
  have hvs' : (prob gf gc).variables [x₀, x₁, x₂, q₀] =
    .ok [("x", ⟨[3], [x₀, x₁, x₂]⟩), ("q", ⟨[], [q₀]⟩), ("xp", ⟨[2, 2], [x₀, x₁, x₁, x₂]⟩)] := by krfl
  have hv2 := Except.ok.inj (hvs.symm.trans hvs')
  refine C66_problem (sym2num shape) ev shape m0.decision _ _ (prob_ok gf gc) s
    (fun o => if o.fn.outShape = [] then f else c) (fun _ => reg) ?_ ?_ _ (by krfl) vs hvs ?_ ?_
  · rw [ho]
    intro o h
    rw [List.mem_singleton.1 h]
    simp only [OptFun.mk', sf, if_true]
    exact ⟨mf, registered gf gc gf af _ (by rw [sf]; rfl), agrees, no_alias gf gc gf af _⟩
  · rw [hc]
    intro o h
    rw [List.mem_singleton.1 h]
    simp only [OptFun.mk', sc, reduceCtorEq, if_false]
    exact ⟨mc, registered gf gc gc ac _ (by rw [sc]; rfl), agrees, no_alias gf gc gc ac _⟩
  · rw [ho]
    intro o h e he
    rw [List.mem_singleton.1 h]
    simp only [OptFun.mk', sf, if_true]
    refine C66_expr_smooth _ _ rfl (by decide) _ _ fun y hy => ?_
    rw [List.mem_singleton.1 hy]
    simp [SExpr.Defined, x, q]
  · rw [hc]
    intro o h e he
    rw [List.mem_singleton.1 h]
    simp only [OptFun.mk', sc, reduceCtorEq, if_false]
    refine C66_expr_smooth _ _ rfl (by decide) _ _ fun y hy => ?_
    simp only [c, List.mem_cons, List.not_mem_nil, or_false] at hy
    rcases hy with rfl | rfl
    · simp [SExpr.Defined, x, q]
    · refine ⟨trivial, ?_⟩
      subst hv2
      change e < 4 at he
      have e1 : (argEnv ["x", "q"] (baseArgs (OptFun.mk' [2, 2, 2] gc (some ["xp", "q"])) reg
        [("x", ⟨[3], [x₀, x₁, x₂]⟩), ("q", ⟨[], [q₀]⟩), ("xp", ⟨[2, 2], [x₀, x₁, x₁, x₂]⟩)] e)) "q" 0 = q₀ := by
        have : bcIdx [] [2, 2] e = 0 := by interval_cases e <;> rfl
        unfold argEnv baseArgs
        have h2 : (OptFun.mk' [2, 2, 2] gc (some ["xp", "q"])).fn.argNames.length = 2 := by change gc.argNames.length = 2; rw [ac]; rfl
        rw [h2]
        change (if 1 < 2 ∧ 0 < 1 then [q₀].getD (bcIdx [] [2, 2] e * 1 + 0) 0 else 0) = q₀
        rw [this]
        simp
      intro h0
      exact hq (e1.symm.trans h0)

end SymExample
end Ceacoest
