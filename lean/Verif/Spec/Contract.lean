import Verif.Model.Optim
import Mathlib.Analysis.Calculus.Deriv.Basic
import Mathlib.Data.Real.Basic
import Mathlib.Algebra.BigOperators.Group.Finset.Basic

/-!
# Contract of the generated code and of the registered variables (C08 – C13)

Nothing here refers to how `optim.py` or `genoptim.py` assemble derivatives.
-/

namespace Ceacoest.Spec

/-! ### Vectorised functions -/

/-- Common value of the lengths of one axis under NumPy broadcasting: all lengths other than one must agree. -/
def bcDim (l : List Nat) : Option Nat :=
  match l.filter (· ≠ 1) with
  | [] => some 1
  | d :: ds => if ds.all (· = d) then some d else none

/-- `np.broadcast_shapes`. -/
def bcShapes (l : List (List Nat)) : Option (List Nat) :=
  let n := (l.map List.length).foldl max 0
  (List.range n).mapM fun i => bcDim (l.map fun s => (List.replicate (n - s.length) 1 ++ s).getD i 1)

/-- Base values of the arguments of a function: argument number, flat index within the base shape. -/
abbrev Args := Nat → Nat → ℝ

/-- The NumPy function `g` evaluates `F` once for every element of the broadcast extension shape: argument `j` has
shape `exts[j] ++ bshapes[j]`, the result has shape `E ++ oshape`. -/
def Vectorised (g : List (NDArray ℝ) → NDArray ℝ) (bshapes : List (List Nat)) (oshape : List Nat)
    (F : Args → Nat → ℝ) : Prop :=
  ∀ (args : List (NDArray ℝ)) (exts : List (List Nat)) (E : List Nat),
    args.length = bshapes.length → exts.length = bshapes.length →
    (∀ j < bshapes.length, ∃ a, args[j]? = some a ∧ a.WF ∧ a.shape = exts.getD j [] ++ bshapes.getD j []) →
    bcShapes exts = some E →
    (g args).shape = E ++ oshape ∧ (g args).WF ∧
    ∀ e < E.prod, ∀ r < oshape.prod, (g args).data.getD (e * oshape.prod + r) 0 =
      F (fun j k => if j < bshapes.length ∧ k < (bshapes.getD j []).prod then
        (args.getD j ⟨[], []⟩).data.getD (bcIdx (exts.getD j []) E e * (bshapes.getD j []).prod + k) 0 else 0) r

/-! ### Derivatives of base functions -/

/-- `D j k` are the partial derivatives of `f` at `x` with respect to the arguments `j` selected by `var`
(derivative along every differentiable curve through `x`). -/
def HasPartialsAt (m : Nat) (bsz : Nat → Nat) (var : Nat → Bool) (f : Args → ℝ) (D : Nat → Nat → ℝ) (x : Args) :
    Prop :=
  ∀ (c : ℝ → Args) (c' : Args) (t : ℝ), c t = x →
    (∀ j < m, ∀ k < bsz j, HasDerivAt (fun s => c s j k) (c' j k) t) →
    (∀ j < m, var j = false → ∀ s, c s j = x j) →
    (∀ j, m ≤ j → ∀ s, c s j = x j) → (∀ j k, bsz j ≤ k → ∀ s, c s j k = x j k) →
    HasDerivAt (fun s => f (c s))
      (∑ j ∈ Finset.range m, if var j then ∑ k ∈ Finset.range (bsz j), D j k * c' j k else 0) t

/-! ### Variable specifications -/

/-- A variable specification that fits a decision vector of length `n`. -/
def VarOK (n : Nat) : VarSpec → Prop
  | .comp c => c.offset + c.shape.prod ≤ n
  | .piece v => 0 < v.npieces ∧ 2 ≤ v.ncol ∧
      (∃ rest, v.unravelled.shape = (v.npieces * (v.ncol - 1) + 1) :: rest) ∧
      v.unravelled.offset + v.unravelled.shape.prod ≤ n
  | .xe v => (∃ npoints nx, 2 ≤ npoints ∧ v.x.shape = [npoints, nx]) ∧ v.x.offset + v.x.shape.prod ≤ n
  | .xm v => (∃ npoints nx, v.x.shape = [npoints, nx] ∧ ∀ k ∈ v.kmeas, k < npoints) ∧ v.kmeas.Nodup ∧
      v.x.offset + v.x.shape.prod ≤ n

/-- A problem built by registration calls, all of whose dependent variables fit the decision vector. -/
structure ProblemOK {α : Type} (p : Problem α) (calls : List (Problem.Call α)) : Prop where
  reach : ∃ extra, p = { Problem.run calls with extra := extra }
  dep : ∀ kv ∈ p.remapped, VarOK p.ndec kv.2

/-! ### Registered functions -/

/-- The mathematics behind a generated function: the function itself, its dense gradients and the values of its sparse
first and second derivatives, all on base arguments. -/
structure Sym where
  F : Args → Nat → ℝ
  grad : String → Args → Nat → ℝ
  jac : List String → Args → Nat → ℝ
  hess : List String → Args → Nat → ℝ

/-- How a function is registered in a problem: extension shape of its output, extension and base shapes of its arguments,
which arguments are variables of the problem (the others are constants). -/
structure Reg where
  E : List Nat
  ext : Nat → List Nat
  bs : Nat → List Nat
  var : Nat → Bool

/-- Sparse index rows `rows` with `n` columns, row `i` bounded by `bounds[i]`. -/
def IndOK (ind : List (List Nat)) (nnz : Nat) (bounds : List Nat) : Prop :=
  List.Forall₂ (fun row b => row.length = nnz ∧ ∀ i ∈ row, i < b) ind bounds

/-- Contract of a function object `o` registered in the problem `p`. -/
structure FunOK (p : Problem ℝ) (o : OptFun ℝ) (s : Sym) (R : Reg) : Prop where
  /-- the object was created by `OptimizationFunction.__init__` -/
  made : ∃ args, o = OptFun.mk' o.shape o.fn args
  sig : o.fn.argNames.Nodup
  nargs : o.args.length = o.fn.argNames.length
  args : o.args.Nodup
  base : ∀ j < o.fn.argNames.length, R.var j = true → Dict.get? o.fn.baseShapes (o.fn.argNames.getD j "") = some (R.bs j)
  /-- variable arguments: registered with the right shape -/
  vars : ∀ j < o.fn.argNames.length, R.var j = true →
    ∃ v, p.variableSpec (o.args.getD j "") = .ok v ∧ v.shape = R.ext j ++ R.bs j
  /-- constant arguments: not registered as variables, and provided by the subclass -/
  consts : ∀ j < o.fn.argNames.length, R.var j = false →
    p.variableSpec (o.args.getD j "") = .error .valueError ∧
    ∃ a, Dict.get? p.extra (o.args.getD j "") = some a ∧ a.WF ∧ a.shape = R.ext j ++ R.bs j
  bc : bcShapes ((List.range o.fn.argNames.length).map R.ext) = some R.E
  shape : o.shape = R.E ++ o.fn.outShape
  method : Vectorised o.fn.method ((List.range o.fn.argNames.length).map R.bs) o.fn.outShape s.F

/-- Contract of one dictionary of sparse derivatives of `order` arguments. -/
def SparseOK (o : OptFun ℝ) (R : Reg) (deriv : Dict (List String) (SparseDeriv ℝ))
    (V : List String → Args → Nat → ℝ) (order : Nat) : Prop :=
  (Dict.keys deriv).Nodup ∧
  ∀ wrt d, (wrt, d) ∈ deriv → ∃ js : List Nat, js.length = order ∧
    (∀ j ∈ js, j < o.fn.argNames.length ∧ R.var j = true) ∧
    wrt = js.map (fun j => o.fn.argNames.getD j "") ∧
    IndOK d.ind d.nnz (js.map (fun j => (R.bs j).prod) ++ [o.fn.outShape.prod]) ∧
    Vectorised d.val ((List.range o.fn.argNames.length).map R.bs) [d.nnz] (V wrt)

/-- Contract of the dense gradients of an objective.  `grad_val.reshape(-1, *wrt_shape).sum(0)` needs the extension of a
differentiated argument to be a suffix of the extension of the output, up to leading axes of length one. -/
def GradOK (o : OptFun ℝ) (R : Reg) (G : String → Args → Nat → ℝ) : Prop :=
  o.fn.outShape = [] ∧ (Dict.keys o.fn.grad).Nodup ∧
  ∀ wrt g, (wrt, g) ∈ o.fn.grad → ∃ j < o.fn.argNames.length, R.var j = true ∧
    wrt = o.fn.argNames.getD j "" ∧
    Vectorised g ((List.range o.fn.argNames.length).map R.bs) (R.bs j) (G wrt) ∧
    ∃ k pre suf, R.ext j = List.replicate k 1 ++ suf ∧ R.E = pre ++ suf

/-- The base arguments with which a registered function is evaluated for the extension element `e`. -/
def baseArgs (o : OptFun ℝ) (R : Reg) (vs : Dict String (NDArray ℝ)) (e : Nat) : Args := fun j k =>
  if j < o.fn.argNames.length ∧ k < (R.bs j).prod then
    ((Dict.get? vs (o.args.getD j "")).getD ⟨[], []⟩).data.getD (bcIdx (R.ext j) R.E e * (R.bs j).prod + k) 0
  else 0

/-! ### Right derivatives -/

/-- Row `i` of an index array, column `n`. -/
def col (ind : List (List Nat)) (i n : Nat) : Nat := (ind.getD i []).getD n 0

/-- Sum of the values of the columns that satisfy `hit` (a sparse list, duplicates summed). -/
noncomputable def assemble (nnz : Nat) (hit : Nat → Prop) [DecidablePred hit] (val : Nat → ℝ) : ℝ :=
  ∑ n ∈ Finset.range nnz, if hit n then val n else 0

/-- First derivative listed by the dense gradients. -/
noncomputable def gradEntry (o : OptFun ℝ) (s : Sym) (x : Args) (j k : Nat) : ℝ :=
  (o.fn.grad.map fun wg => if wg.1 = o.fn.argNames.getD j "" then s.grad wg.1 x k else 0).sum

/-- First derivative of output `r` listed by the sparse first derivatives. -/
noncomputable def jacEntry (o : OptFun ℝ) (s : Sym) (x : Args) (r j k : Nat) : ℝ :=
  (o.fn.jac.map fun wd => assemble wd.2.nnz (fun n => wd.1 = [o.fn.argNames.getD j ""] ∧
    col wd.2.ind 0 n = k ∧ col wd.2.ind 1 n = r) (s.jac wd.1 x)).sum

/-- Second derivative of output `r` listed by the sparse second derivatives: a listed entry stands for itself and its
mirror image. -/
noncomputable def hessEntry (o : OptFun ℝ) (s : Sym) (x : Args) (r j k j' k' : Nat) : ℝ :=
  (o.fn.hess.map fun wd => assemble wd.2.nnz (fun n => col wd.2.ind 2 n = r ∧
    (wd.1 = [o.fn.argNames.getD j "", o.fn.argNames.getD j' ""] ∧ col wd.2.ind 0 n = k ∧ col wd.2.ind 1 n = k' ∨
     wd.1 = [o.fn.argNames.getD j' "", o.fn.argNames.getD j ""] ∧ col wd.2.ind 0 n = k' ∧ col wd.2.ind 1 n = k))
    (s.hess wd.1 x)).sum

/-- The symbolic gradient is right at `x`. -/
def GradRight (o : OptFun ℝ) (s : Sym) (R : Reg) (x : Args) : Prop :=
  HasPartialsAt o.fn.argNames.length (fun j => (R.bs j).prod) R.var (fun y => s.F y 0) (gradEntry o s x) x

/-- The symbolic sparse first derivatives are right at `x`. -/
def JacRight (o : OptFun ℝ) (s : Sym) (R : Reg) (x : Args) : Prop :=
  ∀ r < o.fn.outShape.prod,
    HasPartialsAt o.fn.argNames.length (fun j => (R.bs j).prod) R.var (fun y => s.F y r) (jacEntry o s x r) x

/-- The symbolic sparse second derivatives are right at `x`: the function has partial derivatives `D` around `x`, which
have at `x` the partial derivatives listed. -/
def HessRight (o : OptFun ℝ) (s : Sym) (R : Reg) (x : Args) : Prop :=
  ∃ D : Args → Nat → Nat → Nat → ℝ,
    (∀ r < o.fn.outShape.prod, ∀ᶠ y in nhds x,
      HasPartialsAt o.fn.argNames.length (fun j => (R.bs j).prod) R.var (fun z => s.F z r) (D y r) y) ∧
    ∀ r < o.fn.outShape.prod, ∀ j < o.fn.argNames.length, R.var j = true → ∀ k < (R.bs j).prod,
      HasPartialsAt o.fn.argNames.length (fun j => (R.bs j).prod) R.var (fun y => D y r j k) (hessEntry o s x r j k) x

/-- No two different entries of the variables with which `o` is evaluated for one extension element are the same decision
entry. -/
def NoAlias (p : Problem ℝ) (o : OptFun ℝ) (R : Reg) : Prop :=
  ∀ e < R.E.prod, ∀ j < o.fn.argNames.length, ∀ j' < o.fn.argNames.length, R.var j = true → R.var j' = true →
    ∀ k < (R.bs j).prod, ∀ k' < (R.bs j').prod, ∀ v v', p.variableSpec (o.args.getD j "") = .ok v →
      p.variableSpec (o.args.getD j' "") = .ok v' →
      v.convertInd (bcIdx (R.ext j) R.E e * (R.bs j).prod + k) =
        v'.convertInd (bcIdx (R.ext j') R.E e * (R.bs j').prod + k') → j = j' ∧ k = k'

end Ceacoest.Spec
