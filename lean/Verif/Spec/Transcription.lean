import Verif.Spec.SymContract
import Verif.Model.SymClasses
import Mathlib.Analysis.Calculus.Deriv.Basic

/-!
# Direct transcription (C68, C70)

What the nonlinear program of an optimal control or estimation problem has to be, in terms of the user's functions on numbers.
Decision vectors, states, inputs and parameters are lists of numbers.
-/

namespace Ceacoest.Spec
variable {X : Type}

/-- Contract of sympy and sym2num: `ev` gives the value of an expression. -/
structure ArithOK (A : SymArith X) (ev : X → Env → ℝ) : Prop where
  num : ∀ r env, ev (A.num r) env = r
  sym : ∀ n k env, ev (A.sym n k) env = env n k
  add : ∀ a b env, ev (A.add a b) env = ev a env + ev b env
  sub : ∀ a b env, ev (A.sub a b) env = ev a env - ev b env
  mul : ∀ a b env, ev (A.mul a b) env = ev a env * ev b env
  subst : ∀ a σ env, ev (A.subst a σ) env = ev a fun n k => ev (σ n k) env
  form : ∀ shape f order, f.out.length = f.outShape.prod → DerivForm (A.s2n shape) ev shape f order

/-! ### What the user passes to the constructors -/

/-- An optional one-dimensional variable: absent means empty. -/
def OptVec (vars : Dict String SymVar) (n : String) (names : List String) : Prop :=
  Dict.get? vars n = some (.vec names) ∨ Dict.get? vars n = none ∧ names = []

/-- The dictionary of variables of a collocation model. -/
structure ColVars (vars : Dict String SymVar) (xn un pn : List String) : Prop where
  keys : (Dict.keys vars).Nodup
  x : Dict.get? vars "x" = some (.vec xn)
  u : OptVec vars "u" un
  p : OptVec vars "p" pn
  pieceLen : ∀ v, Dict.get? vars "piece_len" = some v → v.shape = []

/-- Additional decision variables that the user may pass: variables of the model other than `excluded`. -/
def DecisionOK (vars : Dict String SymVar) (own excluded decision : List String) : Prop :=
  ∀ n ∈ decision, n ∉ excluded ∧ (n ∈ own ∨ (Dict.get? vars n).isSome)

/-- The orders in which Python may iterate over the decision arguments of the functions. -/
def OrdersOK (iter : String → List String) (args : List (String × List String)) : Prop := ∀ fa ∈ args, (iter fa.1).Perm fa.2

/-- The decision arguments of the functions of an optimal control model. -/
def ocWrt : List (String × List String) :=
  [("e", ["xp", "up", "p"]), ("IL", ["xp", "up", "p"]), ("M", ["xe", "p"]), ("g", ["x", "u", "p"]), ("h", ["xe", "p"])]

/-- Row `r` of an array of `c` columns that starts at entry `off`. -/
def rowAt (d : List ℝ) (off c r : Nat) : List ℝ := (List.range c).map fun j => d.getD (off + (r * c + j)) 0

/-- The functions of an optimal control problem, on numbers. -/
structure OCFunctions where
  f : List ℝ → List ℝ → List ℝ → List ℝ
  L : List ℝ → List ℝ → List ℝ → ℝ
  /-- of the two end points, one after the other, and the parameters -/
  M : List ℝ → List ℝ → ℝ
  g : List ℝ → List ℝ → List ℝ → List ℝ
  h : List ℝ → List ℝ → List ℝ

/-- The symbolic methods compute the functions `F`, for all arguments of the right lengths. -/
structure OCDenotes (ev : X → Env → ℝ) (U : OCUser X) (F : OCFunctions) (nx nu np ng nh : Nat) : Prop where
  lenf : ∀ x u p, x.length = nx → u.length = nu → p.length = np → (U.f x u p).length = nx
  leng : ∀ x u p, x.length = nx → u.length = nu → p.length = np → (U.g x u p).length = ng
  lenh : ∀ xe p, xe.length = 2 * nx → p.length = np → (U.h xe p).length = nh
  f : ∀ x u p env, x.length = nx → u.length = nu → p.length = np →
    (U.f x u p).map (ev · env) = F.f (x.map (ev · env)) (u.map (ev · env)) (p.map (ev · env))
  L : ∀ x u p env, x.length = nx → u.length = nu → p.length = np →
    ev (U.L x u p) env = F.L (x.map (ev · env)) (u.map (ev · env)) (p.map (ev · env))
  M : ∀ xe p env, xe.length = 2 * nx → p.length = np → ev (U.M xe p) env = F.M (xe.map (ev · env)) (p.map (ev · env))
  g : ∀ x u p env, x.length = nx → u.length = nu → p.length = np →
    (U.g x u p).map (ev · env) = F.g (x.map (ev · env)) (u.map (ev · env)) (p.map (ev · env))
  h : ∀ xe p env, xe.length = 2 * nx → p.length = np →
    (U.h xe p).map (ev · env) = F.h (xe.map (ev · env)) (p.map (ev · env))

/-- The collocation defects of the piece of length `len` that starts at point `s`: the increments of the states over the intervals
minus the integrals of the interpolated right hand side. -/
noncomputable def defects (J : List (List ℝ)) (rhs : Nat → List ℝ) (x : Nat → List ℝ) (N nx s : Nat) (len : ℝ) : List ℝ :=
  (List.range N).flatMap fun k => (List.range nx).map fun j =>
    (x (s + k + 1)).getD j 0 - (x (s + k)).getD j 0 -
      (∑ l ∈ Finset.range (N + 1), (J.getD k []).getD l 0 * (rhs (s + l)).getD j 0) * len

/-- The states, inputs and parameters of an optimal control problem, as parts of the decision vector. -/
def ocX (nx : Nat) (d : List ℝ) (r : Nat) : List ℝ := rowAt d 0 nx r
def ocU (P N nx nu : Nat) (d : List ℝ) (r : Nat) : List ℝ := rowAt d ((P * N + 1) * nx) nu r
def ocP (P N nx nu np : Nat) (d : List ℝ) : List ℝ := rowAt d ((P * N + 1) * (nx + nu)) np 0

/-- The cost of an optimal control problem: quadrature of the running cost over all pieces plus the cost of the end points. -/
noncomputable def ocCost (F : OCFunctions) (K len : List ℝ) (P N nx nu np : Nat) (d : List ℝ) : ℝ :=
  (∑ i ∈ Finset.range P, (∑ l ∈ Finset.range (N + 1),
    F.L (ocX nx d (i * N + l)) (ocU P N nx nu d (i * N + l)) (ocP P N nx nu np d) * K.getD l 0) * len.getD i 0) +
  F.M (ocX nx d 0 ++ ocX nx d (P * N)) (ocP P N nx nu np d)

/-- The constraints of an optimal control problem: the defects of all pieces, the path constraints at all points, the end point
constraints. -/
noncomputable def ocConstraints (F : OCFunctions) (J : List (List ℝ)) (len : List ℝ) (P N nx nu np : Nat) (d : List ℝ) : List ℝ :=
  ((List.range P).flatMap fun i => defects J (fun r => F.f (ocX nx d r) (ocU P N nx nu d r) (ocP P N nx nu np d)) (ocX nx d) N nx
    (i * N) (len.getD i 0)) ++
  ((List.range (P * N + 1)).flatMap fun r => F.g (ocX nx d r) (ocU P N nx nu d r) (ocP P N nx nu np d)) ++
  F.h (ocX nx d 0 ++ ocX nx d (P * N)) (ocP P N nx nu np d)

/-! ### Output error problems -/

/-- The decision arguments of the functions of an output error model. -/
def oemWrt : List (String × List String) := [("e", ["xp", "p"]), ("L", ["x", "p"])]

/-- The functions of an output error problem, on numbers. -/
structure OEMFunctions where
  f : List ℝ → List ℝ → List ℝ → List ℝ
  /-- log-likelihood of a row of measurements, given state, input and parameters -/
  L : List ℝ → List ℝ → List ℝ → List ℝ → ℝ

/-- The symbolic methods compute the functions `F`. -/
structure OEMDenotes (ev : X → Env → ℝ) (U : OEMUser X) (F : OEMFunctions) (nx nu np ny : Nat) : Prop where
  lenf : ∀ x u p, x.length = nx → u.length = nu → p.length = np → (U.f x u p).length = nx
  f : ∀ x u p env, x.length = nx → u.length = nu → p.length = np →
    (U.f x u p).map (ev · env) = F.f (x.map (ev · env)) (u.map (ev · env)) (p.map (ev · env))
  L : ∀ y x u p env, y.length = ny → x.length = nx → u.length = nu → p.length = np →
    ev (U.L y x u p) env = F.L (y.map (ev · env)) (x.map (ev · env)) (u.map (ev · env)) (p.map (ev · env))

/-- The log-likelihood of the measured rows: row `k` was measured at grid point `k * N`. -/
noncomputable def logLikelihood (F : OEMFunctions) (rows : List Nat) (y u : List ℝ) (N nx nu ny : Nat) (p d : List ℝ) : ℝ :=
  (rows.map fun k => F.L (rowAt y 0 ny k) (rowAt d 0 nx (k * N)) (rowAt u 0 nu (k * N)) p).sum

/-- The constraints of an output error problem: the defects of all pieces. -/
noncomputable def oemConstraints (F : OEMFunctions) (J : List (List ℝ)) (len u : List ℝ) (P N nx nu : Nat) (p d : List ℝ) : List ℝ :=
  (List.range P).flatMap fun i => defects J (fun r => F.f (rowAt d 0 nx r) (rowAt u 0 nu r) p) (rowAt d 0 nx) N nx (i * N) (len.getD i 0)

/-! ### Joint MAP problems -/

/-- The decision arguments of the functions of a joint MAP model. -/
def jmeWrt : List (String × List String) :=
  [("e", ["xp", "p", "wc"]), ("L", ["x", "p"]), ("tube_L", ["xp", "p", "wc"]), ("penalty", ["xp", "p", "wc"])]

/-- The functions of a joint MAP problem: also the diagonal of the Jacobian of `f` with respect to the state. -/
structure JMEFunctions extends OEMFunctions where
  div : List ℝ → List ℝ → List ℝ → Nat → ℝ

/-- With the true derivatives of `f`. -/
noncomputable def OEMFunctions.withDiv (F : OEMFunctions) : JMEFunctions where
  toOEMFunctions := F
  div x u p j := _root_.deriv (fun s => (F.f (x.set j s) u p).getD j 0) (x.getD j 0)

/-- The symbolic methods compute the functions `F`; the Jacobian only matters for models with the Onsager--Machlup term. -/
structure JMEDenotes (A : SymArith X) (ev : X → Env → ℝ) (U : JMEUser X) (F : JMEFunctions) (nx nu np ny : Nat) : Prop
    extends OEMDenotes ev U.toOEMUser F.toOEMFunctions nx nu np ny where
  div : U.useOm = true → ∀ shape : String → List Nat, shape "x" = [nx] → shape "u" = [nu] → shape "p" = [np] → ∀ env, ∀ j < nx,
    ev ((A.deriv shape (.vec ["x", "u", "p"] (U.f (A.row "x" nx 0) (A.row "u" nu 0) (A.row "p" np 0))) ["x"]).out.getD (j * nx + j) (A.num 0)) env =
      F.div ((List.range nx).map (env "x")) ((List.range nu).map (env "u")) ((List.range np).map (env "p")) j

/-- The noise at point `l` of a piece with noise coefficients `wc`. -/
noncomputable def noiseAt (jt : List (List ℝ)) (wc : Nat → List ℝ) (N nw l : Nat) : List ℝ :=
  (List.range nw).map fun b => ∑ k ∈ Finset.range N, (jt.getD l []).getD k 0 * (wc k).getD b 0

/-- The right hand side with noise: `f + G w`. -/
noncomputable def noisyRhs (f w : List ℝ) (G : Nat → List ℝ) (nx nw : Nat) : List ℝ :=
  (List.range nx).map fun j => f.getD j 0 + ∑ b ∈ Finset.range nw, w.getD b 0 * (G j).getD b 0

/-- The drift divergence: the trace of the last `nw` rows and columns of the Jacobian (of all of them if `nw` is zero). -/
noncomputable def driftDiv (diag : Nat → ℝ) (nx nw : Nat) : ℝ := ∑ j ∈ Finset.range nx, if nw = 0 ∨ nx ≤ j + nw then diag j else 0

/-- The log-density of the tube around a piece: `diag l` is the diagonal of the Jacobian and `w l` the noise at point `l`. -/
noncomputable def tubeDensity (useOm : Bool) (diag : Nat → Nat → ℝ) (w : Nat → List ℝ) (K : List ℝ) (N nx nw : Nat) (len : ℝ) : ℝ :=
  (∑ l ∈ Finset.range (N + 1), -(1 / 2) * ((if useOm then driftDiv (diag l) nx nw else 0) + ∑ b ∈ Finset.range nw, (w l).getD b 0 ^ 2) *
    K.getD l 0) * len

/-- The penalty of the defects `e` of a piece. -/
noncomputable def defectPenalty (e weight : List ℝ) (N nx : Nat) : ℝ :=
  -∑ k ∈ Finset.range N, ∑ j ∈ Finset.range nx, e.getD (k * nx + j) 0 ^ 2 * weight.getD j 0

/-- The noise coefficients and parameters of a joint MAP problem, as parts of the decision vector. -/
def jmeW (P N nx nw : Nat) (d : List ℝ) (i k : Nat) : List ℝ := rowAt d ((P * N + 1) * nx) nw (i * N + k)
def jmeP (P N nx nw np : Nat) (d : List ℝ) : List ℝ := rowAt d ((P * N + 1) * nx + P * N * nw) np 0

/-- The defects of piece `i` of a joint MAP problem. -/
noncomputable def jmeDefects (F : JMEFunctions) (J jt : List (List ℝ)) (len u G : List ℝ) (P N nx nu nw np : Nat) (d : List ℝ) (i : Nat) :
    List ℝ :=
  defects J (fun l => noisyRhs (F.f (rowAt d 0 nx (i * N + l)) (rowAt u 0 nu (i * N + l)) (jmeP P N nx nw np d))
    (noiseAt jt (jmeW P N nx nw d i) N nw l) (rowAt G 0 nw) nx nw) (fun l => rowAt d 0 nx (i * N + l)) N nx 0 (len.getD i 0)

/-- The penalty weights that count: those of models with a penalty. -/
def penaltyWeights (usePenalty : Bool) (w : Option (NDArray ℝ)) : Option (List ℝ) :=
  if usePenalty then some ((w.map NDArray.data).getD []) else none

/-- The log-posterior of a joint MAP problem; `penweight` is given for models with a penalty. -/
noncomputable def jmeCost (F : JMEFunctions) (useOm : Bool) (penweight : Option (List ℝ)) (J jt : List (List ℝ)) (K len : List ℝ)
    (rows : List Nat) (y u G : List ℝ) (P N nx nu nw np ny : Nat) (d : List ℝ) : ℝ :=
  logLikelihood F.toOEMFunctions rows y u N nx nu ny (jmeP P N nx nw np d) d +
  (∑ i ∈ Finset.range P, tubeDensity useOm
    (fun l => F.div (rowAt d 0 nx (i * N + l)) (rowAt u 0 nu (i * N + l)) (jmeP P N nx nw np d))
    (noiseAt jt (jmeW P N nx nw d i) N nw) K N nx nw (len.getD i 0)) +
  match penweight with
  | some weight => ∑ i ∈ Finset.range P, defectPenalty (jmeDefects F J jt len u G P N nx nu nw np d i) weight N nx
  | none => 0

end Ceacoest.Spec
