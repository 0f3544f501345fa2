import Verif.Spec.SymContract

/-!
# What the variables of the problem classes stand for (C67)

Every variable of a problem is an array of shape (extension, base shape): one base value for every grid point, every piece,
every measurement, or a single one.
-/

namespace Ceacoest.Spec

/-- Extension and base shape of the variables of a problem by name, and whether they depend on the decision vector. -/
structure Table where
  ext : String → List Nat
  bs : String → List Nat
  var : String → Bool

/-- How a function is registered with variables of a table: the extension of its output is what precedes the shape of its base
value. -/
def Table.reg (T : Table) (o : OptFun ℝ) : Reg where
  E := o.shape.take (o.shape.length - o.fn.outShape.length)
  ext j := T.ext (o.args.getD j "")
  bs j := T.bs (o.args.getD j "")
  var j := T.var (o.args.getD j "")

/-- Variables of an optimal control problem of `P` pieces of `N` intervals. -/
def ocTable (P N nx nu np : Nat) : Table where
  ext n := if n ∈ ["x", "u"] then [P * N + 1] else if n ∈ ["xp", "up", "piece_len"] then [P] else []
  bs n := if n = "x" then [nx] else if n = "u" then [nu] else if n = "p" then [np] else if n = "xp" then [N + 1, nx] else
    if n = "up" then [N + 1, nu] else if n = "xe" then [2, nx] else []
  var n := n ∈ ["x", "u", "p", "xp", "up", "xe"]

/-- Variables of an output error problem with `K` rows of measurements. -/
def oemTable (P N nx nu np ny K : Nat) : Table where
  ext n := if n ∈ ["x", "u"] then [P * N + 1] else if n ∈ ["xp", "up", "piece_len"] then [P] else
    if n ∈ ["y", "xm", "um"] then [K] else []
  bs n := if n ∈ ["x", "xm"] then [nx] else if n ∈ ["u", "um"] then [nu] else if n = "p" then [np] else if n = "xp" then [N + 1, nx] else
    if n = "up" then [N + 1, nu] else if n = "y" then [ny] else []
  var n := n ∈ ["x", "p", "xp", "xm"]

/-- Variables of a joint MAP problem. -/
def jmeTable (P N nx nu np ny nw K : Nat) : Table where
  ext n := if n ∈ ["x", "u"] then [P * N + 1] else if n ∈ ["xp", "up", "piece_len", "wc"] then [P] else
    if n ∈ ["y", "xm", "um"] then [K] else []
  bs n := if n ∈ ["x", "xm"] then [nx] else if n ∈ ["u", "um"] then [nu] else if n = "p" then [np] else if n = "xp" then [N + 1, nx] else
    if n = "up" then [N + 1, nu] else if n = "y" then [ny] else if n = "wc" then [N, nw] else if n = "G" then [nx, nw] else
    if n = "penweight" then [nx] else []
  var n := n ∈ ["x", "p", "xp", "xm", "wc"]

end Ceacoest.Spec
