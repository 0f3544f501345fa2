import Verif.Model.SymClasses

/-!
# What the constructors of the symbolic model classes are to leave (C68, C71)

genoptim.py:16-28, 80, 88, 111 and 178-225 look up the attributes `fname`, `dname`, `{dname}_val`, `{dname}_nnz` and `{dname}_ind` of
the generated class, for the names in its dictionaries `objectives` and `constraints`.  Functions are attributes of the generated class
if they are in `generate_functions`; assignments are made for the names in `sparse_nnz` and `sparse_nzind`.
-/

namespace Ceacoest
variable {X : Type}

/-- `n` is a key. -/
def Dict.has {κ α : Type _} [DecidableEq κ] (d : Dict κ α) (n : κ) : Prop := ∃ v, Dict.get? d n = some v

namespace SymModel

/-- The sparse derivative `d` will be in the generated class. -/
structure Sparse (m : SymModel X) (d : String) : Prop where
  val : d ++ "_val" ∈ m.generate
  nnz : ∃ n, Dict.get? m.sparseNnz d = some n
  ind : ∃ i, Dict.get? m.sparseNzind d = some i

/-- What the generated class looks up for an objective. -/
structure ObjectiveThere (m : SymModel X) (name : String) (d : ObjDesc) : Prop where
  fn : name ∈ m.generate
  grad : ∀ wd ∈ d.grad, wd.2 ∈ m.generate
  hess : ∀ wd ∈ d.hess, m.Sparse wd.2

/-- What the generated class looks up for a constraint. -/
structure ConstraintThere (m : SymModel X) (name : String) (d : ConDesc) : Prop where
  fn : name ∈ m.generate
  jac : ∀ wd ∈ d.jac, m.Sparse wd.2
  hess : ∀ wd ∈ d.hess, m.Sparse wd.2

/-- Everything that the generated class looks up is there, and what is to be generated exists. -/
structure Closed (m : SymModel X) : Prop where
  objectives : ∀ name d, Dict.get? m.objectives name = some d → m.ObjectiveThere name d
  constraints : ∀ name d, Dict.get? m.constraints name = some d → m.ConstraintThere name d
  functions : ∀ n ∈ m.generate, ∃ f, Dict.get? m.funcs n = some f

/-- The objectives and constraints of a model are those named in `os` and `cs`; they are marked for code generation, as is `f`. -/
structure BuiltBy (m : SymModel X) (os cs : List String) : Prop where
  objectives : ∀ n, Dict.has m.objectives n ↔ n ∈ os
  constraints : ∀ n, Dict.has m.constraints n ↔ n ∈ cs
  generate : ∀ n ∈ "f" :: os ++ cs, n ∈ m.generate

end SymModel

namespace Spec

/-- The copies of a variable with the symbols `names` at `n` points: point `k` of `name` is `name_piece_k`. -/
def pieceSymbols (names : List String) (n : Nat) : SymVar :=
  ⟨[n, names.length], (List.range n).flatMap fun k => names.map fun s => s ++ "_piece_" ++ toString k⟩

/-- The variables of a collocation model with `N` intervals per piece, for the dictionary `vars` of the user. -/
structure ColRegistered (v vars : Dict String SymVar) (N : Nat) (xn un pn : List String) : Prop where
  x : Dict.get? v "x" = some ⟨[xn.length], xn⟩
  u : Dict.get? v "u" = some ⟨[un.length], un⟩
  p : Dict.get? v "p" = some ⟨[pn.length], pn⟩
  xp : Dict.get? v "xp" = some (pieceSymbols xn (N + 1))
  up : Dict.get? v "up" = some (pieceSymbols un (N + 1))
  pieceLen : Dict.get? v "piece_len" = some ((Dict.get? vars "piece_len").getD ⟨[], ["piece_len"]⟩)

/-- No symbol occurs twice. -/
def DistinctSymbols (v : String → Option SymVar) : Prop :=
  (∀ n a, v n = some a → a.names.Nodup) ∧ ∀ n n' a a', n ≠ n' → v n = some a → v n' = some a' → a.names.Disjoint a'.names

/-- The variables of the user with the defaults, without those the constructor overwrites. -/
def userVars (vars : Dict String SymVar) (over : List String) (n : String) : Option SymVar :=
  if n ∈ over then none else
    (Dict.get? vars n).or (if n = "u" ∨ n = "p" then some ⟨[0], []⟩ else if n = "piece_len" then some ⟨[], ["piece_len"]⟩ else none)

/-- The variables a constructor makes for a dictionary with states `xn` and inputs `un`: those of `over`. -/
def derivedVars (N nw : Nat) (xn un : List String) (n : String) : Option SymVar :=
  if n = "xp" then some (pieceSymbols xn (N + 1)) else if n = "up" then some (pieceSymbols un (N + 1)) else
  if n = "xe" then some ⟨[2, xn.length], (xn.map fun s => s ++ "_initial") ++ xn.map fun s => s ++ "_final"⟩ else
  if n = "wc" then some ⟨[N, nw], (List.range N).flatMap fun i => (List.range nw).map fun j => "wc" ++ toString j ++ "_interv_" ++ toString i⟩ else
  if n = "penweight" then some ⟨[xn.length], (List.range xn.length).map fun i => "penweight" ++ toString i⟩ else none

/-- Symbols with which those of the constructors cannot collide. -/
def Unreserved (s : String) : Prop :=
  ¬ ['_', 'p', 'i', 'e', 'c', 'e', '_'] <:+: s.toList ∧ ¬ ['_', 'i', 'n', 'i', 't', 'i', 'a', 'l'] <:+ s.toList ∧
    ¬ ['_', 'f', 'i', 'n', 'a', 'l'] <:+ s.toList ∧ ¬ ['_', 'i', 'n', 't', 'e', 'r', 'v', '_'] <:+: s.toList ∧
    ¬ ['p', 'e', 'n', 'w', 'e', 'i', 'g', 'h', 't'] <+: s.toList

end Spec
end Ceacoest
