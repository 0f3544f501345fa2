import Verif.NumPy.Broadcast
import Mathlib.Data.Real.Basic

/-!
# `ceacoest/utils.py`

Not modelled: `cached_property` (imported from a third-party package), `sig_arg_names` (`inspect.signature`);
`double_deriv_name` is in `Verif.Model.SymOptim`.
-/

namespace Ceacoest.Utils

/-- utils.py:33 / 71 `h = np.maximum(x*rel_step, min_step)`. -/
noncomputable def steps (x : List ℝ) (minStep relStep : ℝ) : List ℝ := x.map fun xi => max (xi * relStep) minStep

/-- `diff[i] = v` where `diff` has shape `x.shape + fshape` and `i` is the `k`-th index of `x`: `v` is broadcast. -/
def assignRow (diff : NDArray ℝ) (fshape : List Nat) (k : Nat) (v : NDArray ℝ) : Py (NDArray ℝ) := do
  let b ← broadcastTo v fshape
  return ⟨diff.shape, writeAt diff.data ((List.range fshape.prod).map (k * fshape.prod + ·)) b.data⟩

/-- utils.py:45-46 / 74: `np.empty(x.shape + fshape)`; `junk` is its content. -/
def emptyDiff (x : NDArray ℝ) (fshape : List Nat) (junk : Nat → ℝ) : NDArray ℝ :=
  ⟨x.shape ++ fshape, (List.range (x.shape ++ fshape).prod).map junk⟩

/-- `x` with entry `i` replaced by `t` (utils.py:37-40, 76-77). -/
def atCoord (x : NDArray ℝ) (i : Nat) (t : ℝ) : NDArray ℝ := ⟨x.shape, x.data.set i t⟩

/-- utils.py:36-48: the loop body of `central_diff`; the state is `diff` and, once it is created, the shape of its rows. -/
noncomputable def centralStep (f : NDArray ℝ → Py (NDArray ℝ)) (x : NDArray ℝ) (h : List ℝ) (junk : Nat → ℝ)
    (st : Option (NDArray ℝ × List Nat)) (i : Nat) : Py (Option (NDArray ℝ × List Nat)) := do
  let hi := h.getD i 0
  let fplus ← f (atCoord x i (x.data.getD i 0 + hi))
  let fminus ← f (atCoord x i (x.data.getD i 0 - hi))
  let diff := st.getD (emptyDiff x fplus.shape junk, fplus.shape)
  let d ← binop (fun p m => (1 / 2 * (p - m)) / hi) fplus fminus
  return some (← assignRow diff.1 diff.2 i d, diff.2)

/-- utils.py:12-50 `central_diff`.  `x` is given by its shape and entries (`np.asarray(x, float)`), `np.ndenumerate` visits
them in C order.  `None` is returned for empty `x`. -/
noncomputable def centralDiff (f : NDArray ℝ → Py (NDArray ℝ)) (x : NDArray ℝ) (minStep relStep : ℝ) (junk : Nat → ℝ) :
    Py (Option (NDArray ℝ)) := do
  let h := steps x.data minStep relStep
  let st ← (List.range h.length).foldlM (centralStep f x h junk) none
  return st.map Prod.fst

/-- utils.py:75-78: the loop body of `forward_diff`. -/
noncomputable def forwardStep (f : NDArray ℝ → Py (NDArray ℝ)) (x : NDArray ℝ) (h : List ℝ) (f0 : NDArray ℝ)
    (diff : NDArray ℝ) (i : Nat) : Py (NDArray ℝ) := do
  let hi := h.getD i 0
  let d ← binop (fun p m => (p - m) / hi) (← f (atCoord x i (x.data.getD i 0 + hi))) f0
  assignRow diff f0.shape i d

/-- utils.py:53-82 `forward_diff`. -/
noncomputable def forwardDiff (f : NDArray ℝ → Py (NDArray ℝ)) (x : NDArray ℝ) (minStep relStep : ℝ) (junk : Nat → ℝ) :
    Py (NDArray ℝ) := do
  let h := steps x.data minStep relStep
  let f0 ← f x
  (List.range h.length).foldlM (forwardStep f x h f0) (emptyDiff x f0.shape junk)

/-- One element of the regular expression that `extract_subkeys` builds from `base`: a literal character, or the
metacharacter `.` (any character but a newline).  Simplification: other metacharacters are not modelled. -/
inductive Atom
  | lit (c : Char)
  | dot
  deriving DecidableEq, Repr

/-- Parsing of `base` as a regular expression (only `.` is special here). -/
def parseBase (base : List Char) : List Atom := base.map fun c => if c = '.' then .dot else .lit c

/-- The rest of the key after `re.match` of the atoms at its start. -/
def matchAtoms : List Atom → List Char → Option (List Char)
  | [], k => some k
  | .lit c :: as, d :: k => if c = d then matchAtoms as k else none
  | .dot :: as, d :: k => if d = '\n' then none else matchAtoms as k
  | _ :: _, [] => none

/-- utils.py:85-98 `extract_subkeys`.  Strings are lists of characters; `word` is the class `\w`; the greedy `\w+` takes the
longest run of word characters and fails on an empty one (no backtracking is possible for these atoms). -/
def extractSubkeys {α : Type} (word : Char → Bool) (d : Dict (List Char) α) (base : List Char) : Dict (List Char) α :=
  d.foldl (fun subkeys kv =>
    match matchAtoms (parseBase base) kv.1 with
    | none => subkeys
    | some rest =>
      if rest.takeWhile word = [] then subkeys else Dict.set subkeys (rest.takeWhile word) kv.2) []

/-- The `order` argument. -/
inductive Order
  | C
  | F
  deriving DecidableEq, Repr

/-- `np.ravel(arg, order=order)`. -/
def ravel {α : Type} (o : Order) (a : NDArray α) : Py (List α) :=
  match o with
  | .C => .ok a.data
  | .F => readAt a.data (fPos a.shape)

/-- utils.py:101-108 `flat_cat`; `np.concatenate` of an empty list raises ValueError. -/
def flatCat {α : Type} (o : Order) (args : List (NDArray α)) : Py (NDArray α) := do
  let rs ← args.mapM (ravel o)
  if rs = [] then .error .valueError else return ⟨[rs.flatten.length], rs.flatten⟩

/-- State of a run: the attributes of every object, and the rest of the world. -/
structure World (V W : Type) where
  attrs : Nat → String → Option V
  rest : W

/-- utils.py:119-134 `cached`: the wrapper of a method called `fname`.  The method body may read and change the world
`W` and may raise; simplification: it does not itself touch object attributes. -/
def cached {V W : Type} (fname : String) (body : Nat → W → Py V × W) (self : Nat) (w : World V W) : Py V × World V W :=
  let cachedName := "_" ++ fname
  match w.attrs self cachedName with
  | some v => (.ok v, w)
  | none =>
    match body self w.rest with
    | (.ok v, r) =>
      (.ok v, ⟨fun o n => if o = self ∧ n = cachedName then some v else w.attrs o n, r⟩)
    | (.error e, r) => (.error e, ⟨w.attrs, r⟩)

end Ceacoest.Utils
