import Verif.NumPy.Broadcast
import Mathlib.Data.Real.Basic

/-! # `ceacoest/testsupport/array_cmp.py` (of the report only the layout of the text is not modelled) -/

namespace Ceacoest.ArrayCmp

/-- array_cmp.py:15-18 `ArrayDiff.__init__`.  An operand is given by the array that `np.asarray` makes of it, or by the
exception it raises. -/
structure ArrayDiff where
  a : Py (NDArray ℝ)
  b : Py (NDArray ℝ)

/-- array_cmp.py:7-12 `broadcastable`. -/
def broadcastable (a b : NDArray ℝ) : Bool := (bcShape2 a.shape b.shape).isSome

/-- The attributes that a comparison leaves behind (array_cmp.py:32-41), as far as `report` reads them. -/
inductive Attrs
  /-- `a_array_convertible` is false. -/
  | aNotArray
  /-- `a_array_convertible` is true, `b_array_convertible` false. -/
  | bNotArray
  /-- Both are arrays and `broadcastable` is false. -/
  | notBroadcastable (a b : NDArray ℝ)
  | compared (atol rtol : ℝ) (a b err : NDArray ℝ) (ok : NDArray Bool)

/-- array_cmp.py:26-30, 34: the exceptions TypeError and ValueError of `np.asarray` are caught, others are not.  `np.broadcast`
converts the operand again and raises the same exception; there only ValueError is caught (array_cmp.py:11). -/
def notArray (e : PyErr) (attrs : Attrs) : Py (Bool × Attrs) :=
  match e with
  | .valueError => return (false, attrs)
  | e => .error e

open Classical in
/-- array_cmp.py:20-42 `within_tol`, with the attributes that it sets.  Real arithmetic (no NaN, no rounding). -/
noncomputable def ArrayDiff.compare (d : ArrayDiff) (atol : ℝ := 0) (rtol : ℝ := 0) (tol : Option ℝ := none) : Py (Bool × Attrs) :=
  let (atol, rtol) := match tol with | some t => (t, t) | none => (atol, rtol)
  match d.a, d.b with
  | .ok a, .ok b =>
    if broadcastable a b then do
      let err ← binop (fun x y => x - y) a b
      let bound : NDArray ℝ := ⟨b.shape, b.data.map fun y => atol + rtol * |y|⟩
      let ok ← binop (fun e t => decide (|e| < t)) err bound
      return (ok.data.all id, .compared atol rtol a b err ok)
    else return (false, .notBroadcastable a b)
  | .error e, _ => notArray e .aNotArray
  | .ok _, .error e => notArray e .bNotArray

/-- array_cmp.py:20-42 `within_tol`: the value returned. -/
noncomputable def ArrayDiff.withinTol (d : ArrayDiff) (atol : ℝ := 0) (rtol : ℝ := 0) (tol : Option ℝ := none) : Py Bool := do
  return (← d.compare atol rtol tol).1

/-- The right operand of `<`. -/
inductive Operand
  | dict (atol rtol tol : Option ℝ)
  | num (t : ℝ)
  | other

/-- array_cmp.py:44-50 `__lt__`. -/
noncomputable def ArrayDiff.lt (d : ArrayDiff) : Operand → Py Bool
  | .dict atol rtol tol => d.withinTol (atol.getD 0) (rtol.getD 0) tol
  | .num t => d.withinTol (tol := some t)
  | .other => .error .valueError

/-! ## The report -/

/-- One line of the list of violations (array_cmp.py:66-70): the index, the entries and their difference. -/
structure Violation where
  ind : List Nat
  a : ℝ
  b : ℝ
  err : ℝ

/-- What the lines returned by `report` say. -/
inductive Report
  /-- array_cmp.py:54-55 -/
  | aNotArray
  /-- array_cmp.py:56-57 -/
  | bNotArray
  /-- array_cmp.py:58-62 -/
  | notBroadcastable (a b : List Nat)
  /-- array_cmp.py:71-75 -/
  | violations (rtol atol : ℝ) (a b err : NDArray ℝ) (violations : List Violation)

/-- The multi-index of a flat position (`np.unravel_index`). -/
def unravel : List Nat → Nat → List Nat
  | [], _ => []
  | _ :: sh, n => n / sh.prod :: unravel sh (n % sh.prod)

/-- array_cmp.py:66 `zip(*np.nonzero(~self.ok))`: the indices of the false entries in C order.  `np.nonzero` takes an array
without axes for one with one axis (from NumPy 2.1 on it raises ValueError there; `report` raises in both cases). -/
def nonzeroNot (ok : NDArray Bool) : List (List Nat) :=
  let sh := if ok.shape = [] then [1] else ok.shape
  ((List.range ok.data.length).filter fun i => !(ok.data.getD i true)).map (unravel sh)

/-- Flat position of `x[ind]` for an array of the given shape; IndexError for an index out of range and for too many of them. -/
def flatIndex : List Nat → List Nat → Py Nat
  | [], [] => pure 0
  | n :: sh, i :: is => do
    if n ≤ i then .error .indexError else
    return i * sh.prod + (← flatIndex sh is)
  | _, _ => .error .indexError

/-- `x[ind]` with an index for every axis. -/
def item (x : NDArray ℝ) (ind : List Nat) : Py ℝ := do
  match x.data[← flatIndex x.shape ind]? with
  | some v => return v
  | none => .error .indexError

/-- array_cmp.py:53-75 `report`; before any comparison the attribute of line 54 is missing. -/
def report : Option Attrs → Py Report
  | none => .error .attributeError
  | some .aNotArray => return .aNotArray
  | some .bNotArray => return .bNotArray
  | some (.notBroadcastable a b) => return .notBroadcastable a.shape b.shape
  | some (.compared atol rtol a b err ok) => do
    let violations ← (nonzeroNot ok).mapM fun ind => do
      let ai ← item a ind
      let bi ← item b ind
      let ei ← item err ind
      return Violation.mk ind ai bi ei
    return .violations rtol atol a b err violations

/-- The left operand of a failed assertion. -/
inductive Left
  | arrayDiff (attrs : Option Attrs)
  | other

/-- array_cmp.py:78-81 `pytest_assertrepr_compare`. -/
def assertreprCompare (op : String) : Left → Py (Option Report)
  | .arrayDiff attrs => if op = "<" then some <$> report attrs else return none
  | .other => return none

end Ceacoest.ArrayCmp
