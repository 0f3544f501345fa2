import Mathlib.Algebra.Field.Basic
import Mathlib.Algebra.Polynomial.Derivative
import Mathlib.Algebra.Polynomial.Roots
import Mathlib.Data.Multiset.Sort
import Mathlib.Data.Real.Basic
import Verif.NumPy.Basic

/-!
# `ceacoest/rk.py`

`numpy.polynomial.Polynomial` objects are the lists of their coefficients, lowest degree first (the default domain
equals the default window, so no change of variable takes place). Arithmetic is exact.
-/

namespace Ceacoest.RK

variable {F : Type} [Field F] [DecidableEq F]

/-! ### The part of `numpy.polynomial` in use -/

/-- `polyval(x, c)`: Horner's rule. -/
def polyval (c : List F) (x : F) : F := c.foldr (fun a acc => a + acc * x) 0

/-- `polymul(c, [-r, 1])`. -/
def mulLin (c : List F) (r : F) : List F := List.zipWith (· - ·) (0 :: c) (c.map (r * ·) ++ [0])

/-- `Polynomial.fromroots`: ValueError for an empty array. NumPy multiplies the linear factors in a balanced tree. -/
def fromroots (roots : List F) : Py (List F) :=
  if roots = [] then .error .valueError else .ok (roots.foldl mulLin [1])

/-- `Polynomial.__truediv__` by a number: ZeroDivisionError for zero. -/
def divScalar (c : List F) (s : F) : Py (List F) :=
  if s = 0 then .error .zeroDivisionError else .ok (c.map (· / s))

/-- `c / [1, 2, 3, ...]`, the integration of the coefficients starting at degree `k`. -/
def integCoef : List F → Nat → List F
  | [], _ => []
  | a :: c, k => a / ((k : F) + 1) :: integCoef c (k + 1)

/-- `Polynomial.integ(m=1, lbnd=lbnd)`: the antiderivative that vanishes at `lbnd`. -/
def integ1 (lbnd : F) (c : List F) : List F :=
  let tail := integCoef c 0
  (0 - polyval (0 :: tail) lbnd) :: tail

/-- `Polynomial.integ(m=m, lbnd=lbnd)`. -/
def integ (m : Nat) (lbnd : F) (c : List F) : List F := (integ1 lbnd)^[m] c

/-! ### Legendre polynomials -/

open Polynomial in
/-- Legendre polynomials by the three-term recurrence, the one that `legval` uses. -/
noncomputable def legendre : Nat → ℝ[X]
  | 0 => 1
  | 1 => X
  | n + 2 => C (1 / ((n : ℝ) + 2)) * (C (2 * (n : ℝ) + 3) * X * legendre (n + 1) - C ((n : ℝ) + 1) * legendre n)

open Polynomial in
/-- `polynomial.Legendre([0]*n + [1], [0, 1])` as a polynomial in `x`: the domain `[0, 1]` is mapped to `[-1, 1]`. -/
noncomputable def legendre01 (n : Nat) : ℝ[X] := (legendre n).comp (C 2 * X - 1)

open Polynomial in
/-- `.deriv().roots()`: the zeros in increasing order. -/
noncomputable def legDerivRoots (n : Nat) : List ℝ := (derivative (legendre01 n)).roots.sort (· ≤ ·)

/-! ### The module -/

/-- rk.py:12-35 `lgl_points`. -/
noncomputable def lglPoints (n : Int) : Py (List ℝ) :=
  if n < 2 then .error .valueError
  else .ok (0 :: legDerivRoots (n - 1).toNat ++ [1])

/-- rk.py:42 `np.r_[points[:i], points[i+1:]]`. -/
def others (points : List F) (i : Nat) : List F := points.take i ++ points.drop (i + 1)

/-- rk.py:42-43, one basis polynomial. -/
def basisPoly (points : List F) (point : F) (i : Nat) : Py (List F) := do
  let roots := others points i
  divScalar (← fromroots roots) ((roots.map (point - ·)).foldl (· * ·) 1)

/-- rk.py:38-45 `lagrange_basis`. -/
def lagrangeBasis (points : List F) : Py (List (List F)) :=
  points.zipIdx.mapM fun pi => basisPoly points pi.1 pi.2

/-- rk.py:48-51 `pdinteg` on one polynomial; `limits[0]` and `limits[-1]` raise IndexError on an empty list. -/
def pdinteg (c : List F) (limits : List F) (m : Nat) : Py F := do
  let lo ← match limits.head? with | some a => pure a | none => .error .indexError
  let hi ← match limits.getLast? with | some a => pure a | none => .error .indexError
  return polyval (integ m lo c) hi

/-- rk.py:52-53 `pdinteg` on an iterable of polynomials. -/
def pdintegs (p : List (List F)) (limits : List F) (m : Nat) : Py (List F) := p.mapM fun c => pdinteg c limits m

/-- rk.py:66-79, the attributes of `LGLCollocation` that are computed exactly. `JP` and `JT_range` come from LAPACK and are
described by their contracts where they are used. -/
structure Collocation (F : Type) where
  n : Nat
  points : List F
  ninterv : Nat
  J : List (List F)
  K : List F

/-- rk.py:61-79 `LGLCollocation.__init__`, for given points. `n` is the number of points. -/
def collocation (points : List F) : Py (Collocation F) := do
  let n := points.length
  let l ← lagrangeBasis points
  let intervInteg ← (List.range (n - 1)).mapM fun i => pdintegs l ((points.drop i).take 2) 1
  -- np.sum(interv_integ, axis=0)
  let K := intervInteg.foldl (List.zipWith (· + ·)) (List.replicate n 0)
  return ⟨n, points, n - 1, intervInteg, K⟩

/-- rk.py:61-85 `LGLCollocation(n)`. -/
noncomputable def lglCollocation (n : Int) : Py (Collocation ℝ) := do
  collocation (← lglPoints n)

/-- `np.diff` -/
def diff (t : List F) : List F := List.zipWith (fun a b => b - a) t t.tail

/-- rk.py:87-93 `grid`. -/
def grid (points : List F) (tPiece : List F) : Py (List F) := do
  -- ti, tf = t_piece[[0, -1]]
  let tf ← match tPiece.getLast? with | some a => pure a | none => .error .indexError
  let pieceLen := diff tPiece
  -- increments = piece_len[:, None] * self.points[:-1]
  let increments := pieceLen.map fun d => points.dropLast.map (d * ·)
  -- np.r_[np.ravel(t_piece[:-1, None] + increments), tf]
  return (List.zipWith (fun a row => row.map (a + ·)) tPiece.dropLast increments).flatten ++ [tf]

end Ceacoest.RK
