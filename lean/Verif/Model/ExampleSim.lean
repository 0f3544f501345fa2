import Verif.Model.SymSDE
import Verif.Model.ExamplePhysics
import Mathlib.Algebra.Order.Floor.Ring
import Mathlib.Data.Real.Archimedean

/-!
# The simulations of the Duffing examples, and what their scripts make of the data

Random numbers are arguments: `x0` for the state that `multivariate_normal.rvs` draws, `w` for the numbers of `randn`, `v` for the draws of
`multivariate_normal`.  The results of the library functions that are not modelled, the Butterworth filter of scipy, are an argument too.
-/

namespace Ceacoest.Sim
open SymSDE Matrix
variable {nx nw ny : Nat}

/-- duffing.py:24-68 `SymbolicDuffing`, duffing_jme.py:23-67 `SymbolicDuffingSim`: states `x v`, with the derivatives that symsde.py:82-87 adds. -/
noncomputable def duffing (gamma omega alpha beta delta g2 std : ℝ) : CtModel 2 1 1 where
  f := Ex.duffingF gamma omega alpha beta delta
  g _ _ := !![0; g2]
  h _ x := ![x 0]
  R := !![std ^ 2]
  df_dt t _ := ![0, gamma * (omega * Real.cos (t * omega))]
  df_dx _ x := !![0, -beta - alpha * (3 * x 0 ^ 2); 1, -delta]
  d2f_dx2 _ x p q i := if p = 0 ∧ q = 0 ∧ i = 1 then -(alpha * (6 * x 0)) else 0

/-- `a / b` of Python numbers. -/
noncomputable def pyDiv (a b : ℝ) : Py ℝ := if b = 0 then .error .zeroDivisionError else .ok (a / b)

/-- `int(x)` of a number: towards zero. -/
noncomputable def pyInt (x : ℝ) : ℤ := if 0 ≤ x then ⌊x⌋ else ⌈x⌉

/-- `xs[::step]`; negative steps go backwards. -/
def every {α : Type} (step : ℤ) (xs : List α) : Py (List α) :=
  if step = 0 then .error .valueError
  else
    let xs := if 0 < step then xs else xs.reverse
    .ok ((sliceIdx xs.length none none step.natAbs).filterMap (xs[·]?))

/-- The sum of two arrays of rows: as many rows in both, or one row in one of them. -/
def addRows (a b : List (Fin ny → ℝ)) : Py (List (Fin ny → ℝ)) :=
  if a.length = b.length then .ok (List.zipWith (· + ·) a b)
  else match a, b with
    | [r], b => .ok (b.map (r + ·))
    | a, [r] => .ok (a.map (· + r))
    | _, _ => .error .valueError

/-- duffing.py:96-97, duffing_jme.py:112-113: `Nsim`. -/
noncomputable def count (tf dt : ℝ) : Py ℤ := do return pyInt (← pyDiv tf dt) + 1

/-- `np.arange(N) * dt` -/
noncomputable def times (N : ℤ) (dt : ℝ) : List ℝ := (List.range N.toNat).map fun k : Nat => (k : ℝ) * dt

/-- duffing.py:101-106, duffing_jme.py:117-122: `xsim`, with zeros until they are assigned. -/
noncomputable def states (c : CtModel nx nw ny) (dt : ℝ) (x0 : Fin nx → ℝ) (w : Nat → Fin (nw + nw) → ℝ) (N : Nat) : List (Fin nx → ℝ) :=
  (List.range (N - 1)).foldl (fun xsim k => xsim.set (k + 1) (itoF c dt k (xsim.getD k 0) + itoG c dt k (xsim.getD k 0) *ᵥ w k))
    ((List.replicate N 0).set 0 x0)

/-- The variable `k` after the loop `for k in ksim[:-1]`: unbound if there was nothing to loop over. -/
def lastK (N : ℤ) : Py ℤ := if N - 1 ≤ 0 then .error .nameError else .ok (N - 2)

/-- `n` rows of random numbers. -/
def draws {α : Type} (v : Nat → α) (n : ℤ) : Py (List α) := if n < 0 then .error .valueError else .ok ((List.range n.toNat).map v)

/-- The results of `sim`. -/
structure Data (nx ny : Nat) where
  tsim : List ℝ
  xsim : List (Fin nx → ℝ)
  test : List ℝ
  y : List (Fin ny → ℝ)

/-- duffing.py:86-116 `sim`.  `dtSim` and `dtEst` are attributes of the model; `dt` is set to `dtSim` and stays so.  Simplification: `x0` and
`Px0`, which are returned too, are left out. -/
noncomputable def sim (c : CtModel nx nw ny) (tf dtSim dtEst : ℝ) (x0 : Fin nx → ℝ) (w : Nat → Fin (nw + nw) → ℝ) (v : Nat → Fin ny → ℝ) :
    Py (Data nx ny) := do
  let Nsim ← count tf dtSim
  let tsim := times Nsim dtSim
  let _ ← draws w (Nsim - 1)
  let xsim := states c dtSim x0 w Nsim.toNat
  let Nest ← count tf dtEst
  let inc := pyInt (← pyDiv dtEst dtSim)
  let v ← draws v Nest
  let k ← lastK Nsim
  let y ← addRows ((← every inc xsim).map (SymSDE.h c dtSim k)) v
  return ⟨tsim, xsim, times Nest dtEst, y⟩

/-- duffing_jme.py:102-128 `sim`: `tsim`, `xsim`, `ysim`. -/
noncomputable def simJME (c : CtModel nx nw ny) (tf dtSim : ℝ) (x0 : Fin nx → ℝ) (w : Nat → Fin (nw + nw) → ℝ) (v : Nat → Fin ny → ℝ) :
    Py (List ℝ × List (Fin nx → ℝ) × List (Fin ny → ℝ)) := do
  let Nsim ← count tf dtSim
  let tsim := times Nsim dtSim
  let _ ← draws w (Nsim - 1)
  let xsim := states c dtSim x0 w Nsim.toNat
  let v ← draws v Nsim
  let k ← lastK Nsim
  let y ← addRows (xsim.map (SymSDE.h c dtSim k)) v
  return (tsim, xsim, y)

/-- duffing_jme.py:131-136 `cdiff`; `mem` is what `np.empty_like` finds in memory.  `xd[1:-1]` has as many entries as `x[2:] - x[:-2]`. -/
noncomputable def cdiff (mem : Nat → ℝ) (x : List ℝ) (T : ℝ) : Py (List ℝ) := do
  let n := x.length
  let xd := (List.range n).map fun i => if 1 ≤ i ∧ i + 1 < n then 0.5 / T * (x.getD (i + 1) 0 - x.getD (i - 1) 0) else mem i
  let xd := xd.set (← pyIndex n 0) (xd.getD (← pyIndex n 1) 0)
  return xd.set (← pyIndex n (-1)) (xd.getD (← pyIndex n (-2)) 0)

/-- duffing_jme.py:155-157: `mask`, all but each third one. -/
def mask (n : Nat) : List Bool := (sliceIdx n none none 3).foldl (fun m i => m.set i false) (List.replicate n true)

/-- `a[~mask]`, and `a.compressed()`. -/
def compress {α : Type} (mask : List Bool) (a : List α) : List α := ((a.zip mask).filter fun p => !p.2).map Prod.fst

/-- `scipy.interpolate.interp1d(xs, ys)(q)`, linear, for increasing `xs`: ValueError outside of their range.  Simplification: a single point,
of which the scripts have none to interpolate, is an error too. -/
noncomputable def interp1d (xs ys : List ℝ) (q : ℝ) : Py ℝ :=
  if h : 2 ≤ xs.length ∧ xs.length = ys.length then
    if q < xs[0] ∨ xs[xs.length - 1] < q then .error .valueError
    else
      let hi := min (max (xs.countP (decide <| · < q)) 1) (xs.length - 1)
      let lo := hi - 1
      .ok ((ys.getD hi 0 - ys.getD lo 0) / (xs.getD hi 0 - xs.getD lo 0) * (q - xs.getD lo 0) + ys.getD lo 0)
  else .error .valueError

/-- What the script of duffing_jme.py makes of the data. -/
structure Prepared where
  t : List ℝ
  y : List ℝ
  mask : List Bool
  tf : List ℝ
  yf0 : List ℝ
  yf1 : List ℝ

/-- duffing_jme.py:152-163; `lpf` is the filter `signal.sosfiltfilt`, which fails for
short arguments. -/
noncomputable def prepare (mem : Nat → ℝ) (lpf : List ℝ → Py (List ℝ)) (tsim : List ℝ) (ysim : List (Fin 1 → ℝ)) : Py Prepared := do
  let y := (← every 5 ysim).map fun r => r 0
  let t ← every 5 tsim
  let m := mask t.length
  let tf := compress m t
  let yf0 ← lpf (compress m y)
  let yf1 ← cdiff mem yf0 (tf.getD 1 0 - tf.getD 0 0)
  return ⟨t, y, m, tf, yf0, yf1⟩

/-- duffing_jme.py:176-177: the two columns of the guess of the states at the times `tc`. -/
noncomputable def guessX (d : Prepared) (tc : List ℝ) : Py (List ℝ × List ℝ) := do
  let x1 ← tc.mapM (interp1d d.tf d.yf0)
  let x2 ← tc.mapM (interp1d d.tf d.yf1)
  return (x1, x2)

end Ceacoest.Sim
