import Verif.Model.ExamplePem
import Verif.Model.ExampleSim
import Mathlib.Data.EReal.Basic

/-!
# The script of `examples/duffing_old.py`: simulate, estimate the parameters, smooth

The random numbers are arguments, as in `Model/ExampleSim`, and so is the solver: it is given the three callbacks and the start, and returns parameters or raises.
Simplifications: exact arithmetic; what the solver does with the bounds and the scaling of the objective is its own affair.
-/

namespace Ceacoest.Pem
open SymSDE Matrix Sim

variable {nx nw ny nq : Nat}

/-- `a // b` of Python floats: the quotient rounded down, as a float. -/
noncomputable def floorDiv (a b : ℝ) : Py ℝ := if b = 0 then .error .zeroDivisionError else .ok (⌊a / b⌋ : ℝ)

/-- duffing_old.py:148: all outputs of each row whose number is not a multiple of 4 are masked; the numbers stay where they are. -/
def maskOld (y : List (Fin ny → ℝ)) : List (MaskedRow (Fin ny)) := (List.range y.length).map fun j => ⟨y.getD j 0, fun _ => decide (j % 4 ≠ 0)⟩

/-- The results of `sim` that the script uses. -/
structure OldData (nx ny : Nat) where
  t : List ℝ
  x : List (Fin nx → ℝ)
  y : List (MaskedRow (Fin ny))

/-- duffing_old.py:116-149 `sim`. Before the loop `k` is the array of all sample numbers, so that for a single sample the output is at time 0. -/
noncomputable def simOld (S : SDE nx nw ny nq) (q : Fin nq → ℝ) (tf dt : ℝ) (x0 : Fin nx → ℝ) (w : Nat → Fin (nw + nw) → ℝ) (v : Nat → Fin ny → ℝ) : Py (OldData nx ny) := do
  let N := pyInt (← floorDiv tf dt)
  let t := times N dt
  let _ ← draws w (N - 1)
  let x := states (S.at q) dt x0 w N.toNat
  let v ← draws v N
  let k := if 2 ≤ N then N - 2 else 0
  let y ← addRows (x.map (SymSDE.h (S.at q) dt k)) v
  return ⟨t, x, maskOld y⟩

/-- `pack` of sym2num: the numbers of a dictionary in the order of the names; `fill` where there is none; other keys are ignored. -/
def pack {α : Type} (names : List String) (d : List (String × α)) (fill : α) : List α := names.map fun n => (d.lookup n).getD fill

/-- duffing_old.py:32-33 -/
def qNames : List String := ["alpha", "beta", "delta", "g2", "x_meas_std", "x0", "v0"]

/-- duffing_old.py:35 -/
def cNames : List String := ["gamma", "omega", "x0_std", "v0_std"]

/-- duffing_old.py:125-129 -/
noncomputable def given : List (String × ℝ) := [("alpha", 1), ("beta", -1), ("delta", 0.2), ("gamma", 0.3), ("omega", 1), ("g1", 0), ("g2", 0.1), ("x_meas_std", 0.1), ("x0", 1),
  ("v0", 0), ("x0_std", 0.1), ("v0_std", 0.1)]

/-- duffing_old.py:169-173 `q_bounds`. -/
noncomputable def qBounds : List EReal × List EReal :=
  let qLb : List (String × EReal) := [("g2", 0), ("x_meas_std", 0), ("x0_std", 0), ("v0_std", 0)]
  (pack qNames qLb ⊥, pack qNames [] ⊤)

/-- What the script leaves behind. -/
structure OldResults (nx ny nq : Nat) where
  data : OldData nx ny
  qopt : Fin nq → ℝ
  smoothed : List (Moments nx)

/-- duffing_old.py:152-189: `pem` and the script. -/
noncomputable def mainOld (solve : ((Fin nq → ℝ) → Py ℝ) → ((Fin nq → ℝ) → Py (Fin nq → ℝ)) → ((Fin nq → ℝ) → ℝ → Py (List ℝ)) → (Fin nq → ℝ) → Py (Fin nq → ℝ))
    (S : SDE nx nw ny nq) (q : Fin nq → ℝ) (tf dt : ℝ) (x0 : Fin nx → ℝ) (w : Nat → Fin (nw + nw) → ℝ) (v : Nat → Fin ny → ℝ) : Py (OldResults nx ny nq) := do
  let d ← simOld S q tf dt x0 w v
  let qopt ← solve (merit S dt d.y) (grad S dt d.y) (hess S dt d.y) q
  let ut ← UT.init nx .cholesky 0
  let (sm, _) ← (UKF.cls ut ut (ito S dt qopt)).smooth d.y ⟨start S qopt, none, .never⟩
  return ⟨d, qopt, sm⟩

end Ceacoest.Pem
