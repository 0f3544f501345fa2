import Verif.Model.ExampleSim
import Verif.Model.Kalman
import Mathlib.LinearAlgebra.Matrix.Notation

/-!
# The script of `examples/duffing.py`: the Duffing oscillator simulated, filtered and smoothed

The random numbers are arguments, as in `Model/ExampleSim`. Simplification: exact arithmetic; the compilation of the generated class is not modelled, only its functions.
-/

namespace Ceacoest.Sim
open SymSDE Matrix

/-- duffing.py:79, the derivative `df_dx` of the state transition function of the discretised model; the first index is that of the state by which is differentiated. -/
noncomputable def duffingDfdx (alpha beta delta dt : ℝ) (x : Fin 2 → ℝ) : Matrix (Fin 2) (Fin 2) ℝ :=
  let a := -beta - alpha * (3 * x 0 ^ 2)
  !![1 + dt ^ 2 / 2 * a, dt * a + dt ^ 2 / 2 * (-(alpha * (6 * x 0)) * x 1 - delta * a);
     dt - dt ^ 2 / 2 * delta, 1 - dt * delta + dt ^ 2 / 2 * (a + delta ^ 2)]

/-- duffing.py:71-83 `SymbolicDiscretizedDuffing`: the functions of the generated class. The other functions of a model are not generated; those of `rest` stand for them. -/
noncomputable def duffingK {p : Type} (gamma omega alpha beta delta g2 std dt : ℝ) (rest : KModel 2 (Fin 1) p) : KModel 2 (Fin 1) p :=
  let c := duffing gamma omega alpha beta delta g2 std
  { rest with
    f := fun k x => itoF c dt k x
    h := fun k x => SymSDE.h c dt k x
    Q := fun k x => Q (itoG c dt k x)
    R := c.R
    df_dx := fun _ x => duffingDfdx alpha beta delta dt x
    dh_dx := fun _ _ => !![1; 0] }

/-- base.py:18-64 for `nq = 0`: a filter that starts with the mean `x0` and the covariance `Px0` at sample 0. -/
def startAttrs (x0 : Fin 2 → ℝ) (Px0 : Matrix (Fin 2) (Fin 2) ℝ) : FilterAttrs 2 (Fin 0) := ⟨x0, Px0, 0, 0, 0, 0, 0, 0, 0, 0⟩

/-- What the script leaves behind: filtered and smoothed moments of both filters. -/
structure Estimates where
  ef : List (Moments 2)
  es : List (Moments 2)
  uf : List (Moments 2)
  us : List (Moments 2)

/-- duffing.py:119-144: the simulation with the steps `dtSim`, `dtEst` until `tf`, then four filters of the same data, at steps `dtEst`. `rest` stands for the functions that are not
generated. The state `x0` and the covariance `Px0` of the start are those of lines 90-91. -/
noncomputable def duffingMain (gamma omega alpha beta delta g2 std tf dtSim dtEst : ℝ) (rest : KModel 2 (Fin 1) (Fin 0)) (x0 : Fin 2 → ℝ) (Px0 : Matrix (Fin 2) (Fin 2) ℝ)
    (xdraw : Fin 2 → ℝ) (w : Nat → Fin (1 + 1) → ℝ) (v : Nat → Fin 1 → ℝ) : Py (Data 2 1 × Estimates) := do
  let d ← sim (duffing gamma omega alpha beta delta g2 std) tf dtSim dtEst xdraw w v
  let model := duffingK gamma omega alpha beta delta g2 std dtEst rest
  let y : List (MaskedRow (Fin 1)) := d.y.map fun r => ⟨r, fun _ => false⟩
  let (ef, _) ← (EKF.cls model).filter y ⟨startAttrs x0 Px0, none, .never⟩
  let (es, _) ← (EKF.cls model).smooth y ⟨startAttrs x0 Px0, none, .never⟩
  let ut ← UT.init 2 .cholesky 0
  let (uf, _) ← (UKF.cls ut ut model).filter y ⟨startAttrs x0 Px0, none, .never⟩
  let (us, _) ← (UKF.cls ut ut model).smooth y ⟨startAttrs x0 Px0, none, .never⟩
  return (d, ⟨ef, es, uf, us⟩)

end Ceacoest.Sim
