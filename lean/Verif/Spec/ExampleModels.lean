import Verif.Model.ExampleModels
import Verif.Spec.Transcription
import Verif.Spec.SymExpr

/-! # Specification: the functions of further examples on numbers, and where they are defined -/

namespace Ceacoest.Spec
open Ex

/-- The arguments for which the functions of an optimal control problem are defined. -/
structure OCRegion where
  f : List ℝ → List ℝ → List ℝ → Prop
  g : List ℝ → List ℝ → List ℝ → Prop
  h : List ℝ → Prop

/-- The vector of the entries of a list. -/
def vec (n : Nat) (l : List ℝ) : Fin n → ℝ := fun i => l.getD i 0

/-- The final state among the two end states. -/
def final (n : Nat) (xe : List ℝ) : Fin n → ℝ := fun i => xe.getD (n + i) 0

/-- circular_orbit.py -/
noncomputable def orbitFunctions (c : OrbitConsts) : OCFunctions where
  f x u p := List.ofFn (orbitF c (vec 5 x) (vec 3 u) (p.getD 0 0))
  L _ u p := orbitL c (vec 3 u) (p.getD 0 0)
  M _ _ := 0
  g _ u _ := [orbitG (vec 3 u)]
  h xe _ := List.ofFn (orbitH c (final 5 xe))

/-- circular_orbit_min_time.py -/
noncomputable def orbitMinTimeFunctions (c : OrbitConsts) : OCFunctions where
  f x u p := List.ofFn (orbitF c (vec 5 x) (vec 3 u) (p.getD 0 0))
  L _ _ _ := 0
  M _ p := p.getD 0 0
  g _ u _ := [orbitG (vec 3 u)]
  h xe _ := List.ofFn (orbitMinTimeH c (final 5 xe))

/-- Not at the centre of attraction, mass not zero; final speed not zero. -/
def orbitRegion : OCRegion where
  f x _ _ := 0 < x.getD 0 0 ^ 2 + x.getD 1 0 ^ 2 ∧ x.getD 4 0 ≠ 0
  g _ _ _ := True
  h xe := 0 < xe.getD 7 0 ^ 2 + xe.getD 8 0 ^ 2

/-- free_flying_robot.py -/
noncomputable def robotFunctions : OCFunctions where
  f x u _ := List.ofFn (robotF (vec 6 x) (vec 4 u))
  L _ u _ := robotL (vec 4 u)
  M _ _ := 0
  g _ u _ := List.ofFn (robotG (vec 4 u))
  h _ _ := []

/-- hang_glider.py; the final distance is maximised by a negative scale of the objective. -/
noncomputable def gliderFunctions (c : GliderConsts) : OCFunctions where
  f x u p := List.ofFn ((gliderF c (vec 4 x) (u.getD 0 0) (p.getD 0 0)).getD 0)
  L _ _ _ := 0
  M xe _ := final 4 xe 0
  g x _ _ := [gliderG (vec 4 x)]
  h _ _ := []

/-- The radicand of hang_glider.py:37 is positive. -/
def gliderRegion (c : GliderConsts) : OCRegion where
  f x _ _ := 0 < x.getD 2 0 ^ 2 + (x.getD 3 0 - gliderUa c (x.getD 0 0))
  g _ _ _ := True
  h _ := True

/-- shuttle_reentry.py; the final latitude is maximised by a negative scale of the objective. -/
noncomputable def shuttleFunctions (c : ShuttleConsts) (k : ExModels.HeatConsts) : OCFunctions where
  f x u p := List.ofFn (shuttleF c (vec 6 x) (vec 2 u) (p.getD 0 0))
  L _ _ _ := 0
  M xe _ := final 6 xe 2
  g x u _ := [shuttleG c k (x.getD 0 0) (x.getD 3 0) (u.getD 0 0)]
  h _ _ := []

/-- Away from the centre of the earth and the poles, moving, not vertically. -/
def shuttleRegion (c : ShuttleConsts) : OCRegion where
  f x _ _ := c.Re + x.getD 0 0 ≠ 0 ∧ Real.cos (x.getD 2 0) ≠ 0 ∧ 0 < x.getD 3 0 ∧ Real.cos (x.getD 4 0) ≠ 0
  g x _ _ := 0 < x.getD 3 0
  h _ := True

/-- All functions are defined where the problem evaluates them. -/
structure OCRegion.Holds (D : OCRegion) (P N nx nu np : Nat) (d : List ℝ) : Prop where
  f : ∀ r ≤ P * N, D.f (ocX nx d r) (ocU P N nx nu d r) (ocP P N nx nu np d)
  g : ∀ r ≤ P * N, D.g (ocX nx d r) (ocU P N nx nu d r) (ocP P N nx nu np d)
  h : D.h (ocX nx d 0 ++ ocX nx d (P * N))

/-- The bounds of examples/circular_orbit.py:98-117 on decision vectors for `P` pieces: the states at the `P + 1` points, then the controls, then `tf`. -/
structure OrbitBounds (P : Nat) (d : List ℝ) : Prop where
  tf : 0 ≤ d.getD ((P + 1) * 8) 0 ∧ d.getD ((P + 1) * 8) 0 ≤ 13
  m : ∀ r ≤ P, 0 ≤ d.getD (r * 5 + 4) 0
  T : ∀ r ≤ P, 0 ≤ d.getD ((P + 1) * 5 + r * 3) 0 ∧ d.getD ((P + 1) * 5 + r * 3) 0 ≤ 1
  Txn : ∀ r ≤ P, -1.5 ≤ d.getD ((P + 1) * 5 + (r * 3 + 1)) 0 ∧ d.getD ((P + 1) * 5 + (r * 3 + 1)) 0 ≤ 1.5
  Tyn : ∀ r ≤ P, -1.5 ≤ d.getD ((P + 1) * 5 + (r * 3 + 2)) 0 ∧ d.getD ((P + 1) * 5 + (r * 3 + 2)) 0 ≤ 1.5
  initial : d.getD 0 0 = 1 ∧ d.getD 1 0 = 0 ∧ d.getD 2 0 = 0 ∧ d.getD 3 0 = 1 ∧ d.getD 4 0 = 1

/-- Some of the bounds of examples/shuttle_reentry.py:127-139, for `P` pieces of two intervals: height, speed, latitude and flight path angle, with `d2r` radians
in a degree. -/
structure ShuttleBounds (d2r : ℝ) (P : Nat) (d : List ℝ) : Prop where
  h : ∀ r ≤ P * 2, 0 ≤ d.getD (r * 6) 0
  theta : ∀ r ≤ P * 2, 0 * d2r ≤ d.getD (r * 6 + 2) 0 ∧ d.getD (r * 6 + 2) 0 ≤ 89 * d2r
  v : ∀ r ≤ P * 2, 100 ≤ d.getD (r * 6 + 3) 0
  gamma : ∀ r ≤ P * 2, -89 * d2r ≤ d.getD (r * 6 + 4) 0 ∧ d.getD (r * 6 + 4) 0 ≤ 89 * d2r

end Ceacoest.Spec
