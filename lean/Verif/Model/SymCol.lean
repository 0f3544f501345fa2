import Mathlib.Data.Matrix.Mul
import Mathlib.LinearAlgebra.Matrix.Trace
import Verif.Model.RK

/-!
# `ceacoest/modelling/symcol.py`, `symjme.py`: collocation defects, penalty and tube log-density

The symbolic expressions are evaluated at real numbers, for one piece (the generated functions are vectorised over the pieces).
A piece has `m + 1` points and `m` intervals.
-/

namespace Ceacoest

open Matrix

/-- The attribute `J` of a collocation object as a matrix. -/
def RK.Collocation.Jm (col : RK.Collocation ℝ) (m : Nat) : Matrix (Fin m) (Fin (m + 1)) ℝ :=
  of fun k i => (col.J.getD k []).getD i 0

/-- The attribute `K` of a collocation object as a vector. -/
def RK.Collocation.Kv (col : RK.Collocation ℝ) (m : Nat) : Fin (m + 1) → ℝ := fun i => col.K.getD i 0

variable {m nx nu np nw r : Nat}

/-- The user's model function `f(x, u, p)`. -/
abbrev VField (nx nu np : Nat) := (Fin nx → ℝ) → (Fin nu → ℝ) → (Fin np → ℝ) → Fin nx → ℝ

/-- symcol.py:77 (and symjme.py:52): `fp = np.array([self.f(xp[i], up[i], p) for i in range(ncol)])`. -/
def fpMat (f : VField nx nu np) (xp : Matrix (Fin (m + 1)) (Fin nx) ℝ) (up : Matrix (Fin (m + 1)) (Fin nu) ℝ) (p : Fin np → ℝ) :
    Matrix (Fin (m + 1)) (Fin nx) ℝ := of fun i => f (xp i) (up i) p

namespace SymCol

/-- symcol.py:74-81 `Model.e`. -/
def e (J : Matrix (Fin m) (Fin (m + 1)) ℝ) (f : VField nx nu np) (xp : Matrix (Fin (m + 1)) (Fin nx) ℝ)
    (up : Matrix (Fin (m + 1)) (Fin nu) ℝ) (p : Fin np → ℝ) (pieceLen : ℝ) : Matrix (Fin m) (Fin nx) ℝ :=
  let fp := fpMat f xp up p
  of fun k j => xp k.succ j - xp k.castSucc j - (J * fp) k j * pieceLen

end SymCol

namespace SymJme

/-- symjme.py:47-56 `Model.e`; `JTRange` is `collocation.JT_range`. -/
def e (J : Matrix (Fin m) (Fin (m + 1)) ℝ) (JTRange : Matrix (Fin (m + 1)) (Fin r) ℝ) (f : VField nx nu np)
    (xp : Matrix (Fin (m + 1)) (Fin nx) ℝ) (up : Matrix (Fin (m + 1)) (Fin nu) ℝ) (p : Fin np → ℝ) (pieceLen : ℝ)
    (wc : Matrix (Fin r) (Fin nw) ℝ) (G : Matrix (Fin nx) (Fin nw) ℝ) : Matrix (Fin m) (Fin nx) ℝ :=
  let fp := fpMat f xp up p
  let wp := JTRange * wc
  of fun k j => xp k.succ j - xp k.castSucc j - (J * (fp + wp * Gᵀ)) k j * pieceLen

/-- symjme.py:58-61 `Model.penalty`, given the defects `e`. -/
def penalty (e : Matrix (Fin m) (Fin nx) ℝ) (penweight : Fin nx → ℝ) : ℝ :=
  ∑ k, ((of fun k j => -(e k j ^ 2)) *ᵥ penweight) k

/-- The positions selected by `A[-nw:]` on an axis of length `nx`; with `nw = 0` the slice is `A[0:]`. -/
def tailFrom (nx nw : Nat) : Nat := if nw = 0 then 0 else nx - nw

/-- symjme.py:71-72 `np.trace(A[-nw:, -nw:])`. -/
def tailTrace (nw : Nat) (A : Matrix (Fin nx) (Fin nx) ℝ) : ℝ := ∑ j, if tailFrom nx nw ≤ j.1 then A j j else 0

/-- symjme.py:63-79 `Model.tube_L`; `dfdx` is the model's Jacobian, `useOm` the class attribute. -/
noncomputable def tubeL (K : Fin (m + 1) → ℝ) (JTRange : Matrix (Fin (m + 1)) (Fin r) ℝ) (useOm : Bool)
    (dfdx : (Fin nx → ℝ) → (Fin nu → ℝ) → (Fin np → ℝ) → Matrix (Fin nx) (Fin nx) ℝ) (xp : Matrix (Fin (m + 1)) (Fin nx) ℝ)
    (up : Matrix (Fin (m + 1)) (Fin nu) ℝ) (p : Fin np → ℝ) (pieceLen : ℝ) (wc : Matrix (Fin r) (Fin nw) ℝ) : ℝ :=
  let wp := JTRange * wc
  let driftDivP : Fin (m + 1) → ℝ := if useOm then fun i => tailTrace nw (dfdx (xp i) (up i) p) else 0
  ((-(1 / 2) : ℝ) • (driftDivP + fun i => ∑ j, wp i j ^ 2)) ⬝ᵥ K * pieceLen

end SymJme
end Ceacoest
