import Mathlib.Analysis.SpecialFunctions.Pow.Real
import Mathlib.Data.Matrix.Mul
import Verif.NumPy.Basic

/-!
# `ceacoest/modelling/symsde.py`

The symbolic expressions are evaluated at real numbers. The continuous-time model is given by the values of its
functions; `df_dx` and `d2f_dx2` carry the indices of the differentiation variables first, as sym2num generates them.
-/

namespace Ceacoest.SymSDE

open Matrix

/-- The functions of the continuous-time model that the discretisations call. -/
structure CtModel (nx nw ny : Nat) where
  f : ℝ → (Fin nx → ℝ) → Fin nx → ℝ
  g : ℝ → (Fin nx → ℝ) → Matrix (Fin nx) (Fin nw) ℝ
  h : ℝ → (Fin nx → ℝ) → Fin ny → ℝ
  R : Matrix (Fin ny) (Fin ny) ℝ
  /-- symsde.py:82-83 -/
  df_dt : ℝ → (Fin nx → ℝ) → Fin nx → ℝ
  /-- symsde.py:84-85; `df_dx t x p i` is the derivative of output `i` by input `p`. -/
  df_dx : ℝ → (Fin nx → ℝ) → Matrix (Fin nx) (Fin nx) ℝ
  /-- symsde.py:86-87; `d2f_dx2 t x p q i` is the derivative of `df_dx t x q i` by input `p`. -/
  d2f_dx2 : ℝ → (Fin nx → ℝ) → Fin nx → Fin nx → Fin nx → ℝ

variable {nx nw ny : Nat}

/-- symsde.py:35-39 `Q`, for the noise gain `g` of the discretised model. -/
def Q {m : Nat} (g : Matrix (Fin nx) (Fin m) ℝ) : Matrix (Fin nx) (Fin nx) ℝ := g * gᵀ

/-- symsde.py:41-44 `h`. -/
def h (c : CtModel nx nw ny) (dt k : ℝ) (x : Fin nx → ℝ) : Fin ny → ℝ :=
  let t := k * dt
  c.h t x

/-- symsde.py:57-62 `EulerDiscretizedSDEModel.f`. -/
def eulerF (c : CtModel nx nw ny) (dt k : ℝ) (x : Fin nx → ℝ) : Fin nx → ℝ :=
  let t := dt * k
  let f := c.f t x
  fun i => f i * dt + x i

/-- symsde.py:64-69 `EulerDiscretizedSDEModel.g`. -/
noncomputable def eulerG (c : CtModel nx nw ny) (dt k : ℝ) (x : Fin nx → ℝ) : Matrix (Fin nx) (Fin nw) ℝ :=
  let t := dt * k
  let g := c.g t x
  of fun i j => g i j * Real.sqrt dt

/-- `np.ndindex(nx, nw, nx, nx)` in row-major order. -/
def ndindex4 (nx nw : Nat) : List (Fin nx × Fin nw × Fin nx × Fin nx) :=
  (List.finRange nx).flatMap fun i => (List.finRange nw).flatMap fun j =>
    (List.finRange nx).flatMap fun p => (List.finRange nx).map fun q => (i, j, p, q)

/-- symsde.py:105, the loop body `L0f[i] += 0.5 * g[p, j] * g[q, j] * d2f_dx2[p, q, i]`. -/
noncomputable def l0fStep (g : Matrix (Fin nx) (Fin nw) ℝ) (d2f_dx2 : Fin nx → Fin nx → Fin nx → ℝ) (L0f : Fin nx → ℝ)
    (a : Fin nx × Fin nw × Fin nx × Fin nx) : Fin nx → ℝ :=
  Function.update L0f a.1 (L0f a.1 + 1 / 2 * g a.2.2.1 a.2.1 * g a.2.2.2 a.2.1 * d2f_dx2 a.2.2.1 a.2.2.2 a.1)

/-- symsde.py:89-109 `ItoTaylorAS15DiscretizedModel.f`. -/
noncomputable def itoF (c : CtModel nx nw ny) (dt k : ℝ) (x : Fin nx → ℝ) : Fin nx → ℝ :=
  let t := dt * k
  let f := c.f t x
  let g := c.g t x
  let df_dt := c.df_dt t x
  let df_dx := c.df_dx t x
  let d2f_dx2 := c.d2f_dx2 t x
  let L0f := df_dt + df_dxᵀ *ᵥ f
  let L0f := (ndindex4 nx nw).foldl (l0fStep g d2f_dx2) L0f
  fun i => f i * dt + 1 / 2 * L0f i * dt ^ 2 + x i

/-- symsde.py:111-130 `ItoTaylorAS15DiscretizedModel.g`; `np.hstack` appends the columns. -/
noncomputable def itoG (c : CtModel nx nw ny) (dt k : ℝ) (x : Fin nx → ℝ) : Matrix (Fin nx) (Fin (nw + nw)) ℝ :=
  let t := dt * k
  let g := c.g t x
  let df_dx := c.df_dx t x
  let Lf := df_dxᵀ * g
  let blk1 := fun i j => g i j * dt ^ (1 / 2 : ℝ) + 1 / 2 * Lf i j * dt ^ (3 / 2 : ℝ)
  let blk2 := fun i j => 1 / 2 * Lf i j * dt ^ (3 / 2 : ℝ) / Real.sqrt 3
  of fun i => Fin.append (blk1 i) (blk2 i)

/-! ## `ceacoest/modelling/gensde.py` -/

/-- gensde.py:16-27 `trans_rvs` with one state (`f.shape = (nx,)`). `rnd` stands for `np.random.randn(nw)`. When the
noise is passed by the caller, the assertion indexes a tuple with `[:, -1]`, which raises TypeError. -/
noncomputable def transRvs {m : Nat} (f : Fin nx → ℝ) (g : Matrix (Fin nx) (Fin m) ℝ) (rnd : Fin m → ℝ) (w : Option (Fin m → ℝ)) :
    Py (Fin nx → ℝ) := do
  let w ← match w with
    | none => pure rnd
    | some _ => throw .typeError
  let gw := g *ᵥ w
  return f + gw

end Ceacoest.SymSDE
