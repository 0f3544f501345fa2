import Verif.Model.SymSDE
import Verif.Model.Stats

/-!
# `ceacoest/modelling/gensde.py` on the discretised models of `ceacoest/modelling/symsde.py`

One state `x`; the points at which a density is evaluated form a batch.  The functions that sym2num generates for a
discretised model are taken to have the values of the symbolic functions.
-/

namespace Ceacoest.GenSDE
open Matrix Stats SymSDE

/-- The generated functions of a discretised model; `Q` is symsde.py:35-39 (`SymSDE.Q`), `m` is symsde.py:32 (`nw`, the
number of columns of `g`). -/
structure DtModel (nx m ny : Nat) where
  f : ℝ → (Fin nx → ℝ) → Fin nx → ℝ
  g : ℝ → (Fin nx → ℝ) → Matrix (Fin nx) (Fin m) ℝ
  h : ℝ → (Fin nx → ℝ) → Fin ny → ℝ
  R : Matrix (Fin ny) (Fin ny) ℝ

variable {nx nw ny m : Nat}

/-- symsde.py:51-69 `EulerDiscretizedSDEModel`. -/
noncomputable def euler (c : CtModel nx nw ny) (dt : ℝ) : DtModel nx nw ny where
  f := eulerF c dt
  g := eulerG c dt
  h := SymSDE.h c dt
  R := c.R

/-- symsde.py:72-130 `ItoTaylorAS15DiscretizedModel`. -/
noncomputable def ito (c : CtModel nx nw ny) (dt : ℝ) : DtModel nx (nw + nw) ny where
  f := itoF c dt
  g := itoG c dt
  h := SymSDE.h c dt
  R := c.R

/-- gensde.py:10-14 `trans_pdf`. -/
noncomputable def transPdf (d : DtModel nx m ny) (k : ℝ) (x : Fin nx → ℝ) (xnext : List (Fin nx → ℝ)) : Py (List ℝ) :=
  let f := d.f k x
  let Q := SymSDE.Q (d.g k x)
  pdf false (xnext.map fun z => ⟨z, f, fun _ => false⟩) Q

/-- gensde.py:16-27 `trans_rvs`; `rnd` is the value of `np.random.randn(nw)`. -/
noncomputable def transRvs (d : DtModel nx m ny) (k : ℝ) (x : Fin nx → ℝ) (rnd : Fin m → ℝ) (w : Option (Fin m → ℝ)) : Py (Fin nx → ℝ) :=
  let f := d.f k x
  let g := d.g k x
  SymSDE.transRvs f g rnd w

/-- gensde.py:31-35 `meas_pdf`; `masked` tells whether `y` is a `MaskedArray`, a row of the batch is `(y, mask)`. -/
noncomputable def measPdf (d : DtModel nx m ny) (k : ℝ) (x : Fin nx → ℝ) (masked : Bool) (y : List ((Fin ny → ℝ) × (Fin ny → Bool))) :
    Py (List ℝ) :=
  let h := d.h k x
  let R := d.R
  pdf masked (y.map fun r => ⟨r.1, h, r.2⟩) R

/-- An integer or a tuple of integers. -/
inductive IntOrTuple
  | int (n : Nat)
  | tuple (l : List Nat)

/-- `v[i]`: an integer cannot be subscripted, TypeError. -/
def IntOrTuple.getitem (v : IntOrTuple) (i : Int) : Py Nat :=
  match v with
  | .int _ => .error .typeError
  | .tuple l => do
    let j ← pyIndex l.length i
    return l.getD j 0

/-- `a.size`: the number of elements, an integer (and not `a.shape`). -/
def size {n : Nat} (_ : Matrix (Fin n) (Fin n) ℝ) : IntOrTuple := .int (n * n)

/-- stats.py:34-38 `multivariate_normal_rvs`, given the result `u, s` of `np.linalg.svd(cov)`; `rnd` stands for the
numbers drawn. -/
noncomputable def multivariateNormalRvs {n : Nat} (mean : Fin n → ℝ) (u : Matrix (Fin n) (Fin n) ℝ) (s : Fin n → ℝ)
    (rnd : Nat → Fin n → ℝ) : Py (Fin n → ℝ) := do
  let std := svdSqrt u s
  let nw ← (size std).getitem (-1)
  let w := rnd nw
  return mean + std *ᵥ w

end Ceacoest.GenSDE
