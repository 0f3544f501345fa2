import Verif.NumPy.Basic
import Mathlib.Data.Real.Basic

/-! # What a test of derivatives establishes (C93) -/

namespace Ceacoest.Spec

/-- The outcome of a test that compares the entries `a` (for the indices in `K`) with approximations of `D` whose errors are at
most `ε`, with the tolerance `tol` (absolute and relative).  The test either passes or raises AssertionError.  It passes if `a` is
close enough to `D`, and if it passes then `a` is close to `D`; between the two bounds is only twice the error of the approximation. -/
structure Verdict {ι : Type} (res : Py Unit) (K : ι → Prop) (a D ε : ι → ℝ) (tol : ℝ) : Prop where
  outcome : res = .ok () ∨ res = .error .assertionError
  pass : (∀ k, K k → |a k - D k| + (1 + tol) * ε k < tol * (1 + |D k|)) → res = .ok ()
  close : res = .ok () → ∀ k, K k → |a k - D k| < tol * (1 + |D k|) + (1 + tol) * ε k

end Ceacoest.Spec
