import Verif.Spec.SymContract
import Mathlib.Analysis.SpecialFunctions.ExpDeriv
import Mathlib.Analysis.SpecialFunctions.Trigonometric.Deriv
import Mathlib.Analysis.SpecialFunctions.Log.Deriv

/-!
# A language of symbolic expressions

Constants, variables, sums, products, reciprocals, `sin`, `cos`, `exp` and `log`, differentiated by the rules of calculus.
C66 assumes a contract of sympy and sym2num; this language meets it (Props/SymExpr.lean), so the contract can be met by more than
isolated examples.  Nothing here is a model of sympy's own code.
-/

namespace Ceacoest.Spec

/-- Expressions in variables with a name and a flat index. -/
inductive SExpr where
  | const (r : ℝ)
  | var (n : String) (k : Nat)
  | add (a b : SExpr)
  | mul (a b : SExpr)
  | inv (a : SExpr)
  | sin (a : SExpr)
  | cos (a : SExpr)
  | exp (a : SExpr)
  | log (a : SExpr)

namespace SExpr

/-- The value of an expression. -/
noncomputable def ev : SExpr → Env → ℝ
  | const r, _ => r
  | var n k, v => v n k
  | add a b, v => a.ev v + b.ev v
  | mul a b, v => a.ev v * b.ev v
  | inv a, v => (a.ev v)⁻¹
  | sin a, v => Real.sin (a.ev v)
  | cos a, v => Real.cos (a.ev v)
  | exp a, v => Real.exp (a.ev v)
  | log a, v => Real.log (a.ev v)

/-- No reciprocal of zero, and logarithms of positive numbers only (numpy's logarithm of a negative number is not a number). -/
def Defined : SExpr → Env → Prop
  | const _, _ => True
  | var _ _, _ => True
  | add a b, v => a.Defined v ∧ b.Defined v
  | mul a b, v => a.Defined v ∧ b.Defined v
  | inv a, v => a.Defined v ∧ a.ev v ≠ 0
  | sin a, v => a.Defined v
  | cos a, v => a.Defined v
  | exp a, v => a.Defined v
  | log a, v => a.Defined v ∧ 0 < a.ev v

/-- The derivative with respect to entry `k` of the variable `n`. -/
noncomputable def D (n : String) (k : Nat) : SExpr → SExpr
  | const _ => const 0
  | var m l => const (if m = n ∧ l = k then 1 else 0)
  | add a b => add (D n k a) (D n k b)
  | mul a b => add (mul (D n k a) b) (mul a (D n k b))
  | inv a => mul (const (-1)) (mul (mul (inv a) (inv a)) (D n k a))
  | sin a => mul (cos a) (D n k a)
  | cos a => mul (const (-1)) (mul (sin a) (D n k a))
  | exp a => mul (exp a) (D n k a)
  | log a => mul (inv a) (D n k a)

open Classical in
/-- Whether an expression is the constant zero, as far as this can be seen from its form. -/
noncomputable def isZero : SExpr → Bool
  | const r => decide (r = 0)
  | mul a b => a.isZero || b.isZero
  | add a b => a.isZero && b.isZero
  | _ => false

/-- The entries of a derivative: the variables `wrt` one after the other, the first one varying slowest. -/
noncomputable def outs (shape : String → List Nat) : List String → List SExpr → List SExpr
  | [], es => es
  | a :: l, es => (List.range (shape a).prod).flatMap fun k => outs shape l (es.map (D a k))

/-- Differentiation of functions whose arguments have the shapes `shape`. -/
noncomputable def sym2num (shape : String → List Nat) : Sym2Num SExpr where
  isZero := isZero
  deriv f wrt := ⟨f.args, wrt.flatMap shape ++ f.outShape, outs shape wrt f.out⟩

end SExpr
end Ceacoest.Spec
