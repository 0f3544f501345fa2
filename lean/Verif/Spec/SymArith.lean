import Verif.Spec.SymExpr
import Verif.Model.SymClasses

/-!
# The language of expressions of C66 with arithmetic and substitution

It meets the contract under which C70 is stated.  Nothing here is a model of sympy's own code.
-/

namespace Ceacoest.Spec.SExpr

/-- Replace variables by expressions. -/
def subst (σ : String → Nat → SExpr) : SExpr → SExpr
  | const r => const r
  | var n k => σ n k
  | add a b => add (a.subst σ) (b.subst σ)
  | mul a b => mul (a.subst σ) (b.subst σ)
  | inv a => inv (a.subst σ)
  | sin a => sin (a.subst σ)
  | cos a => cos (a.subst σ)
  | exp a => exp (a.subst σ)
  | log a => log (a.subst σ)

/-- Arithmetic on expressions. -/
noncomputable def arith : SymArith SExpr where
  isZero := isZero
  deriv shape := (sym2num shape).deriv
  num := const
  sym := var
  add := add
  sub a b := add a (mul (const (-1)) b)
  mul := mul
  subst a σ := a.subst σ

/-- Defined whatever the values of the variables are. -/
def Total (e : SExpr) : Prop := ∀ env, e.Defined env

end Ceacoest.Spec.SExpr
