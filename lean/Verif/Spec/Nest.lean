import Verif.Spec.Accuracy
import Verif.Spec.Margin
import Verif.Model.Robustness

/-! # Nested Boolean formulas -/

namespace Verif
namespace Spec

variable {K : Type}

/-- Not, And and Or of any number of operands, nested to any depth over predicates whose constants satisfy `C`.
And and Or of several operands are computed from left to right; `R a b` is required of what is computed first and the
next operand.  The number is the greatest number of such steps on a path. -/
inductive Nest (C : K → Prop) (R : Expr K → Expr K → Prop) : Nat → Expr K → Prop
  | pred (n : String) (op : ComparisonOp) {c : K} : C c → Nest C R 0 (.pred n op (.fin c))
  | not {k : Nat} {e : Expr K} : Nest C R k e → Nest C R k (.not e)
  | andOne {k : Nat} {e : Expr K} : Nest C R k e → Nest C R k (.and [e])
  | orOne {k : Nat} {e : Expr K} : Nest C R k e → Nest C R k (.or [e])
  | and {k l : Nat} {es : List (Expr K)} {e : Expr K} : Nest C R k (.and es) → Nest C R l e → R (.and es) e →
      Nest C R (max k l + 1) (.and (es ++ [e]))
  | or {k l : Nat} {es : List (Expr K)} {e : Expr K} : Nest C R k (.or es) → Nest C R l e → R (.or es) e →
      Nest C R (max k l + 1) (.or (es ++ [e]))

/-- The signals computed for two formulas: times and values are mild, the times at most `H` and the values at most `V`
in magnitude, and different times at least `d` apart. -/
def Feeds (nd : Bool) (fuel : Nat) (trace : Trace B64) (sy : Bool) (V H d : ℚ) (e e' : Expr B64) : Prop :=
  ∀ (x y : Signal B64) (xs ys : List (ℚ × ℚ)), computeRobustness nd fuel e trace sy = .ok x →
    computeRobustness nd fuel e' trace sy = .ok y → Represents (K := B64) x xs → Represents (K := B64) y ys →
    Gentle V H xs ∧ Gentle V H ys ∧ Apart d xs ys

end Spec
end Verif
