import Verif.Spec.Accuracy
import Verif.Spec.Rounding

/-! # Formulas with one And or Or of two predicates below temporal operators -/

namespace Verif
namespace Spec

variable {K : Type} [Field K] [LinearOrder K]

/-- A predicate whose bound satisfies `C`, below any number of Not. -/
inductive Literal (C : K → Prop) : Expr K → Prop
  | pred (n : String) (op : ComparisonOp) {c : K} : C c → Literal C (.pred n op (.fin c))
  | not {e : Expr K} : Literal C e → Literal C (.not e)

/-- Two literals combined by And or Or. -/
inductive LiteralPair (C : K → Prop) : Expr K → Prop
  | and {e e' : Expr K} : Literal C e → Literal C e' → LiteralPair C (.and [e, e'])
  | or {e e' : Expr K} : Literal C e → Literal C e' → LiteralPair C (.or [e, e'])

/-- A formula satisfying `B` below any number of Not, Always and Eventually with the interval `[0, inf)`. -/
inductive Over (B : Expr K → Prop) : Expr K → Prop
  | base {e : Expr K} : B e → Over B e
  | not {e : Expr K} : Over B e → Over B (.not e)
  | always {e : Expr K} : Over B e → Over B (.Always e)
  | eventually {e : Expr K} : Over B e → Over B (.Eventually e)

end Spec
end Verif
