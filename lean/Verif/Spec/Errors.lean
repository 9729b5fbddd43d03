import Verif.Model.Ast

/-! # Notions about failures -/

namespace Verif
namespace Spec

variable {K : Type}

/-- All intervals in the formula satisfy `P`. -/
inductive Intervals (P : Interval K → Prop) : Expr K → Prop
  | const (b : Bool) : Intervals P (.const b)
  | pred (n : String) (op : ComparisonOp) (c : D K) : Intervals P (.pred n op c)
  | not {e : Expr K} : Intervals P e → Intervals P (.not e)
  | and {args : List (Expr K)} : (∀ e ∈ args, Intervals P e) → Intervals P (.and args)
  | or {args : List (Expr K)} : (∀ e ∈ args, Intervals P e) → Intervals P (.or args)
  | always {e : Expr K} {i : Interval K} : P i → Intervals P e → Intervals P (.always e i)
  | eventually {e : Expr K} {i : Interval K} : P i → Intervals P e → Intervals P (.eventually e i)
  | untl {e e' : Expr K} {i : Interval K} : P i → Intervals P e → Intervals P e' → Intervals P (.untl e e' i)

end Spec
end Verif
