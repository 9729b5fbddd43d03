import Verif.Spec.Formula

/-!
# Formulas with one level of Until (for C129)
-/

namespace Verif
namespace Spec

variable {K : Type} [Field K] [LinearOrder K] [Arith K]

/-- `OverUntil false`: any number of the operators Not, Always and Eventually on top of a formula of `Safety false` or of
an Until with two operands of `Safety false`.  Always and Eventually with an interval have to have the right polarity,
without an interval they may be anywhere. -/
inductive OverUntil : Bool → Expr K → Prop
  | base {pol : Bool} {e : Expr K} : Safety pol e → OverUntil pol e
  | untl {e e' : Expr K} {i : Interval K} : IntervalBuilt i → Safety false e → Safety false e' →
      OverUntil false (.untl e e' i)
  | not {pol : Bool} {e : Expr K} : OverUntil (!pol) e → OverUntil pol (.not e)
  | always {e : Expr K} {i : Interval K} : IntervalBuilt i → OverUntil true e → OverUntil true (.always e i)
  | eventually {e : Expr K} {i : Interval K} : IntervalBuilt i → OverUntil false e → OverUntil false (.eventually e i)
  | globally {pol : Bool} {e : Expr K} : OverUntil pol e → OverUntil pol (.always e Interval.default)
  | sometime {pol : Bool} {e : Expr K} : OverUntil pol e → OverUntil pol (.eventually e Interval.default)

/-- Combinations of such formulas by Not, And and Or. -/
inductive MixUntil : Bool → Expr K → Prop
  | base {pol : Bool} {e : Expr K} : OverUntil pol e → MixUntil pol e
  | not {pol : Bool} {e : Expr K} : MixUntil (!pol) e → MixUntil pol (.not e)
  | and {pol : Bool} {args : List (Expr K)} : 2 ≤ args.length → (∀ e ∈ args, MixUntil pol e) → MixUntil pol (.and args)
  | or {pol : Bool} {args : List (Expr K)} : 2 ≤ args.length → (∀ e ∈ args, MixUntil pol e) → MixUntil pol (.or args)

end Spec
end Verif
