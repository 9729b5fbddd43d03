import Verif.Spec.Formula

/-!
# Formulas of which a violation is reported rightly (for C128)
-/

namespace Verif
namespace Spec

variable {K : Type} [Field K] [LinearOrder K] [Arith K]

/-- `OneSided false`: formulas of predicates, Not, Eventually and Until in which Eventually and Until are below an even
number of negations, and Always is below an odd one; `OneSided true`: the other way round.  The intervals are arbitrary
results of the constructors of intervals.  Always and Eventually without an interval are allowed everywhere. -/
inductive OneSided : Bool → Expr K → Prop
  | pred (pol : Bool) (n : String) (op : ComparisonOp) (c : K) : OneSided pol (.pred n op (.fin c))
  | not {pol : Bool} {e : Expr K} : OneSided (!pol) e → OneSided pol (.not e)
  | always {e : Expr K} {i : Interval K} : IntervalBuilt i → OneSided true e → OneSided true (.always e i)
  | eventually {e : Expr K} {i : Interval K} : IntervalBuilt i → OneSided false e → OneSided false (.eventually e i)
  | globally {pol : Bool} {e : Expr K} : OneSided pol e → OneSided pol (.always e Interval.default)
  | sometime {pol : Bool} {e : Expr K} : OneSided pol e → OneSided pol (.eventually e Interval.default)
  | untl {e e' : Expr K} {i : Interval K} : IntervalBuilt i → OneSided false e → OneSided false e' →
      OneSided false (.untl e e' i)

end Spec
end Verif
