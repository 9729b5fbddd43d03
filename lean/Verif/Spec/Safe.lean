import Verif.Spec.Keep
import Verif.Spec.Formula
import Verif.Model.Robustness

/-!
# The signals that an evaluation starts from, and when they fit together
-/

namespace Verif
namespace Spec

variable {K : Type} [Field K] [LinearOrder K] [Arith K]

/-- The signals at the leaves of a formula: the signals of the trace named in predicates, and for a Boolean
constant a signal with the two timestamps `lo` and `hi`. -/
inductive Leaf (trace : Trace K) (lo hi : D K) : Expr K → Signal K → Prop
  | const {b : Bool} {x : Signal K} : times x = [lo, hi] → Leaf trace lo hi (.const b) x
  | pred {n : String} {op : ComparisonOp} {c : D K} {x : Signal K} :
    trace.lookup n = some x → Leaf trace lo hi (.pred n op c) x
  | not {e : Expr K} {x : Signal K} : Leaf trace lo hi e x → Leaf trace lo hi (.not e) x
  | and {e : Expr K} {args : List (Expr K)} {x : Signal K} :
    e ∈ args → Leaf trace lo hi e x → Leaf trace lo hi (.and args) x
  | or {e : Expr K} {args : List (Expr K)} {x : Signal K} :
    e ∈ args → Leaf trace lo hi e x → Leaf trace lo hi (.or args) x
  | always {e : Expr K} {i : Interval K} {x : Signal K} :
    Leaf trace lo hi e x → Leaf trace lo hi (.always e i) x
  | eventually {e : Expr K} {i : Interval K} {x : Signal K} :
    Leaf trace lo hi e x → Leaf trace lo hi (.eventually e i) x
  | untl_left {e e' : Expr K} {i : Interval K} {x : Signal K} :
    Leaf trace lo hi e x → Leaf trace lo hi (.untl e e' i) x
  | untl_right {e e' : Expr K} {i : Interval K} {x : Signal K} :
    Leaf trace lo hi e' x → Leaf trace lo hi (.untl e e' i) x

/-- Of any two of the signals, both have a sample where the later one begins.  (Signals that all begin at the
same time fit together.) -/
def Fit (P : Signal K → Prop) : Prop :=
  (∀ x, P x → x.samples ≠ []) ∧
  ∀ x y, P x → P y → D.max x.beginTime y.beginTime ∈ times x ∧ D.max x.beginTime y.beginTime ∈ times y

/-- The call returns or throws: no undefined behaviour, no failed assertion, and it ends. -/
def Returns {α : Type} : Outcome α → Prop
  | .ok _ => True
  | .throw _ => True
  | _ => False

end Spec
end Verif
