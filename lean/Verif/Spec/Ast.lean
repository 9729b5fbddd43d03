import Verif.Spec.Formula

/-!
# Boolean meaning of expressions and expressions built by the public interface
-/

namespace Verif
namespace Spec

variable {K : Type}

mutual
/-- The Boolean meaning of a formula; `v` gives the truth values of the predicates and of the temporal
sub-formulas. -/
def bval (v : Expr K → Bool) : Expr K → Bool
  | .const b => b
  | .not e => !bval v e
  | .and args => bvalAll v args
  | .or args => bvalAny v args
  | .pred n op c => v (.pred n op c)
  | .always e i => v (.always e i)
  | .eventually e i => v (.eventually e i)
  | .untl e e' i => v (.untl e e' i)
/-- All operands are true. -/
def bvalAll (v : Expr K → Bool) : List (Expr K) → Bool
  | [] => true
  | e :: es => bval v e && bvalAll v es
/-- Some operand is true. -/
def bvalAny (v : Expr K → Bool) : List (Expr K) → Bool
  | [] => false
  | e :: es => bval v e || bvalAny v es
end

section
variable [Field K] [LinearOrder K]

/-- The expressions that a program can build with the functions of ast.hpp:234-263. -/
inductive Built : Expr K → Prop
  | const (b : Bool) : Built (.Const b)
  | predicate (n : String) : Built (.Predicate n)
  | comparison (n : String) (op : ComparisonOp) (c : D K) : Built (.withOp n op c)
  | not {e : Expr K} : Built e → Built (.Not e)
  | and {args : List (Expr K)} {r : Expr K} : (∀ e ∈ args, Built e) → Expr.And args = .ok r → Built r
  | or {args : List (Expr K)} {r : Expr K} : (∀ e ∈ args, Built e) → Expr.Or args = .ok r → Built r
  | andOp {a b r : Expr K} : Built a → Built b → Expr.andOp a b = .ok r → Built r
  | orOp {a b r : Expr K} : Built a → Built b → Expr.orOp a b = .ok r → Built r
  | implies {a b r : Expr K} : Built a → Built b → Expr.Implies a b = .ok r → Built r
  | xor {a b r : Expr K} : Built a → Built b → Expr.Xor a b = .ok r → Built r
  | iff {a b r : Expr K} : Built a → Built b → Expr.Iff a b = .ok r → Built r
  | always {e : Expr K} : Built e → Built (.Always e)
  | alwaysI {e : Expr K} (i : Interval K) : Built e → Built (.AlwaysI e i)
  | eventually {e : Expr K} : Built e → Built (.Eventually e)
  | eventuallyI {e : Expr K} (i : Interval K) : Built e → Built (.EventuallyI e i)
  | untl {a b : Expr K} : Built a → Built b → Built (.Until a b)
  | untlI {a b : Expr K} (i : Interval K) : Built a → Built b → Built (.UntilI a b i)

end
end Spec
end Verif
