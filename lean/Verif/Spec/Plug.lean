import Verif.Model.Ast

/-! # Formulas with a hole -/

namespace Verif
namespace Spec

variable {K : Type} [Field K] [LinearOrder K]

/-- What is put for a comparison with `op`: `psi` or its negation. -/
def hole (psi : Expr K) : ComparisonOp → Expr K
  | .GE => psi
  | .GT => psi
  | .LE => .not psi
  | .LT => .not psi

mutual
/-- Put `psi` for the signal `n`: the predicates `n >= c` and `n > c` become `psi`, and `n <= c` and `n < c`
become `Not(psi)`. -/
def plug (n : String) (psi : Expr K) : Expr K → Expr K
  | .const b => .const b
  | .pred m op c => if m = n then hole psi op else .pred m op c
  | .not e => .not (plug n psi e)
  | .and args => .and (plugAll n psi args)
  | .or args => .or (plugAll n psi args)
  | .always e i => .always (plug n psi e) i
  | .eventually e i => .eventually (plug n psi e) i
  | .untl e e' i => .untl (plug n psi e) (plug n psi e') i

/-- `plug` on a list. -/
def plugAll (n : String) (psi : Expr K) : List (Expr K) → List (Expr K)
  | [] => []
  | e :: es => plug n psi e :: plugAll n psi es
end

/-- In the formula the signal `n` is only compared with zero. -/
inductive Slot (n : String) : Expr K → Prop
  | const (b : Bool) : Slot n (.const b)
  | pred (m : String) (op : ComparisonOp) (c : D K) : (m = n → c = 0) → Slot n (.pred m op c)
  | not {e : Expr K} : Slot n e → Slot n (.not e)
  | and {args : List (Expr K)} : (∀ e ∈ args, Slot n e) → Slot n (.and args)
  | or {args : List (Expr K)} : (∀ e ∈ args, Slot n e) → Slot n (.or args)
  | always {e : Expr K} {i : Interval K} : Slot n e → Slot n (.always e i)
  | eventually {e : Expr K} {i : Interval K} : Slot n e → Slot n (.eventually e i)
  | untl {e e' : Expr K} {i : Interval K} : Slot n e → Slot n e' → Slot n (.untl e e' i)

/-- Rounding twice is rounding once (true of IEEE arithmetic: the result is representable). -/
class IdemArith (K : Type) [Arith K] : Prop where
  rnd_rnd : ∀ q r : K, Arith.rnd q = .fin r → Arith.rnd r = .fin r

end Spec
end Verif
