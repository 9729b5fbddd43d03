import Verif.Spec.Formula
import Verif.Model.Ast

/-! # The formula whose robustness the code computes -/

namespace Verif
namespace Spec

variable {K : Type} [Field K] [LinearOrder K]

mutual
/-- The formula with the interval `[0, inf)` at every Always and Eventually, and every `e U e'` replaced by
`e'' or (e U e'') or G e`, where `e''` is `e' or G not e'`. -/
def actual : Expr K → Expr K
  | .const b => .const b
  | .pred n op c => .pred n op c
  | .not e => .not (actual e)
  | .and args => .and (actuals args)
  | .or args => .or (actuals args)
  | .always e _ => .always (actual e) ⟨.dbl 0, .dbl .pinf⟩
  | .eventually e _ => .eventually (actual e) ⟨.dbl 0, .dbl .pinf⟩
  | .untl e e' _ =>
    .or [.or [actual e', .always (.not (actual e')) ⟨.dbl 0, .dbl .pinf⟩],
      .untl (actual e) (.or [actual e', .always (.not (actual e')) ⟨.dbl 0, .dbl .pinf⟩]) ⟨.dbl 0, .dbl .pinf⟩,
      .always (actual e) ⟨.dbl 0, .dbl .pinf⟩]

/-- The operands of And and Or. -/
def actuals : List (Expr K) → List (Expr K)
  | [] => []
  | e :: es => actual e :: actuals es
end

/-- Formulas without Boolean constants, as the constructors can make them, in which the nested temporal operators count
at most `d`: Always and Eventually count one, Until counts four. -/
inductive Levels : Nat → Expr K → Prop
  | pred (d : Nat) (n : String) (op : ComparisonOp) (c : K) : Levels d (.pred n op (.fin c))
  | not {d : Nat} {e : Expr K} : Levels d e → Levels d (.not e)
  | and {d : Nat} {args : List (Expr K)} : 2 ≤ args.length → (∀ e ∈ args, Levels d e) → Levels d (.and args)
  | or {d : Nat} {args : List (Expr K)} : 2 ≤ args.length → (∀ e ∈ args, Levels d e) → Levels d (.or args)
  | always {d : Nat} {e : Expr K} {i : Interval K} : IntervalBuilt i → Levels d e → Levels (d + 1) (.always e i)
  | eventually {d : Nat} {e : Expr K} {i : Interval K} : IntervalBuilt i → Levels d e → Levels (d + 1) (.eventually e i)
  | untl {d : Nat} {e e' : Expr K} {i : Interval K} : IntervalBuilt i → Levels d e → Levels d e' →
      Levels (d + 4) (.untl e e' i)

end Spec
end Verif
