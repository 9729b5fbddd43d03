import Verif.Spec.Formula

/-! # Nesting of temporal operators -/

namespace Verif
namespace Spec

variable {K : Type} [Field K] [LinearOrder K]

/-- Formulas of predicates (with finite bounds), Not, And, Or, Always and Eventually with the interval
`[0, inf)` in which at most `d` temporal operators are nested. -/
inductive Nested : Nat → Expr K → Prop
  | pred (d : Nat) (n : String) (op : ComparisonOp) (c : K) : Nested d (.pred n op (.fin c))
  | not {d : Nat} {e : Expr K} : Nested d e → Nested d (.not e)
  | and {d : Nat} {args : List (Expr K)} : 2 ≤ args.length → (∀ e ∈ args, Nested d e) → Nested d (.and args)
  | or {d : Nat} {args : List (Expr K)} : 2 ≤ args.length → (∀ e ∈ args, Nested d e) → Nested d (.or args)
  | always {d : Nat} {e : Expr K} : Nested d e → Nested (d + 1) (.always e ⟨.dbl 0, .dbl .pinf⟩)
  | eventually {d : Nat} {e : Expr K} : Nested d e → Nested (d + 1) (.eventually e ⟨.dbl 0, .dbl .pinf⟩)

/-- Neighbouring samples differ by at most `δ`. -/
def StepAtMost (δ : K) (pts : List (K × K)) : Prop := pts.IsChain fun p q => |q.2 - p.2| ≤ δ

end Spec
end Verif
