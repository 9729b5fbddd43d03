import Verif.Model.Ast
import Verif.Model.Signal
import Verif.Spec.Binary64
import Verif.Spec.Pwl

/-!
# Formulas without And, Or and constants, and traces given by points (for C127)
-/

namespace Verif
namespace Spec

/-- Formulas of predicates with finite constants of magnitude at most `C` that are doubles, Not, Always, Eventually and
Until, with at most `n` operators Until above each other.  The intervals are arbitrary. -/
inductive UntilOnly (C : ℚ) : ℕ → Expr ℚ → Prop
  | pred {n : ℕ} (name : String) (op : ComparisonOp) {c : ℚ} (hc : IsB64 c) (h : |c| ≤ C) :
      UntilOnly C n (.pred name op (.fin c))
  | not {n : ℕ} {e : Expr ℚ} (h : UntilOnly C n e) : UntilOnly C n (.not e)
  | always {n : ℕ} {e : Expr ℚ} {i : Interval ℚ} (h : UntilOnly C n e) : UntilOnly C n (.always e i)
  | eventually {n : ℕ} {e : Expr ℚ} {i : Interval ℚ} (h : UntilOnly C n e) : UntilOnly C n (.eventually e i)
  | untl {n : ℕ} {e e' : Expr ℚ} {i : Interval ℚ} (h : UntilOnly C n e) (h' : UntilOnly C n e') : UntilOnly C (n + 1) (.untl e e' i)

/-- The signals of the trace (lists of points with increasing times) have times that are multiples of `2^-100` of
magnitude at most `2^100` and values that are doubles of magnitude at most `V`. -/
def Steady (V : ℚ) (tr : List (String × List (ℚ × ℚ))) : Prop :=
  ∀ e ∈ tr, Increasing e.2 ∧ ∀ p ∈ e.2, (∃ n : ℤ, p.1 = n / 2 ^ 100) ∧ |p.1| ≤ 2 ^ 100 ∧ IsB64 p.2 ∧ |p.2| ≤ V

end Spec
end Verif
