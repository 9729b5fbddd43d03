import Verif.Model.Ast

/-!
# Renaming the signals in a formula
-/

namespace Verif
namespace Spec

variable {K : Type}

mutual
/-- The formula with the signals renamed by `f`. -/
def rename (f : String → String) : Expr K → Expr K
  | .const b => .const b
  | .pred n op c => .pred (f n) op c
  | .not e => .not (rename f e)
  | .and args => .and (renames f args)
  | .or args => .or (renames f args)
  | .always e i => .always (rename f e) i
  | .eventually e i => .eventually (rename f e) i
  | .untl e e' i => .untl (rename f e) (rename f e') i

/-- The operands. -/
def renames (f : String → String) : List (Expr K) → List (Expr K)
  | [] => []
  | e :: es => rename f e :: renames f es
end

end Spec
end Verif
