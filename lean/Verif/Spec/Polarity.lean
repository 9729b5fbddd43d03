import Verif.Model.Ast

/-!
# In which signals a formula is increasing
-/

namespace Verif
namespace Spec

variable {K : Type}

/-- `Polar up true phi`: larger values of the signals `n` with `up n`, and smaller values of the others, can
only make the formula `phi` easier to satisfy; `Polar up false phi`: only harder. -/
inductive Polar (up : String → Bool) : Bool → Expr K → Prop
  | ge (n : String) (c : D K) : Polar up (up n) (.pred n .GE c)
  | gt (n : String) (c : D K) : Polar up (up n) (.pred n .GT c)
  | le (n : String) (c : D K) : Polar up (!up n) (.pred n .LE c)
  | lt (n : String) (c : D K) : Polar up (!up n) (.pred n .LT c)
  | not {pol : Bool} {e : Expr K} : Polar up (!pol) e → Polar up pol (.not e)
  | and {pol : Bool} {args : List (Expr K)} : (∀ e ∈ args, Polar up pol e) → Polar up pol (.and args)
  | or {pol : Bool} {args : List (Expr K)} : (∀ e ∈ args, Polar up pol e) → Polar up pol (.or args)
  | always {pol : Bool} {e : Expr K} {i : Interval K} : Polar up pol e → Polar up pol (.always e i)
  | eventually {pol : Bool} {e : Expr K} {i : Interval K} : Polar up pol e → Polar up pol (.eventually e i)
  | untl {pol : Bool} {e e' : Expr K} {i : Interval K} : Polar up pol e → Polar up pol e' →
      Polar up pol (.untl e e' i)

end Spec
end Verif
