import Verif.Spec.Semantics

/-!
# Formulas over rational numbers read over the real numbers

`ι` is the inclusion of the carrier of the arithmetic into the real numbers, or into another carrier.
-/

namespace Verif
namespace Spec

variable {K L : Type}

/-- The same double. -/
def castD (ι : K → L) : D K → D L
  | .fin q => .fin (ι q)
  | .pinf => .pinf
  | .ninf => .ninf
  | .nan => .nan

/-- The same bound of an interval. -/
def castNum (ι : K → L) : INum K → INum L
  | .ull n => .ull n
  | .dbl d => .dbl (castD ι d)

/-- The same interval. -/
def castInterval (ι : K → L) (i : Interval K) : Interval L := ⟨castNum ι i.low, castNum ι i.high⟩

mutual
/-- The same formula. -/
def castExpr (ι : K → L) : Expr K → Expr L
  | .const b => .const b
  | .pred n op c => .pred n op (castD ι c)
  | .not e => .not (castExpr ι e)
  | .and args => .and (castExprs ι args)
  | .or args => .or (castExprs ι args)
  | .always e i => .always (castExpr ι e) (castInterval ι i)
  | .eventually e i => .eventually (castExpr ι e) (castInterval ι i)
  | .untl e e' i => .untl (castExpr ι e) (castExpr ι e') (castInterval ι i)

/-- The same formulas. -/
def castExprs (ι : K → L) : List (Expr K) → List (Expr L)
  | [] => []
  | e :: es => castExpr ι e :: castExprs ι es
end

/-- The same points. -/
def castPts (ι : K → L) (pts : List (K × K)) : List (L × L) := pts.map fun p => (ι p.1, ι p.2)

section
variable [Field K] [LinearOrder K]

/-- A predicate whose bound satisfies `C`, below any number of Not, Always and Eventually with the interval
`[0, inf)`. -/
inductive Chain (C : K → Prop) : Expr K → Prop
  | pred (n : String) (op : ComparisonOp) {c : K} : C c → Chain C (.pred n op (.fin c))
  | not {e : Expr K} : Chain C e → Chain C (.not e)
  | always {e : Expr K} : Chain C e → Chain C (.Always e)
  | eventually {e : Expr K} : Chain C e → Chain C (.Eventually e)

/-- Such formulas combined by Not, And and Or. -/
inductive Layered (C : K → Prop) : Expr K → Prop
  | chain {e : Expr K} : Chain C e → Layered C e
  | not {e : Expr K} : Layered C e → Layered C (.not e)
  | and {args : List (Expr K)} : args ≠ [] → (∀ e ∈ args, Layered C e) → Layered C (.and args)
  | or {args : List (Expr K)} : args ≠ [] → (∀ e ∈ args, Layered C e) → Layered C (.or args)

end

end Spec
end Verif
