import Verif.Model.Fmt
import Verif.Model.Python

/-!
# Model of the classes and operators of `python_bindings/pyast.cc`

The constructors of the temporal operators and the functions `Always`, `Eventually`, `Until` (pyast.cc:48-50, 98-101,
110-113, 122-126) are left out: they pass a `std::optional<Interval>`, and name overloaded functions, which does not fit
`ast.hpp`.
-/

namespace Verif
namespace Py

variable {K : Type} [Field K] [LinearOrder K] [Arith K]

/-- The values of the attributes. -/
inductive Val (K : Type) where
  | bool (b : Bool)
  | str (s : String)
  | expr (e : Expr K)
  | exprs (es : List (Expr K))
  | pair (a b : Expr K)
  | interval (i : Interval K)

/-- The attributes of the classes: `Const` (pyast.cc:55), `Predicate` (63), `Not` (75), `And` (83), `Or` (91),
`Eventually` (102-103), `Always` (114-115), `Until` (127-128).  In the last three `interval` is bound to the operand. -/
def exprAttr : Expr K → String → Option (Val K)
  | .const b, "value" => some (.bool b)
  | .pred n _ _, "name" => some (.str n)
  | .not e, "arg" => some (.expr e)
  | .and es, "args" => some (.exprs es)
  | .or es, "args" => some (.exprs es)
  | .eventually e _, "arg" => some (.expr e)
  | .eventually e _, "interval" => some (.expr e)
  | .always e _, "arg" => some (.expr e)
  | .always e _, "interval" => some (.expr e)
  | .untl a b _, "args" => some (.pair a b)
  | .untl a b _, "interval" => some (.pair a b)
  | _, _ => none

/-- `a & b`: `and_op`, pyast.cc:25-28. -/
def andOp (a b : Expr K) : Result (Expr K) := call (Expr.andOp a b)

/-- `a | b`: `or_op`, pyast.cc:30-33. -/
def orOp (a b : Expr K) : Result (Expr K) := call (Expr.orOp a b)

/-- `~a`: `not_op`, pyast.cc:35-38. -/
def notOp (a : Expr K) : Expr K := .Not a

/-- `repr(e)`, pyast.cc:59, 71, 79, 87, 95, 107, 119, 132. -/
def repr (num : D K → List Char) (e : Expr K) : List Char := Fmt.expr num e

/-- `p < c`, `p <= c`, `p > c`, `p >= c` for a predicate `p`, pyast.cc:67-70 and ast.cc:11-25. -/
def compare : Expr K → ComparisonOp → D K → Result (Expr K)
  | .pred n _ _, o, c => .ok (Expr.withOp n o c)
  | _, _, _ => .raise .typeError

/-- The comparison with the sides exchanged: Python's reflected method. -/
def flip : ComparisonOp → ComparisonOp
  | .GT => .LT
  | .GE => .LE
  | .LT => .GT
  | .LE => .GE

/-- `c o p o' c'`, which in Python is `(c o p) and (p o' c')`; `c o p` is `p` compared with the sides exchanged, and a
predicate has no `__bool__`, so it is true. -/
def chained (c : D K) (o : ComparisonOp) (p : Expr K) (o' : ComparisonOp) (c' : D K) : Result (Expr K) :=
  match compare p (flip o) c with
  | .ok _ => compare p o' c'
  | r => r

end Py
end Verif
