import Verif.Model.Num
import Verif.Model.Outcome

/-!
# Model of `src/include/signal_tl/ast.hpp` and `src/core/ast.cc`
-/

namespace Verif

/-- `enum class ComparisonOp`, ast.hpp:63. -/
inductive ComparisonOp where
  | GT | GE | LT | LE
  deriving DecidableEq, Repr

/-- `Interval::Num`, ast.hpp:153: `unsigned long long` or `double`. -/
inductive INum (K : Type) where
  | ull (n : UInt64)
  | dbl (d : D K)
  deriving DecidableEq, Repr

/-- `struct Interval`, ast.hpp:152-156. -/
structure Interval (K : Type) where
  low : INum K
  high : INum K
  deriving DecidableEq, Repr

namespace Interval
variable {K : Type} [Field K] [LinearOrder K] [Arith K]

/-- `Interval()`, ast.hpp:158: `[0, inf)`. -/
def default : Interval K := ⟨.dbl 0, .dbl .pinf⟩

/-- `Interval(unsigned long long, unsigned long long)`, ast.hpp:159: no check. -/
def ofULL (a b : UInt64) : Outcome (Interval K) := .ok ⟨.ull a, .ull b⟩

/-- `Interval(double, double)`, ast.hpp:160-166. -/
def ofDouble (a b : D K) : Outcome (Interval K) :=
  if a.lt 0 || b.lt 0 then .throw .invalidArgument
  else if b.le a then .throw .invalidArgument
  else .ok ⟨.dbl a, .dbl b⟩

/-- `static_cast<double>` of a bound, ast.hpp:171-181. -/
def numAsDouble : INum K → D K
  | .ull n => Arith.rnd (n.toNat : K)
  | .dbl d => d

/-- `as_double()`, ast.hpp:169-183. -/
def asDouble (i : Interval K) : D K × D K := (numAsDouble i.low, numAsDouble i.high)

/-- `start == 0` for a bound, ast.hpp:187. -/
def numIsZero : INum K → Bool
  | .ull n => n == 0
  | .dbl d => d.eq 0

/-- `is_zero_to_inf()`, ast.hpp:186-191. -/
def isZeroToInf (i : Interval K) : Bool :=
  numIsZero i.low && (numAsDouble i.high).isinf

/-- `has_value()`, ast.hpp:198-200: the same as `is_zero_to_inf`. -/
def hasValue (i : Interval K) : Bool := i.isZeroToInf

end Interval

/-- `ast::Expr`, ast.hpp:42-136, 203-232.  Shared pointers are values. -/
inductive Expr (K : Type) where
  | const (value : Bool)
  | pred (name : String) (op : ComparisonOp) (rhs : D K)
  | not (arg : Expr K)
  | and (args : List (Expr K))
  | or (args : List (Expr K))
  | always (arg : Expr K) (interval : Interval K)
  | eventually (arg : Expr K) (interval : Interval K)
  | untl (arg0 arg1 : Expr K) (interval : Interval K)

namespace Expr
variable {K : Type} [Field K] [LinearOrder K]

/-- `Const(bool)`, ast.cc:102-104. -/
def Const (b : Bool) : Expr K := .const b

/-- `Predicate(name)`, ast.cc:106-108 with the defaults of ast.hpp:71-72: `name >= 0`. -/
def Predicate (name : String) : Expr K := .pred name .GE 0

/-- `Const::operator==`, ast.hpp:49-51, of the constants `a` and `b`; `!=` (53-55) is its negation. -/
def constEq (a b : Bool) : Bool := a == b

/-- `Predicate::operator==`, ast.hpp:81-83, of the predicates `n op c` and `n' op' c'`; `!=` (85-87) is its
negation. -/
def predEq (n : String) (op : ComparisonOp) (c : D K) (n' : String) (op' : ComparisonOp) (c' : D K) : Bool :=
  n == n' && op == op' && c.eq c'

/-- `Predicate > bound` etc., ast.cc:11-25, for a predicate with the given name. -/
def withOp (name : String) (op : ComparisonOp) (bound : D K) : Expr K := .pred name op bound

/-- `And(args)`, ast.cc:117-119 with the check of ast.hpp:118-123. -/
def And (args : List (Expr K)) : Outcome (Expr K) :=
  if args.length < 2 then .throw .invalidArgument else .ok (.and args)

/-- `Or(args)`, ast.cc:121-123 with the check of ast.hpp:130-135. -/
def Or (args : List (Expr K)) : Outcome (Expr K) :=
  if args.length < 2 then .throw .invalidArgument else .ok (.or args)

/-- `operator~`, ast.cc:93-98, and `Not`, ast.cc:110-115 (the same code). -/
def Not : Expr K → Expr K
  | .const b => .const (!b)
  | e => .not e

/-- `AndHelper(lhs, rhs)`, ast.cc:31-50, for `lhs` an And node with operands `args`. -/
def andHelper (args : List (Expr K)) : Expr K → Outcome (Expr K)
  | .const b => And (if !b then [.const b] else args)
  | .and es => And (args ++ es)
  | e => And (args ++ [e])

/-- `OrHelper(lhs, rhs)`, ast.cc:52-71. -/
def orHelper (args : List (Expr K)) : Expr K → Outcome (Expr K)
  | .const b => Or (if b then [.const b] else args)
  | .or es => Or (args ++ es)
  | e => Or (args ++ [e])

/-- `operator&`, ast.cc:75-82. -/
def andOp (lhs rhs : Expr K) : Outcome (Expr K) :=
  match lhs with
  | .const b => .ok (if b then rhs else .const b)
  | .and args => andHelper args rhs
  | _ => And [lhs, rhs]

/-- `operator|`, ast.cc:84-91. -/
def orOp (lhs rhs : Expr K) : Outcome (Expr K) :=
  match lhs with
  | .const b => .ok (if !b then rhs else .const b)
  | .or args => orHelper args rhs
  | _ => Or [lhs, rhs]

/-- `Implies(x, y)`, ast.cc:125-127. -/
def Implies (x y : Expr K) : Outcome (Expr K) := orOp (Not x) y

/-- `Xor(x, y)`, ast.cc:129-131.  (The operands of `&` may be evaluated in any order; both throw the
same exception.) -/
def Xor (x y : Expr K) : Outcome (Expr K) := do
  let a ← orOp x y
  let b ← orOp (Not x) (Not y)
  andOp a b

/-- `Iff(x, y)`, ast.cc:133-135. -/
def Iff (x y : Expr K) : Outcome (Expr K) := do
  let a ← andOp x y
  let b ← andOp (Not x) (Not y)
  orOp a b

/-- `Always(arg)`, ast.cc:137-139. -/
def Always (arg : Expr K) : Expr K := .always arg Interval.default
/-- `Always(arg, interval)`, ast.cc:141-143. -/
def AlwaysI (arg : Expr K) (i : Interval K) : Expr K := .always arg i
/-- `Eventually(arg)`, ast.cc:145-147. -/
def Eventually (arg : Expr K) : Expr K := .eventually arg Interval.default
/-- `Eventually(arg, interval)`, ast.cc:149-151. -/
def EventuallyI (arg : Expr K) (i : Interval K) : Expr K := .eventually arg i
/-- `Until(arg1, arg2)`, ast.cc:153-155. -/
def Until (a b : Expr K) : Expr K := .untl a b Interval.default
/-- `Until(arg1, arg2, interval)`, ast.cc:157-159. -/
def UntilI (a b : Expr K) (i : Interval K) : Expr K := .untl a b i

end Expr

end Verif
