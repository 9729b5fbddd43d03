import Verif.Model.Ast

/-!
# Notions about formulas used in the specifications
-/

namespace Verif
namespace Spec

variable {K : Type}

/-- The predicate name `n` occurs in the formula. -/
inductive Uses (n : String) : Expr K → Prop
  | pred (op : ComparisonOp) (c : D K) : Uses n (.pred n op c)
  | not {e : Expr K} : Uses n e → Uses n (.not e)
  | and {e : Expr K} {args : List (Expr K)} : e ∈ args → Uses n e → Uses n (.and args)
  | or {e : Expr K} {args : List (Expr K)} : e ∈ args → Uses n e → Uses n (.or args)
  | always {e : Expr K} {i : Interval K} : Uses n e → Uses n (.always e i)
  | eventually {e : Expr K} {i : Interval K} : Uses n e → Uses n (.eventually e i)
  | untl_left {e e' : Expr K} {i : Interval K} : Uses n e → Uses n (.untl e e' i)
  | untl_right {e e' : Expr K} {i : Interval K} : Uses n e' → Uses n (.untl e e' i)

/-- The formula contains no Boolean constant. -/
inductive ConstFree : Expr K → Prop
  | pred (n : String) (op : ComparisonOp) (c : D K) : ConstFree (.pred n op c)
  | not {e : Expr K} : ConstFree e → ConstFree (.not e)
  | and {args : List (Expr K)} : (∀ e ∈ args, ConstFree e) → ConstFree (.and args)
  | or {args : List (Expr K)} : (∀ e ∈ args, ConstFree e) → ConstFree (.or args)
  | always {e : Expr K} {i : Interval K} : ConstFree e → ConstFree (.always e i)
  | eventually {e : Expr K} {i : Interval K} : ConstFree e → ConstFree (.eventually e i)
  | untl {e e' : Expr K} {i : Interval K} : ConstFree e → ConstFree e' → ConstFree (.untl e e' i)

/-- All And and Or nodes have at least two operands. -/
inductive Arity : Expr K → Prop
  | const (b : Bool) : Arity (.const b)
  | pred (n : String) (op : ComparisonOp) (c : D K) : Arity (.pred n op c)
  | not {e : Expr K} : Arity e → Arity (.not e)
  | and {args : List (Expr K)} : 2 ≤ args.length → (∀ e ∈ args, Arity e) → Arity (.and args)
  | or {args : List (Expr K)} : 2 ≤ args.length → (∀ e ∈ args, Arity e) → Arity (.or args)
  | always {e : Expr K} {i : Interval K} : Arity e → Arity (.always e i)
  | eventually {e : Expr K} {i : Interval K} : Arity e → Arity (.eventually e i)
  | untl {e e' : Expr K} {i : Interval K} : Arity e → Arity e' → Arity (.untl e e' i)

section
variable [Field K] [LinearOrder K]

/-- The interval is the result of one of the three constructors (ast.hpp:158-166). -/
def IntervalBuilt (i : Interval K) : Prop :=
  i = Interval.default ∨ (∃ a b, Interval.ofULL a b = .ok i) ∨ ∃ a b, Interval.ofDouble a b = .ok i

/-- Every temporal operator has the interval `[0, inf)`. -/
inductive Unbounded : Expr K → Prop
  | const (b : Bool) : Unbounded (.const b)
  | pred (n : String) (op : ComparisonOp) (c : D K) : Unbounded (.pred n op c)
  | not {e : Expr K} : Unbounded e → Unbounded (.not e)
  | and {args : List (Expr K)} : (∀ e ∈ args, Unbounded e) → Unbounded (.and args)
  | or {args : List (Expr K)} : (∀ e ∈ args, Unbounded e) → Unbounded (.or args)
  | always {e : Expr K} : Unbounded e → Unbounded (.always e ⟨.dbl 0, .dbl .pinf⟩)
  | eventually {e : Expr K} : Unbounded e → Unbounded (.eventually e ⟨.dbl 0, .dbl .pinf⟩)
  | untl {e e' : Expr K} : Unbounded e → Unbounded e' → Unbounded (.untl e e' ⟨.dbl 0, .dbl .pinf⟩)

/-- A formula without Boolean constants, in which the bounds of the predicates are finite, that can be
built by the public constructors (And and Or have at least two operands, the intervals are results of
the constructors of Interval). -/
inductive Plain : Expr K → Prop
  | pred (n : String) (op : ComparisonOp) (c : K) : Plain (.pred n op (.fin c))
  | not {e : Expr K} : Plain e → Plain (.not e)
  | and {args : List (Expr K)} : 2 ≤ args.length → (∀ e ∈ args, Plain e) → Plain (.and args)
  | or {args : List (Expr K)} : 2 ≤ args.length → (∀ e ∈ args, Plain e) → Plain (.or args)
  | always {e : Expr K} {i : Interval K} : IntervalBuilt i → Plain e → Plain (.always e i)
  | eventually {e : Expr K} {i : Interval K} : IntervalBuilt i → Plain e → Plain (.eventually e i)
  | untl {e e' : Expr K} {i : Interval K} :
      IntervalBuilt i → Plain e → Plain e' → Plain (.untl e e' i)

/-- Formulas of predicates (with finite bounds), Not, And and Or. -/
inductive Propositional : Expr K → Prop
  | pred (n : String) (op : ComparisonOp) (c : K) : Propositional (.pred n op (.fin c))
  | not {e : Expr K} : Propositional e → Propositional (.not e)
  | and {args : List (Expr K)} : 2 ≤ args.length → (∀ e ∈ args, Propositional e) →
      Propositional (.and args)
  | or {args : List (Expr K)} : 2 ≤ args.length → (∀ e ∈ args, Propositional e) →
      Propositional (.or args)

/-- `Safety true`: formulas in which Always occurs only under an even number of negations, Eventually only
under an odd number, and Until does not occur.  `Safety false` (co-safety): their negations.  The
intervals are any intervals the constructors can make. -/
inductive Safety : Bool → Expr K → Prop
  | pred (pol : Bool) (n : String) (op : ComparisonOp) (c : K) : Safety pol (.pred n op (.fin c))
  | not {pol : Bool} {e : Expr K} : Safety (!pol) e → Safety pol (.not e)
  | and {pol : Bool} {args : List (Expr K)} : 2 ≤ args.length → (∀ e ∈ args, Safety pol e) →
      Safety pol (.and args)
  | or {pol : Bool} {args : List (Expr K)} : 2 ≤ args.length → (∀ e ∈ args, Safety pol e) →
      Safety pol (.or args)
  | always {e : Expr K} {i : Interval K} : IntervalBuilt i → Safety true e → Safety true (.always e i)
  | eventually {e : Expr K} {i : Interval K} : IntervalBuilt i → Safety false e →
      Safety false (.eventually e i)

/-- Any number of the operators Not, Always and Eventually (with the interval `[0, inf)`) on top of a
formula of predicates, Not, And and Or. -/
inductive Stack : Expr K → Prop
  | propositional {e : Expr K} : Propositional e → Stack e
  | not {e : Expr K} : Stack e → Stack (.not e)
  | always {e : Expr K} : Stack e → Stack (.always e ⟨.dbl 0, .dbl .pinf⟩)
  | eventually {e : Expr K} : Stack e → Stack (.eventually e ⟨.dbl 0, .dbl .pinf⟩)

/-- Combinations of such formulas by Not, And and Or. -/
inductive Combination : Expr K → Prop
  | stack {e : Expr K} : Stack e → Combination e
  | not {e : Expr K} : Combination e → Combination (.not e)
  | and {args : List (Expr K)} : 2 ≤ args.length → (∀ e ∈ args, Combination e) →
      Combination (.and args)
  | or {args : List (Expr K)} : 2 ≤ args.length → (∀ e ∈ args, Combination e) →
      Combination (.or args)

end
end Spec
end Verif
