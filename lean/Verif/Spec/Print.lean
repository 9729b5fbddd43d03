import Verif.Model.Fmt
import Verif.Spec.Formula

/-!
# Which texts of numbers and which formulas can be read back
-/

namespace Verif
namespace Spec

variable {K : Type} [Field K] [LinearOrder K] [Arith K]

/-- What is expected of the text of a double: different numbers have different texts, and the text
contains none of the characters `)`, `,` and space. -/
structure Faithful (num : D K → List Char) : Prop where
  inj : Function.Injective num
  clean : ∀ d, ')' ∉ num d ∧ ',' ∉ num d ∧ ' ' ∉ num d

/-- A name without space, `(`, `~` and `[`; every identifier of the specification language is one. -/
def PlainName (n : String) : Prop := ∀ c ∈ n.toList, c ≠ ' ' ∧ c ≠ '(' ∧ c ≠ '~' ∧ c ≠ '['

/-- A formula without Until, with unbounded intervals, plain names, and at least two operands in And and
Or. -/
inductive Printable : Expr K → Prop
  | const (b : Bool) : Printable (.const b)
  | pred {n : String} {o : ComparisonOp} {c : D K} : PlainName n → Printable (.pred n o c)
  | not {e : Expr K} : Printable e → Printable (.not e)
  | and {args : List (Expr K)} : 2 ≤ args.length → (∀ e ∈ args, Printable e) → Printable (.and args)
  | or {args : List (Expr K)} : 2 ≤ args.length → (∀ e ∈ args, Printable e) → Printable (.or args)
  | always {e : Expr K} : Printable e → Printable (.always e ⟨.dbl 0, .dbl .pinf⟩)
  | eventually {e : Expr K} : Printable e → Printable (.eventually e ⟨.dbl 0, .dbl .pinf⟩)

/-- The same with Until; these are the formulas that the parser can return. -/
inductive PrintableU : Expr K → Prop
  | const (b : Bool) : PrintableU (.const b)
  | pred {n : String} {o : ComparisonOp} {c : D K} : PlainName n → PrintableU (.pred n o c)
  | not {e : Expr K} : PrintableU e → PrintableU (.not e)
  | and {args : List (Expr K)} : 2 ≤ args.length → (∀ e ∈ args, PrintableU e) → PrintableU (.and args)
  | or {args : List (Expr K)} : 2 ≤ args.length → (∀ e ∈ args, PrintableU e) → PrintableU (.or args)
  | always {e : Expr K} : PrintableU e → PrintableU (.always e ⟨.dbl 0, .dbl .pinf⟩)
  | eventually {e : Expr K} : PrintableU e → PrintableU (.eventually e ⟨.dbl 0, .dbl .pinf⟩)
  | untl {a b : Expr K} : PrintableU a → PrintableU b → PrintableU (.untl a b ⟨.dbl 0, .dbl .pinf⟩)

/-- The same with arbitrary intervals. -/
inductive PrintableI : Expr K → Prop
  | const (b : Bool) : PrintableI (.const b)
  | pred {n : String} {o : ComparisonOp} {c : D K} : PlainName n → PrintableI (.pred n o c)
  | not {e : Expr K} : PrintableI e → PrintableI (.not e)
  | and {args : List (Expr K)} : 2 ≤ args.length → (∀ e ∈ args, PrintableI e) → PrintableI (.and args)
  | or {args : List (Expr K)} : 2 ≤ args.length → (∀ e ∈ args, PrintableI e) → PrintableI (.or args)
  | always {e : Expr K} {i : Interval K} : PrintableI e → PrintableI (.always e i)
  | eventually {e : Expr K} {i : Interval K} : PrintableI e → PrintableI (.eventually e i)
  | untl {a b : Expr K} {i : Interval K} : PrintableI a → PrintableI b → PrintableI (.untl a b i)

/-- The bound is the number 0. -/
def ZeroBound : INum K → Prop
  | .ull n => n = 0
  | .dbl d => d = .fin 0

/-- The bound is infinite (an integer counts as the double that it is converted to). -/
def InfBound : INum K → Prop
  | .ull n => Arith.rnd (n.toNat : K) = .pinf ∨ Arith.rnd (n.toNat : K) = .ninf
  | .dbl d => d = .pinf ∨ d = .ninf

open Classical in
/-- One interval for all that begin at 0 and end at infinity, and one for all others. -/
noncomputable def blur (i : Interval K) : Interval K :=
  if ZeroBound i.low ∧ InfBound i.high then ⟨.dbl 0, .dbl .pinf⟩ else ⟨.dbl (.fin 1), .dbl (.fin 1)⟩

mutual
/-- The formula with all intervals replaced by these two. -/
noncomputable def blurred : Expr K → Expr K
  | .const b => .const b
  | .pred n o c => .pred n o c
  | .not e => .not (blurred e)
  | .and es => .and (blurredAll es)
  | .or es => .or (blurredAll es)
  | .always e i => .always (blurred e) (blur i)
  | .eventually e i => .eventually (blurred e) (blur i)
  | .untl a b i => .untl (blurred a) (blurred b) (blur i)
/-- For several formulas. -/
noncomputable def blurredAll : List (Expr K) → List (Expr K)
  | [] => []
  | e :: es => blurred e :: blurredAll es
end

/-- A unary operator applied to the leftmost operand of a chain of Until. -/
def onFirst (f : Expr K → Expr K) : Expr K → Expr K
  | .untl a b i => .untl (onFirst f a) b i
  | e => f e

/-- The chain of Until `a` continued by `b`. -/
def chain (i : Interval K) (b : Expr K) : Expr K → Expr K
  | .untl a a' j => .untl a (chain i b a') j
  | a => .untl a b i

mutual
/-- Another formula with the same text: Until is nested to the right, and unary operators are applied to the
first operand of a chain of Until. -/
def rebracket : Expr K → Expr K
  | .const b => .const b
  | .pred n o c => .pred n o c
  | .not e => onFirst .not (rebracket e)
  | .and es => .and (rebracketAll es)
  | .or es => .or (rebracketAll es)
  | .always e i => onFirst (.always · i) (rebracket e)
  | .eventually e i => onFirst (.eventually · i) (rebracket e)
  | .untl a b i => chain i (rebracket b) (rebracket a)
/-- For several formulas. -/
def rebracketAll : List (Expr K) → List (Expr K)
  | [] => []
  | e :: es => rebracket e :: rebracketAll es
end

end Spec
end Verif
