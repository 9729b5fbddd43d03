import Verif.Spec.Syntax
import Verif.Spec.Semantics

/-!
# What a specification text says about a trace

Dense-time semantics of the specification language itself, read off the syntax tree that is written in the
text.  Nothing here knows of expressions, of the functions that build them, or of how robustness is computed.
-/

namespace Verif
namespace Spec

section
variable (T : ℝ) (x : String → ℝ → ℝ)

mutual
/-- Quantitative meaning of a term at a time; `env` is the meaning of the formulas defined before. -/
noncomputable def synRob (env : String → ℝ → EReal) : Syn → ℝ → EReal
  | .tru, _ => ⊤
  | .fls, _ => ⊥
  | .ref n, t => env n t
  | .cmp o n c, t => margin o (x n t) (.fin c.val)
  | .rcmp o c n, t => margin (mirror o) (x n t) (.fin c.val)
  | .not a, t => - synRob env a t
  | .and ts, t => synRobAll env ts t
  | .or ts, t => synRobAny env ts t
  | .implies a b, t => (- synRob env a t) ⊔ synRob env b t
  | .iff a b, t => (synRob env a t ⊓ synRob env b t) ⊔ (- synRob env a t ⊓ - synRob env b t)
  | .xor a b, t => (synRob env a t ⊔ synRob env b t) ⊓ (- synRob env a t ⊔ - synRob env b t)
  | .always a, t => ⨅ t' ∈ Set.Icc t T, synRob env a t'
  | .eventually a, t => ⨆ t' ∈ Set.Icc t T, synRob env a t'
  | .untl a b, t => ⨆ t' ∈ Set.Icc t T, (synRob env b t' ⊓ ⨅ u ∈ Set.Icc t t', synRob env a u)
/-- The smallest value. -/
noncomputable def synRobAll (env : String → ℝ → EReal) : List Syn → ℝ → EReal
  | [], _ => ⊤
  | a :: as, t => synRob env a t ⊓ synRobAll env as t
/-- The greatest value. -/
noncomputable def synRobAny (env : String → ℝ → EReal) : List Syn → ℝ → EReal
  | [], _ => ⊥
  | a :: as, t => synRob env a t ⊔ synRobAny env as t
end

/-- `(op constant signal)` as written. -/
def holdsRev (o : ComparisonOp) (c v : ℝ) : Prop :=
  match o with
  | .LT => c < v
  | .LE => c ≤ v
  | .GT => c > v
  | .GE => c ≥ v

/-- `(op signal constant)` as written. -/
def holdsFwd (o : ComparisonOp) (v c : ℝ) : Prop :=
  match o with
  | .LT => v < c
  | .LE => v ≤ c
  | .GT => v > c
  | .GE => v ≥ c

mutual
/-- Boolean meaning of a term at a time. -/
def synSat (env : String → ℝ → Prop) : Syn → ℝ → Prop
  | .tru, _ => True
  | .fls, _ => False
  | .ref n, t => env n t
  | .cmp o n c, t => holdsFwd o (x n t) c.val
  | .rcmp o c n, t => holdsRev o c.val (x n t)
  | .not a, t => ¬ synSat env a t
  | .and ts, t => synSatAll env ts t
  | .or ts, t => synSatAny env ts t
  | .implies a b, t => synSat env a t → synSat env b t
  | .iff a b, t => (synSat env a t ↔ synSat env b t)
  | .xor a b, t => ¬ (synSat env a t ↔ synSat env b t)
  | .always a, t => ∀ t' ∈ Set.Icc t T, synSat env a t'
  | .eventually a, t => ∃ t' ∈ Set.Icc t T, synSat env a t'
  | .untl a b, t => ∃ t' ∈ Set.Icc t T, synSat env b t' ∧ ∀ u ∈ Set.Icc t t', synSat env a u
/-- All hold. -/
def synSatAll (env : String → ℝ → Prop) : List Syn → ℝ → Prop
  | [], _ => True
  | a :: as, t => synSat env a t ∧ synSatAll env as t
/-- One holds. -/
def synSatAny (env : String → ℝ → Prop) : List Syn → ℝ → Prop
  | [], _ => False
  | a :: as, t => synSat env a t ∨ synSatAny env as t
end

end

/-- The environment with a new entry. -/
def bindName {α : Type} (env : String → α) (n : String) (a : α) : String → α := fun m => if m = n then a else env m

/-- The asserted terms with their meaning, in order: each term is read with the formulas defined above it. -/
def asserted {α : Type} (mean : (String → α) → Syn → α) (env : String → α) : List Cmd → List (String × α)
  | [] => []
  | .define n t :: cs => asserted mean (bindName env n (mean env t)) cs
  | .assert n t :: cs => (n, mean env t) :: asserted mean env cs

/-- What the assertions of a text say, quantitatively.  (Undefined formulas have no meaning; the value that is
given to them here does not matter, as a text with an undefined formula is rejected.) -/
noncomputable def textRob (T : ℝ) (x : String → ℝ → ℝ) (cs : List Cmd) : List (String × (ℝ → EReal)) :=
  asserted (synRob T x) (fun _ _ => ⊥) cs

/-- What the assertions of a text say. -/
def textSat (T : ℝ) (x : String → ℝ → ℝ) (cs : List Cmd) : List (String × (ℝ → Prop)) :=
  asserted (synSat T x) (fun _ _ => False) cs

/-- Shapes of terms. -/
inductive Shape where
  /-- Predicates and Boolean operators. -/
  | prop
  /-- Not, Always and Eventually on top of such a term. -/
  | stack
  /-- Boolean operators on top of such terms. -/
  | comb
  /-- Anything else. -/
  | other
  deriving DecidableEq

/-- The shape of a Boolean operator applied to two terms. -/
def Shape.join : Shape → Shape → Shape
  | .prop, .prop => .prop
  | .other, _ => .other
  | _, .other => .other
  | _, _ => .comb

/-- The shape of Always or Eventually applied to a term. -/
def Shape.temporal : Shape → Shape
  | .prop => .stack
  | .stack => .stack
  | _ => .other

mutual
/-- The shape of a term. -/
def shape (env : String → Shape) : Syn → Shape
  | .tru => .other
  | .fls => .other
  | .ref n => env n
  | .cmp _ _ _ => .prop
  | .rcmp _ _ _ => .prop
  | .not a => shape env a
  | .and ts => shapeAll env ts
  | .or ts => shapeAll env ts
  | .implies a b => (shape env a).join (shape env b)
  | .iff a b => (shape env a).join (shape env b)
  | .xor a b => (shape env a).join (shape env b)
  | .always a => (shape env a).temporal
  | .eventually a => (shape env a).temporal
  | .untl _ _ => .other
/-- The shape of a Boolean operator applied to terms. -/
def shapeAll (env : String → Shape) : List Syn → Shape
  | [] => .prop
  | a :: as => (shape env a).join (shapeAll env as)
end

/-- The shapes of the assertions of a text. -/
def textShape (cs : List Cmd) : List (String × Shape) := asserted shape (fun _ => .other) cs

mutual
/-- The signals of a term. -/
def signals (env : String → List String) : Syn → List String
  | .tru => []
  | .fls => []
  | .ref n => env n
  | .cmp _ n _ => [n]
  | .rcmp _ _ n => [n]
  | .not a => signals env a
  | .and ts => signalsAll env ts
  | .or ts => signalsAll env ts
  | .implies a b => signals env a ++ signals env b
  | .iff a b => signals env a ++ signals env b
  | .xor a b => signals env a ++ signals env b
  | .always a => signals env a
  | .eventually a => signals env a
  | .untl a b => signals env a ++ signals env b
/-- The signals of several terms. -/
def signalsAll (env : String → List String) : List Syn → List String
  | [] => []
  | a :: as => signals env a ++ signalsAll env as
end

/-- The signals of the assertions of a text. -/
def textSignals (cs : List Cmd) : List (String × List String) := asserted signals (fun _ => []) cs

end Spec
end Verif
