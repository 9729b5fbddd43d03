import Verif.Model.Peg

/-!
# When a PEG grammar terminates

`Grammar.issues` is a check in the manner of PEGTL's `analyze` (contrib/analyze.hpp), which parser.cc:62-64
calls and whose result the unit test "PEG Grammar has no issues" compares with 0: a rule must not be able
to call itself again without having consumed something, and neither must the body of a loop.  PEGTL is not in
the repository; this is the published idea of the check, not its code.
-/

namespace Verif
namespace Peg

variable {N S : Type}

/-- If the rule matches, it has consumed something; `known` tells it for the names. -/
def Exp.eats (known : N → Bool) : Exp N → Bool
  | .one _ => true
  | .ranges _ => true
  | .str s => !s.isEmpty
  | .eof => false
  | .eolf => false
  | .seq a b => a.eats known || b.eats known
  | .sor a b => a.eats known && b.eats known
  | .star _ => false
  | .plus a => a.eats known
  | .opt _ => false
  | .notAt _ => false
  | .untilAny c => c.eats known
  | .untl c _ => c.eats known
  | .must a => a.eats known
  | .disable a => a.eats known
  | .nt x => known x

/-- The same for a name, following names up to a depth. -/
def Grammar.eats (g : Grammar N S) : Nat → N → Bool
  | 0, _ => false
  | n + 1, x => (g.rules x).eats (g.eats n)

/-- The bodies of all loops in the rule consume something. -/
def Exp.loops (known : N → Bool) : Exp N → Bool
  | .one _ => true
  | .ranges _ => true
  | .str _ => true
  | .eof => true
  | .eolf => true
  | .seq a b => a.loops known && b.loops known
  | .sor a b => a.loops known && b.loops known
  | .star a => a.loops known && a.eats known
  | .plus a => a.loops known && a.eats known
  | .opt a => a.loops known
  | .notAt a => a.loops known
  | .untilAny c => c.loops known
  | .untl c a => c.loops known && a.loops known && a.eats known
  | .must a => a.loops known
  | .disable a => a.loops known
  | .nt _ => true

/-- All names that the rule can call before it has consumed anything are fine. -/
def Exp.left (known fine : N → Bool) : Exp N → Bool
  | .one _ => true
  | .ranges _ => true
  | .str _ => true
  | .eof => true
  | .eolf => true
  | .seq a b => a.left known fine && (a.eats known || b.left known fine)
  | .sor a b => a.left known fine && b.left known fine
  | .star a => a.left known fine
  | .plus a => a.left known fine
  | .opt a => a.left known fine
  | .notAt a => a.left known fine
  | .untilAny c => c.left known fine
  | .untl c a => c.left known fine && a.left known fine
  | .must a => a.left known fine
  | .disable a => a.left known fine
  | .nt x => fine x

/-- Calls before anything is consumed are nested less deep than `n`. -/
def Grammar.left (g : Grammar N S) (known : N → Bool) : Nat → N → Bool
  | 0, _ => false
  | n + 1, x => (g.rules x).left known (g.left known n)

/-- The rules among `names` that have an issue, if calls are followed up to depth `n`. -/
def Grammar.issues (g : Grammar N S) (names : List N) (n : Nat) : List N :=
  names.filter fun x => !((g.rules x).loops (g.eats n) && g.left (g.eats n) n x)

/-- An action that always comes back. -/
def Action.Calm : Action S → Prop
  | .nothing => True
  | .apply f => ∀ text st, f text st ≠ .diverge
  | .fresh _ _ f => ∀ text st, f text st ≠ .diverge

/-- The rule comes back on this input, whatever the outcome. -/
def Grammar.Halts (g : Grammar N S) (a : Bool) (e : Exp N) (inp : List Char) (st : S) : Prop :=
  ∃ o, o ≠ .diverge ∧ ∃ n, ∀ m, n ≤ m → g.run m a e inp st = o

/-- All names of grammar.hpp. -/
def Nt.all : List Nt :=
  [.LineComment, .Sep, .Skip, .EndOfWord, .pegIdentifier, .Identifier, .LParen, .RParen, .LtSymbol, .LeSymbol,
   .GtSymbol, .GeSymbol, .KwTrue, .KwFalse, .KwNot, .KwAnd, .KwOr, .KwImplies, .KwIff, .KwXor, .KwAlways,
   .KwEventually, .KwUntil, .KwDefineFormula, .KwAssert, .decimal_seq, .exponent, .DoubleLiteral,
   .IntegerLiteral, .BooleanLiteral, .Numeral, .Constant, .ComparisonSymbol, .PredicateForm1,
   .PredicateForm2, .PredicateForm, .PredicateTerm, .NotTerm, .NaryTail, .BinaryTail, .AndTerm, .OrTerm,
   .ImpliesTerm, .IffTerm, .XorTerm, .AlwaysTerm, .EventuallyTerm, .UntilTerm, .Term, .Assertion,
   .DefineFormula, .Command, .AnyCommand, .StatementList, .SpecificationFile]

end Peg
end Verif
