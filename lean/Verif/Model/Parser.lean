import Verif.Model.Ast
import Mathlib.Algebra.Field.Defs

/-!
# Model of `src/parser/grammar.hpp`, `src/parser/actions.hpp` and `src/parser/parser.cc`

The grammar is a PEG executed by PEGTL.  A rule is a function of the remaining input and the parser
states; it succeeds (with the rest of the input), fails locally (PEGTL then tries the next alternative),
or ends the parse by an exception.  As in PEGTL, the effects of actions are *not* undone when a rule that
was tried fails later.

Simplifications: the input is a list of characters (a byte is the character of that number), the error
texts and positions are not modelled here, and `level` (actions.hpp:40) is left out: it is written for every
`Term` and read only by the assertion of parser.cc:32 about the outermost one, which stays zero.  The stack
overflow that very deep nesting causes is the subject of `Model/PegStack.lean`.  Loops and the recursion of `Term` take fuel; C52 proves
that the length of the input is enough.
-/

namespace Verif

/-! ## Characters and lexical rules (grammar.hpp:13-83) -/

namespace Lex

/-- `peg::ascii::space`: space, `\n`, `\r`, `\t`, `\v`, `\f`. -/
def isSpace (c : Char) : Bool :=
  c == ' ' || c == '\n' || c == '\r' || c == '\t' || c == '\x0b' || c == '\x0c'

/-- `peg::identifier_first`: `[a-zA-Z_]`. -/
def isIdFirst (c : Char) : Bool := c.isAlpha || c == '_'

/-- `peg::identifier_other`: `[a-zA-Z0-9_]`. -/
def isIdOther (c : Char) : Bool := c.isAlphanum || c == '_'

mutual
/-- `Skip`, grammar.hpp:14-19: white space and comments. -/
def skip : List Char → List Char
  | [] => []
  | c :: cs => if isSpace c then skip cs else if c = ';' then skipComment cs else c :: cs
/-- The rest of a `LineComment`, grammar.hpp:14: up to and including the end of line, or up to the end
of the input; then `Skip` again.  (`peg::eolf` also matches `\r\n`, which ends at the same place.) -/
def skipComment : List Char → List Char
  | [] => []
  | c :: cs => if c = '\n' then skip cs else skipComment cs
end

/-- A literal string. -/
def str (s : List Char) (inp : List Char) : Option (List Char) :=
  if s.isPrefixOf inp then some (inp.drop s.length) else none

/-- `EndOfWord`, grammar.hpp:20. -/
def endOfWord : List Char → Option (List Char)
  | [] => some []
  | c :: cs => if isIdOther c then none else some (skip (c :: cs))

/-- `Keyword<Key>`, grammar.hpp:35-36. -/
def keyword (key : String) (inp : List Char) : Option (List Char) :=
  (str key.toList inp).bind endOfWord

/-- `peg::identifier`: text and rest. -/
def ident : List Char → Option (List Char × List Char)
  | [] => none
  | c :: cs => if isIdFirst c then some (c :: cs.takeWhile isIdOther, cs.dropWhile isIdOther) else none

/-- `Symbol<one<c>>`, grammar.hpp:25-28. -/
def sym (c : Char) : List Char → Option (List Char)
  | [] => none
  | d :: cs => if d = c then some (skip cs) else none

/-- `LtSymbol` and `GtSymbol`, grammar.hpp:29,31: `c` not followed by `c` or `=`. -/
def strictSym (c : Char) : List Char → Option (List Char)
  | [] => none
  | d :: cs =>
    if d = c then
      match cs with
      | [] => some []
      | e :: _ => if e = c ∨ e = '=' then none else some (skip cs)
    else none

/-- `LeSymbol` and `GeSymbol`, grammar.hpp:30,32. -/
def weakSym (c : Char) (inp : List Char) : Option (List Char) :=
  (str [c, '='] inp).map skip

/-- `decimal_seq`, grammar.hpp:55: at least one digit; the rest. -/
def decimalSeq : List Char → Option (List Char)
  | [] => none
  | c :: cs => if c.isDigit then some (cs.dropWhile Char.isDigit) else none

/-- `opt<one<'+', '-'>>`. -/
def optSign : List Char → List Char
  | [] => []
  | c :: cs => if c = '+' ∨ c = '-' then cs else c :: cs

/-- `exponent<one<'e', 'E'>>`, grammar.hpp:57-59: after the letter the digits are mandatory
(`if_must`). -/
def exponent : List Char → Outcome (Option (List Char))
  | [] => .ok none
  | c :: cs =>
    if c = 'e' ∨ c = 'E' then
      match decimalSeq (optSign cs) with
      | some rest => .ok (some rest)
      | none => .throw .parseError
    else .ok none

/-- First alternative of `DoubleLiteral`, grammar.hpp:63-67: `d.d` and an optional exponent. -/
def doubleAlt1 (inp : List Char) : Outcome (Option (List Char)) :=
  match decimalSeq inp with
  | some ('.' :: cs) =>
    match decimalSeq cs with
    | some r => do
      match ← exponent r with
      | some r' => return some r'
      | none => return some r
    | none => return none
  | _ => return none

/-- `opt<one<'.'>>`. -/
def optDot : List Char → List Char
  | [] => []
  | c :: cs => if c = '.' then cs else c :: cs

/-- Second alternative of `DoubleLiteral`, grammar.hpp:68-71: digits, an optional point, an exponent. -/
def doubleAlt2 (inp : List Char) : Outcome (Option (List Char)) :=
  match decimalSeq inp with
  | some r => exponent (optDot r)
  | none => return none

/-- `DoubleLiteral`, grammar.hpp:61-72. -/
def doubleLit (inp : List Char) : Outcome (Option (List Char)) := do
  match ← doubleAlt1 inp with
  | some r => return some (skip r)
  | none =>
    match ← doubleAlt2 inp with
    | some r => return some (skip r)
    | none => return none

/-- `IntegerLiteral`, grammar.hpp:73. -/
def integerLit (inp : List Char) : Option (List Char) := (decimalSeq inp).map skip

/-- The matched text, `in.string()`: what is in the input before the rest. -/
def textOf (inp rest : List Char) : List Char := inp.take (inp.length - rest.length)

/-- The value of a digit. -/
def digitVal (c : Char) : Nat := c.toNat - '0'.toNat

/-- The number written by a sequence of digits. -/
def natOf (ds : List Char) : Nat := ds.foldl (fun n c => 10 * n + digitVal c) 0

/-- The fraction at the beginning of a text (its digits, or none), and the rest. -/
def fracOf : List Char → List Char × List Char
  | '.' :: r => (r.takeWhile Char.isDigit, r.dropWhile Char.isDigit)
  | r => ([], r)

/-- The exponent at the beginning of a text: sign and digits, or zero. -/
def expOf : List Char → Bool × Nat
  | [] => (false, 0)
  | c :: cs =>
    if c = 'e' ∨ c = 'E' then
      match cs with
      | '-' :: ds => (true, natOf (ds.takeWhile Char.isDigit))
      | '+' :: ds => (false, natOf (ds.takeWhile Char.isDigit))
      | ds => (false, natOf (ds.takeWhile Char.isDigit))
    else (false, 0)

end Lex

/-- When the C function `strtod` reports a range error for a number that is too small; this is left to
the implementation by the C standard, so it is a parameter. -/
class Strtod (K : Type) where
  underflow : K → Bool

section
variable {K : Type} [Field K]

/-- The decimal number at the beginning of a text: digits, a fraction, an exponent. -/
def decimalValue (text : List Char) : K :=
  let int := text.takeWhile Char.isDigit
  let r := text.dropWhile Char.isDigit
  let (frac, r) := Lex.fracOf r
  let (neg, e) := Lex.expOf r
  let m : K := (Lex.natOf (int ++ frac) : K) / (10 : K) ^ frac.length
  if neg then m / (10 : K) ^ e else m * (10 : K) ^ e

/-- `std::stod`, for a text that begins with a literal of the grammar: the correctly rounded value;
`out_of_range` on overflow, and on underflow if `strtod` reports it. -/
def stod [Arith K] [Strtod K] (text : List Char) : Outcome (D K) :=
  let q : K := decimalValue text
  if (Arith.rnd q : D K).isinf || Strtod.underflow q then .throw .outOfRange else .ok (Arith.rnd q)

/-- `std::stol`, for a text that begins with digits (`long` has 64 bits). -/
def stol (text : List Char) : Outcome Nat :=
  let n := Lex.natOf (text.takeWhile Char.isDigit)
  if n ≤ 2 ^ 63 - 1 then .ok n else .throw .outOfRange

end

/-! ## Parser states (actions.hpp:28-81) -/

/-- `PrimitiveState`, actions.hpp:28. -/
inductive Primitive (K : Type) where
  | bool (b : Bool)
  | long (n : Nat)
  | double (d : D K)

/-- `enum struct PredicateType`, actions.hpp:30. -/
inductive PredicateType where
  | ONE | TWO
  deriving DecidableEq, Repr

/-- `struct ParserState`, actions.hpp:38-74.  The back of a vector is the last element. -/
structure ParserState (K : Type) where
  result : Option (Expr K) := none
  primitive : Option (Primitive K) := none
  identifiers : List String := []
  predicateType : Option PredicateType := none
  comparison : Option ComparisonOp := none
  terms : List (Expr K) := []

/-- `struct GlobalParserState`, actions.hpp:78-81, and `struct Specification`, parser.hpp:21-33: two
maps, as lists of pairs without repeated keys. -/
structure Specification (K : Type) where
  formulas : List (String × Expr K) := []
  assertions : List (String × Expr K) := []

/-- Both states. -/
structure PState (K : Type) where
  g : Specification K := {}
  s : ParserState K := {}

/-- A rule of the grammar with its action. -/
abbrev Rule (K : Type) := List Char → PState K → Outcome (Option (List Char) × PState K)

namespace Rule
variable {K : Type}

/-! ## PEGTL combinators -/

/-- A lexical rule without action. -/
def lex (f : List Char → Option (List Char)) : Rule K := fun inp st => .ok (f inp, st)

/-- `seq<r1, r2>`. -/
def seq (r1 r2 : Rule K) : Rule K := fun inp st => do
  match ← r1 inp st with
  | (some rest, st') => r2 rest st'
  | (none, st') => return (none, st')

/-- `sor<r1, r2>`. -/
def sor (r1 r2 : Rule K) : Rule K := fun inp st => do
  match ← r1 inp st with
  | (some rest, st') => return (some rest, st')
  | (none, st') => r2 inp st'

/-- `must<r>`: a failure becomes a `parse_error` (error_messages.hpp has a text for every rule used in
a `must`). -/
def must (r : Rule K) : Rule K := fun inp st => do
  match ← r inp st with
  | (some rest, st') => return (some rest, st')
  | (none, _) => .throw .parseError

/-- `if_must<c, r>`. -/
def ifMust (c r : Rule K) : Rule K := seq c (must r)

/-- The action `apply0` of a rule, run when it has matched. -/
def act (r : Rule K) (f : PState K → Outcome (PState K)) : Rule K := fun inp st => do
  match ← r inp st with
  | (some rest, st') => do
    let st'' ← f st'
    return (some rest, st'')
  | (none, st') => return (none, st')

/-- `until<c, r>`: `r` until `c` matches. -/
def until_ (c r : Rule K) : Nat → Rule K
  | 0 => fun _ _ => .diverge
  | n + 1 => fun inp st => do
    match ← c inp st with
    | (some rest, st') => return (some rest, st')
    | (none, st') =>
      match ← r inp st' with
      | (some rest, st'') => until_ c r n rest st''
      | (none, st'') => return (none, st'')

/-- `star<r>`. -/
def star (r : Rule K) : Nat → Rule K
  | 0 => fun _ _ => .diverge
  | n + 1 => fun inp st => do
    match ← r inp st with
    | (some rest, st') => star r n rest st'
    | (none, st') => return (some inp, st')

/-- `plus<r>`. -/
def plus (r : Rule K) (n : Nat) : Rule K := seq r (star r n)

/-! ## The rules with their actions -/

/-- `vector::back()`. -/
def back {α : Type} (l : List α) : Outcome α :=
  match l.getLast? with
  | some a => .ok a
  | none => .ub .emptyAccess

section
variable [Field K] [LinearOrder K]

/-- `Identifier`, grammar.hpp:22, with `action<peg::identifier>`, actions.hpp:90-97. -/
def identifier : Rule K := fun inp st =>
  match Lex.ident inp with
  | none => .ok (none, st)
  | some (text, rest) =>
    .ok (Lex.endOfWord rest,
      { st with s := { st.s with identifiers := st.s.identifiers ++ [String.ofList text] } })

/-- Assignment to `primitive_result`. -/
def setPrim (p : Primitive K) (st : PState K) : PState K := { st with s := { st.s with primitive := some p } }

/-- `BooleanLiteral`, grammar.hpp:38-39,74 with actions.hpp:99-124. -/
def booleanLiteral : Rule K :=
  act (sor (act (lex (Lex.keyword "true")) fun st => .ok (setPrim (.bool true) st))
           (act (lex (Lex.keyword "false")) fun st => .ok (setPrim (.bool false) st)))
    fun st =>
      match st.s.primitive with
      | none => .ok st
      | some (.bool b) => .ok { st with s := { st.s with result := some (.Const b), primitive := none } }
      | some _ => .throw .badVariantAccess

/-- `DoubleLiteral` with actions.hpp:135-142. -/
def doubleLiteral [Arith K] [Strtod K] : Rule K := fun inp st => do
  match ← Lex.doubleLit inp with
  | none => return (none, st)
  | some rest => do
    let d ← stod (Lex.textOf inp rest)
    return (some rest, setPrim (.double d) st)

/-- `IntegerLiteral` with actions.hpp:126-133. -/
def integerLiteral : Rule K := fun inp st =>
  match Lex.integerLit inp with
  | none => .ok (none, st)
  | some rest => do
    let n ← stol (Lex.textOf inp rest)
    return (some rest, setPrim (.long n) st)

/-- `Numeral`, grammar.hpp:82. -/
def numeral [Arith K] [Strtod K] : Rule K := sor doubleLiteral integerLiteral

/-- A comparison symbol with its action, actions.hpp:144-170. -/
def cmpSym (f : List Char → Option (List Char)) (op : ComparisonOp) : Rule K :=
  act (lex f) fun st => .ok { st with s := { st.s with comparison := some op } }

/-- `sor<LtSymbol, GtSymbol, LeSymbol, GeSymbol>`, grammar.hpp:99. -/
def comparisonSymbol : Rule K :=
  sor (cmpSym (Lex.strictSym '<') .LT) <| sor (cmpSym (Lex.strictSym '>') .GT) <|
    sor (cmpSym (Lex.weakSym '<') .LE) (cmpSym (Lex.weakSym '>') .GE)

/-- Assignment to `predicate_type`. -/
def setType (t : PredicateType) (st : PState K) : Outcome (PState K) :=
  .ok { st with s := { st.s with predicateType := some t } }

/-- `PredicateForm`, grammar.hpp:95-97 with actions.hpp:172-184. -/
def predicateForm [Arith K] [Strtod K] : Rule K :=
  sor (act (seq identifier numeral) (setType .ONE)) (act (seq numeral identifier) (setType .TWO))

/-- The mirrored comparison, actions.hpp:212-225. -/
def flip : ComparisonOp → ComparisonOp
  | .LT => .GT
  | .LE => .GE
  | .GT => .LT
  | .GE => .LE

/-- `std::optional::value()`. -/
def value {α : Type} : Option α → Outcome α
  | some a => .ok a
  | none => .throw .badOptionalAccess

/-- `action<PredicateTerm>::apply0`, actions.hpp:186-231, statement by statement. -/
def predicateAction [Arith K] (st : PState K) : Outcome (PState K) := do
  let s := st.s
  if s.identifiers.isEmpty then Outcome.throw .logicError
  let id ← back s.identifiers
  let s := { s with identifiers := s.identifiers.dropLast }
  let comparison ← value s.comparison
  let s := { s with comparison := none }
  let constVal ← (do
    match ← value s.primitive with
    | .long n => return Arith.rnd (n : K)
    | .double d => return d
    | .bool _ => .throw .badVariantAccess)
  let s := { s with primitive := none }
  let comparison ← if s.predicateType = some .TWO then (value s.comparison).map' flip else .ok comparison
  let s := { s with predicateType := none }
  return { st with s := { s with result := some (.withOp id comparison constVal) } }

/-- `PredicateTerm`, grammar.hpp:98-99. -/
def predicateTerm [Arith K] [Strtod K] : Rule K :=
  act (ifMust comparisonSymbol predicateForm) predicateAction

/-- Assignment to `result`. -/
def setResult (st : PState K) (terms : List (Expr K)) (e : Expr K) : PState K :=
  { st with s := { st.s with result := some e, terms := terms } }

/-- The actions of `NotTerm` (actions.hpp:233-247), `AlwaysTerm` (333-349) and `EventuallyTerm`
(351-366).  `one` is true for the assertion that there is exactly one term, false for the assertion that
there is at least one. -/
def unaryAction (nd one : Bool) (f : Expr K → Expr K) (st : PState K) : Outcome (PState K) := do
  assert_ nd (if one then st.s.terms.length == 1 else !st.s.terms.isEmpty)
  let e ← back st.s.terms
  let terms := st.s.terms.dropLast
  assert_ nd terms.isEmpty
  return setResult st terms (f e)

/-- The actions of `ImpliesTerm`, `IffTerm`, `XorTerm` (actions.hpp:287-331) and `UntilTerm` (367-380). -/
def binaryAction (nd : Bool) (f : Expr K → Expr K → Outcome (Expr K)) (st : PState K) :
    Outcome (PState K) := do
  assert_ nd (st.s.terms.length == 2)
  let rhs ← back st.s.terms
  let terms := st.s.terms.dropLast
  let lhs ← back terms
  let terms := terms.dropLast
  let e ← f lhs rhs
  assert_ nd terms.isEmpty
  return setResult st terms e

/-- The actions of `AndTerm` and `OrTerm`, actions.hpp:249-285. -/
def naryAction (nd : Bool) (f : List (Expr K) → Outcome (Expr K)) (st : PState K) :
    Outcome (PState K) := do
  if st.s.terms.length < 2 then Outcome.throw .parseError
  assert_ nd (decide (2 ≤ st.s.terms.length))
  let e ← f st.s.terms
  return setResult st [] e

/-- A keyword. -/
def kw (key : String) : Rule K := lex (Lex.keyword key)

/-- `Expression`, grammar.hpp:147-158, for a given rule for `Term`. -/
def expression [Arith K] [Strtod K] (nd : Bool) (fuel : Nat) (term : Rule K) : Rule K :=
  sor predicateTerm <|
  sor (act (ifMust (kw "not") term) (unaryAction nd false Expr.Not)) <|
  sor (act (ifMust (kw "and") (plus term fuel)) (naryAction nd Expr.And)) <|
  sor (act (ifMust (kw "or") (plus term fuel)) (naryAction nd Expr.Or)) <|
  sor (act (ifMust (kw "implies") (seq term term)) (binaryAction nd Expr.Implies)) <|
  sor (act (ifMust (kw "iff") (seq term term)) (binaryAction nd Expr.Iff)) <|
  sor (act (ifMust (kw "xor") (seq term term)) (binaryAction nd Expr.Xor)) <|
  sor (act (ifMust (kw "always") term) (unaryAction nd true Expr.Always)) <|
  sor (act (ifMust (kw "eventually") term) (unaryAction nd true Expr.Eventually)) <|
  sor (act (ifMust (kw "until") (seq (must term) (must term)))
    (binaryAction nd fun a b => .ok (Expr.Until a b)))
  term

/-- `map::at`. -/
def lookup (m : List (String × Expr K)) (id : String) : Outcome (Expr K) :=
  match m.find? (fun e => e.1 == id) with
  | some e => .ok e.2
  | none => .throw .outOfRange

/-- `action<Term>::apply0`, actions.hpp:418-448. -/
def termAction (st : PState K) : Outcome (PState K) := do
  match st.s.result with
  | some e => return { st with s := { st.s with terms := st.s.terms ++ [e], result := none } }
  | none =>
    match st.s.identifiers.getLast? with
    | some id => do
      let e ← lookup st.g.formulas id
      return { st with s := { st.s with terms := st.s.terms ++ [e], identifiers := st.s.identifiers.dropLast } }
    | none => .throw .logicError

/-- `action<Term>::match`, actions.hpp:384-416: the rule runs on a new local state, whose terms are then
appended to those of the old state. -/
def onNewState (r : Rule K) : Rule K := fun inp st => do
  let (rest, st') ← r inp { g := st.g }
  return (rest, { g := st'.g, s := { st.s with terms := st.s.terms ++ st'.s.terms } })

/-- `Term`, grammar.hpp:160-161. -/
def term [Arith K] [Strtod K] (nd : Bool) : Nat → Rule K
  | 0 => fun _ _ => .diverge
  | n + 1 =>
    onNewState <| act
      (sor (ifMust (lex (Lex.sym '(')) (until_ (lex (Lex.sym ')')) (expression nd n (term nd n)) n)) <|
        sor booleanLiteral identifier)
      termAction

/-- `std::map::insert`; false if the key exists already. -/
def insert (m : List (String × Expr K)) (id : String) (e : Expr K) : List (String × Expr K) × Bool :=
  if m.any (fun p => p.1 == id) then (m, false) else (m ++ [(id, e)], true)

/-- The actions of `Assertion` and `DefineFormula`, actions.hpp:451-503, except for the insertion. -/
def commandAction (nd : Bool) (ins : Specification K → String → Expr K → Specification K × Bool)
    (st : PState K) : Outcome (PState K) := do
  assert_ nd (st.s.terms.length == 1)
  assert_ nd (!st.s.identifiers.isEmpty)
  let id ← back st.s.identifiers
  let e ← back st.s.terms
  let terms := st.s.terms.dropLast
  let (g, check) := ins st.g id e
  if !check then Outcome.throw .parseError
  assert_ nd terms.isEmpty
  return { g := g, s := { st.s with identifiers := st.s.identifiers.dropLast, terms := terms } }

/-- Insertion into the map of assertions, actions.hpp:467. -/
def insertAssertion (g : Specification K) (id : String) (e : Expr K) : Specification K × Bool :=
  let (m, b) := insert g.assertions id e
  ({ g with assertions := m }, b)

/-- Insertion into the map of formulas, actions.hpp:494. -/
def insertFormula (g : Specification K) (id : String) (e : Expr K) : Specification K × Bool :=
  let (m, b) := insert g.formulas id e
  ({ g with formulas := m }, b)

/-- `Assertion`, grammar.hpp:163. -/
def assertion [Arith K] [Strtod K] (nd : Bool) (fuel : Nat) : Rule K :=
  act (ifMust (kw "assert") (seq (must identifier) (must (term nd fuel)))) (commandAction nd insertAssertion)

/-- `DefineFormula`, grammar.hpp:164. -/
def defineFormula [Arith K] [Strtod K] (nd : Bool) (fuel : Nat) : Rule K :=
  act (ifMust (kw "define-formula") (seq (must identifier) (must (term nd fuel))))
    (commandAction nd insertFormula)

/-- `AnyCommand`, grammar.hpp:181-193. -/
def anyCommand [Arith K] [Strtod K] (nd : Bool) (fuel : Nat) : Rule K :=
  ifMust (lex (Lex.sym '('))
    (until_ (lex (Lex.sym ')')) (must (sor (assertion nd fuel) (defineFormula nd fuel))) fuel)

/-- `peg::eof`. -/
def eof : Rule K := lex fun inp => if inp.isEmpty then some [] else none

/-- `SpecificationFile`, grammar.hpp:195-200. -/
def specificationFile [Arith K] [Strtod K] (nd : Bool) (fuel : Nat) : Rule K :=
  must <| seq (lex fun inp => some (Lex.skip inp))
    (until_ eof (seq (anyCommand nd fuel) (lex fun inp => some (Lex.skip inp))) fuel)

end
end Rule

/-- `from_string(input)`, parser.cc:21-50. -/
def fromString {K : Type} [Field K] [LinearOrder K] [Arith K] [Strtod K] (nd : Bool) (fuel : Nat)
    (input : List Char) : Outcome (Specification K) := do
  match ← Rule.specificationFile nd fuel input {} with
  | (some _, st) => return st.g
  | (none, _) => .throw .logicError

end Verif
