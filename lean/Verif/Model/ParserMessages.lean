import Verif.Model.Parser

/-!
# The messages of parse errors: model of `src/parser/error_messages.hpp`

The rules of `Model/Parser.lean` once more, with the message of a `parse_error` and two places in the text: where the
rule began that had to match, and where the parser stood when it gave up.  `Props/ParserMessages.lean` proves that the
results are otherwise the same.

The places are lists of characters (what is left of the text).  PEGTL reports the second of them (as line and column,
see `Model/Position.lean`); it is where the rule that failed left the input.  A rule that fails goes back to its beginning if another
alternative is tried after it or if it has an action that is given the input; otherwise (inside `must`) the input stays
where the last alternative failed.
-/

namespace Verif

/-- The messages: `error_message`, error_messages.hpp:22-63, and those of the actions, actions.hpp:252-257, 271-276,
468-471, 495-498. -/
inductive Msg where
  | skip
  | identifier
  | exponent
  | predicateForm
  | naryTail
  | binaryTail
  | termTail
  | term
  | allowedCommands
  | anyCommandTail
  | statementList
  | tooFew (n : Nat)
  | assertionAgain (id : String)
  | formulaAgain (id : String)
  deriving DecidableEq

/-- The text of a message. -/
def Msg.text : Msg → String
  | skip => "expected whitespace or comment"
  | identifier => "expected an identifier"
  | exponent => "expected some (signed) number after exponent"
  | predicateForm => "expected an identifier followed by a numeral or vice-versa"
  | naryTail => "expected a list of at least 2 Terms"
  | binaryTail => "expected a list of at exactly 2 Terms"
  | termTail => "expected an expression followed by a closing parenthesis ')'"
  | term => "expected a Term"
  | allowedCommands => "top-level command does not match list of known commands"
  | anyCommandTail => "expected (<command> ...). Maybe you have an unclosed S-expression command."
  | statementList => "invalid top-level item"
  | tooFew n => "expected at least 2 terms, got " ++ toString n
  | assertionAgain id => "possible redefinition of Assertion with id: \"" ++ id ++ "\""
  | formulaAgain id => "possible redefinition of Formula with id: \"" ++ id ++ "\""

/-- A parse error with its message and places, or an outcome of another kind. -/
inductive Said (α : Type) where
  | error (m : Msg) (start place : List Char)
  | does (o : Outcome α)

namespace Said
variable {α β : Type}

/-- Without the message. -/
def forget : Said α → Outcome α
  | error _ _ _ => .throw .parseError
  | does o => o

/-- One thing after another. -/
def bind : Said α → (α → Said β) → Said β
  | error m s p, _ => error m s p
  | does (.ok a), f => f a
  | does (.throw e), _ => does (.throw e)
  | does .abort, _ => does .abort
  | does (.ub u), _ => does (.ub u)
  | does .diverge, _ => does .diverge

instance : Monad Said where
  pure a := does (.ok a)
  bind := bind

end Said

namespace Lex

/-- `Lex.exponent`, grammar.hpp:57-59: the rule that must match is the one after the letter. -/
def exponentM : List Char → Said (Option (List Char))
  | [] => .does (.ok none)
  | c :: cs =>
    if c = 'e' ∨ c = 'E' then
      match decimalSeq (optSign cs) with
      | some rest => .does (.ok (some rest))
      | none => .error .exponent cs (optSign cs)
    else .does (.ok none)

/-- `Lex.doubleAlt1`, grammar.hpp:63-67. -/
def doubleAlt1M (inp : List Char) : Said (Option (List Char)) :=
  match decimalSeq inp with
  | some ('.' :: cs) =>
    match decimalSeq cs with
    | some r => (exponentM r).bind fun o => .does (.ok (some (o.getD r)))
    | none => .does (.ok none)
  | _ => .does (.ok none)

/-- `Lex.doubleAlt2`, grammar.hpp:68-71. -/
def doubleAlt2M (inp : List Char) : Said (Option (List Char)) :=
  match decimalSeq inp with
  | some r => exponentM (optDot r)
  | none => .does (.ok none)

/-- `Lex.doubleLit`, grammar.hpp:61-72. -/
def doubleLitM (inp : List Char) : Said (Option (List Char)) :=
  (doubleAlt1M inp).bind fun
    | some r => .does (.ok (some (skip r)))
    | none => (doubleAlt2M inp).bind fun o => .does (.ok (o.map skip))

end Lex

/-- A rule with its action: it matches (`ok`, with the rest of the input) or fails locally (`error`, with the place
where it failed). -/
abbrev RuleM (K : Type) := List Char → PState K → Said (Except (List Char) (List Char) × PState K)

namespace RuleM
variable {K : Type}

/-- `Rule.lex`. -/
def lex (f : List Char → Option (List Char)) : RuleM K := fun inp st =>
  match f inp with
  | some rest => .does (.ok (.ok rest, st))
  | none => .does (.ok (.error inp, st))

/-- `Rule.seq`: stays where the part failed. -/
def seq (r1 r2 : RuleM K) : RuleM K := fun inp st =>
  (r1 inp st).bind fun
    | (.ok rest, st') => r2 rest st'
    | (.error p, st') => .does (.ok (.error p, st'))

/-- `Rule.sor`: stays where the last alternative failed. -/
def sor (r1 r2 : RuleM K) : RuleM K := fun inp st =>
  (r1 inp st).bind fun
    | (.ok rest, st') => .does (.ok (.ok rest, st'))
    | (.error _, st') => r2 inp st'

/-- `Rule.must`, with the message of the rule. -/
def must (m : Msg) (r : RuleM K) : RuleM K := fun inp st =>
  (r inp st).bind fun
    | (.ok rest, st') => .does (.ok (.ok rest, st'))
    | (.error p, _) => .error m inp p

/-- `Rule.ifMust`. -/
def ifMust (m : Msg) (c r : RuleM K) : RuleM K := seq c (must m r)

/-- `Rule.act`. -/
def act (r : RuleM K) (f : PState K → Outcome (PState K)) : RuleM K := fun inp st =>
  (r inp st).bind fun
    | (.ok rest, st') => (Said.does (f st')).bind fun st'' => .does (.ok (.ok rest, st''))
    | (.error p, st') => .does (.ok (.error p, st'))

/-- An action that is given the input: the rule goes back to its beginning if it fails. -/
def actIn (r : RuleM K) (f : List Char → PState K → Said (PState K)) : RuleM K := fun inp st =>
  (r inp st).bind fun
    | (.ok rest, st') => (f inp st').bind fun st'' => .does (.ok (.ok rest, st''))
    | (.error _, st') => .does (.ok (.error inp, st'))

/-- `Rule.until_`. -/
def until_ (c r : RuleM K) : Nat → RuleM K
  | 0 => fun _ _ => .does .diverge
  | n + 1 => fun inp st =>
    (c inp st).bind fun
      | (.ok rest, st') => .does (.ok (.ok rest, st'))
      | (.error _, st') => (r inp st').bind fun
        | (.ok rest, st'') => until_ c r n rest st''
        | (.error p, st'') => .does (.ok (.error p, st''))

/-- `Rule.star`: goes back to the end of the last match. -/
def star (r : RuleM K) : Nat → RuleM K
  | 0 => fun _ _ => .does .diverge
  | n + 1 => fun inp st =>
    (r inp st).bind fun
      | (.ok rest, st') => star r n rest st'
      | (.error _, st') => .does (.ok (.ok inp, st'))

/-- `Rule.plus`. -/
def plus (r : RuleM K) (n : Nat) : RuleM K := seq r (star r n)

section
variable [Field K] [LinearOrder K]

/-- `Rule.identifier`, grammar.hpp:22 and actions.hpp:90-97. -/
def identifier : RuleM K := fun inp st =>
  match Lex.ident inp with
  | none => .does (.ok (.error inp, st))
  | some (text, rest) =>
    let st' := { st with s := { st.s with identifiers := st.s.identifiers ++ [String.ofList text] } }
    match Lex.endOfWord rest with
    | some r => .does (.ok (.ok r, st'))
    | none => .does (.ok (.error rest, st'))

/-- `Rule.booleanLiteral`. -/
def booleanLiteral : RuleM K :=
  act (sor (act (lex (Lex.keyword "true")) fun st => .ok (Rule.setPrim (.bool true) st))
           (act (lex (Lex.keyword "false")) fun st => .ok (Rule.setPrim (.bool false) st)))
    fun st =>
      match st.s.primitive with
      | none => .ok st
      | some (.bool b) => .ok { st with s := { st.s with result := some (.Const b), primitive := none } }
      | some _ => .throw .badVariantAccess

/-- `Rule.doubleLiteral`. -/
def doubleLiteral [Arith K] [Strtod K] : RuleM K := fun inp st =>
  (Lex.doubleLitM inp).bind fun
    | none => .does (.ok (.error inp, st))
    | some rest => (Said.does (stod (Lex.textOf inp rest))).bind fun d =>
      .does (.ok (.ok rest, Rule.setPrim (.double d) st))

/-- `Rule.integerLiteral`. -/
def integerLiteral : RuleM K := fun inp st =>
  match Lex.integerLit inp with
  | none => .does (.ok (.error inp, st))
  | some rest => (Said.does (stol (Lex.textOf inp rest))).bind fun n =>
      .does (.ok (.ok rest, Rule.setPrim (.long n) st))

/-- `Rule.numeral`. -/
def numeral [Arith K] [Strtod K] : RuleM K := sor doubleLiteral integerLiteral

/-- `Rule.cmpSym`. -/
def cmpSym (f : List Char → Option (List Char)) (op : ComparisonOp) : RuleM K :=
  act (lex f) fun st => .ok { st with s := { st.s with comparison := some op } }

/-- `Rule.comparisonSymbol`. -/
def comparisonSymbol : RuleM K :=
  sor (cmpSym (Lex.strictSym '<') .LT) <| sor (cmpSym (Lex.strictSym '>') .GT) <|
    sor (cmpSym (Lex.weakSym '<') .LE) (cmpSym (Lex.weakSym '>') .GE)

/-- `Rule.predicateForm`. -/
def predicateForm [Arith K] [Strtod K] : RuleM K :=
  sor (act (seq identifier numeral) (Rule.setType .ONE)) (act (seq numeral identifier) (Rule.setType .TWO))

/-- `Rule.predicateTerm`; `error_message<PredicateForm>`, error_messages.hpp:36-38. -/
def predicateTerm [Arith K] [Strtod K] : RuleM K :=
  act (ifMust .predicateForm comparisonSymbol predicateForm) Rule.predicateAction

/-- `Rule.kw`. -/
def kw (key : String) : RuleM K := lex (Lex.keyword key)

/-- `Rule.naryAction` with the message of actions.hpp:252-257 and 271-276. -/
def naryAction (nd : Bool) (f : List (Expr K) → Outcome (Expr K)) (inp : List Char) (st : PState K) :
    Said (PState K) :=
  if st.s.terms.length < 2 then .error (.tooFew st.s.terms.length) inp inp else .does (Rule.naryAction nd f st)

/-- `Rule.expression`; the messages are those of the rules after `if_must`. -/
def expression [Arith K] [Strtod K] (nd : Bool) (fuel : Nat) (term : RuleM K) : RuleM K :=
  sor predicateTerm <|
  sor (act (ifMust .term (kw "not") term) (Rule.unaryAction nd false Expr.Not)) <|
  sor (actIn (ifMust .naryTail (kw "and") (plus term fuel)) (naryAction nd Expr.And)) <|
  sor (actIn (ifMust .naryTail (kw "or") (plus term fuel)) (naryAction nd Expr.Or)) <|
  sor (act (ifMust .binaryTail (kw "implies") (seq term term)) (Rule.binaryAction nd Expr.Implies)) <|
  sor (act (ifMust .binaryTail (kw "iff") (seq term term)) (Rule.binaryAction nd Expr.Iff)) <|
  sor (act (ifMust .binaryTail (kw "xor") (seq term term)) (Rule.binaryAction nd Expr.Xor)) <|
  sor (act (ifMust .term (kw "always") term) (Rule.unaryAction nd true Expr.Always)) <|
  sor (act (ifMust .term (kw "eventually") term) (Rule.unaryAction nd true Expr.Eventually)) <|
  sor (act (seq (kw "until") (seq (must .term term) (must .term term)))
    (Rule.binaryAction nd fun a b => .ok (Expr.Until a b)))
  term

/-- `Rule.onNewState`. -/
def onNewState (r : RuleM K) : RuleM K := fun inp st =>
  (r inp { g := st.g }).bind fun p =>
    .does (.ok (p.1, { g := p.2.g, s := { st.s with terms := st.s.terms ++ p.2.s.terms } }))

/-- `Rule.term`. -/
def term [Arith K] [Strtod K] (nd : Bool) : Nat → RuleM K
  | 0 => fun _ _ => .does .diverge
  | n + 1 =>
    onNewState <| act
      (sor (ifMust .termTail (lex (Lex.sym '('))
          (until_ (lex (Lex.sym ')')) (expression nd n (term nd n)) n)) <|
        sor booleanLiteral identifier)
      Rule.termAction

/-- `Rule.commandAction` with the messages of actions.hpp:468-471 and 495-498. -/
def commandAction (nd : Bool) (ins : Specification K → String → Expr K → Specification K × Bool)
    (again : String → Msg) (inp : List Char) (st : PState K) : Said (PState K) :=
  (Said.does (assert_ nd (st.s.terms.length == 1))).bind fun _ =>
  (Said.does (assert_ nd (!st.s.identifiers.isEmpty))).bind fun _ =>
  (Said.does (Rule.back st.s.identifiers)).bind fun id =>
  (Said.does (Rule.back st.s.terms)).bind fun e =>
  let terms := st.s.terms.dropLast
  match ins st.g id e with
  | (_, false) => .error (again id) inp inp
  | (g, true) => (Said.does (assert_ nd terms.isEmpty)).bind fun _ =>
    .does (.ok { g := g, s := { st.s with identifiers := st.s.identifiers.dropLast, terms := terms } })

/-- A name and a term, both mandatory: the arguments of a command, grammar.hpp:163-164. -/
def arguments [Arith K] [Strtod K] (nd : Bool) (fuel : Nat) : RuleM K :=
  seq (must .identifier identifier) (must .term (term nd fuel))

/-- `Rule.assertion`. -/
def assertion [Arith K] [Strtod K] (nd : Bool) (fuel : Nat) : RuleM K :=
  actIn (seq (kw "assert") (arguments nd fuel)) (commandAction nd Rule.insertAssertion .assertionAgain)

/-- `Rule.defineFormula`. -/
def defineFormula [Arith K] [Strtod K] (nd : Bool) (fuel : Nat) : RuleM K :=
  actIn (seq (kw "define-formula") (arguments nd fuel)) (commandAction nd Rule.insertFormula .formulaAgain)

/-- `Rule.anyCommand`. -/
def anyCommand [Arith K] [Strtod K] (nd : Bool) (fuel : Nat) : RuleM K :=
  ifMust .anyCommandTail (lex (Lex.sym '('))
    (until_ (lex (Lex.sym ')')) (must .allowedCommands (sor (assertion nd fuel) (defineFormula nd fuel))) fuel)

/-- `Rule.eof`. -/
def eof : RuleM K := lex fun inp => if inp.isEmpty then some [] else none

/-- `Rule.specificationFile`. -/
def specificationFile [Arith K] [Strtod K] (nd : Bool) (fuel : Nat) : RuleM K :=
  must .statementList <| seq (lex fun inp => some (Lex.skip inp))
    (until_ eof (seq (anyCommand nd fuel) (lex fun inp => some (Lex.skip inp))) fuel)

end
end RuleM

/-- `from_string(input)`, parser.cc:21-50, with the message of a parse error. -/
def fromStringM {K : Type} [Field K] [LinearOrder K] [Arith K] [Strtod K] (nd : Bool) (fuel : Nat)
    (input : List Char) : Said (Specification K) :=
  (RuleM.specificationFile nd fuel input {}).bind fun
    | (.ok _, st) => .does (.ok st.g)
    | (.error _, _) => .does (.throw .logicError)

end Verif
