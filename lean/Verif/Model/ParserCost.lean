import Verif.Model.Parser

/-!
# Counting the characters examined by the parser

The rules of `Model/Parser.lean` once more, returning in addition how many characters they examine (an
examination of the end of the input counts as well, and so do the characters read by `std::stod` and
`std::stol`).  `Props/ParserCost.lean` proves that the results are the same.  Not counted: the actions, which
append to vectors, copy shared pointers and search the maps.
-/

namespace Verif

namespace Lex

mutual
/-- `Lex.skip`, grammar.hpp:14-19. -/
def skipC : List Char → List Char × Nat
  | [] => ([], 1)
  | c :: cs =>
    if isSpace c then ((skipC cs).1, (skipC cs).2 + 1)
    else if c = ';' then ((skipCommentC cs).1, (skipCommentC cs).2 + 1)
    else (c :: cs, 1)
/-- `Lex.skipComment`, grammar.hpp:14. -/
def skipCommentC : List Char → List Char × Nat
  | [] => ([], 1)
  | c :: cs =>
    if c = '\n' then ((skipC cs).1, (skipC cs).2 + 1) else ((skipCommentC cs).1, (skipCommentC cs).2 + 1)
end

/-- `Lex.str`: a literal string, compared character by character. -/
def strC : List Char → List Char → Option (List Char) × Nat
  | [], inp => (some inp, 0)
  | _ :: _, [] => (none, 1)
  | k :: ks, c :: cs => if k == c then ((strC ks cs).1, (strC ks cs).2 + 1) else (none, 1)

/-- `Lex.endOfWord`, grammar.hpp:20. -/
def endOfWordC : List Char → Option (List Char) × Nat
  | [] => (some [], 1)
  | c :: cs => if isIdOther c then (none, 1) else (some (skipC (c :: cs)).1, (skipC (c :: cs)).2 + 1)

/-- `Lex.keyword`, grammar.hpp:35-36. -/
def keywordC (key : String) (inp : List Char) : Option (List Char) × Nat :=
  match strC key.toList inp with
  | (some r, n) => ((endOfWordC r).1, (endOfWordC r).2 + n)
  | (none, n) => (none, n)

/-- The longest prefix of characters with a property, and the rest. -/
def spanC (p : Char → Bool) : List Char → (List Char × List Char) × Nat
  | [] => (([], []), 1)
  | c :: cs => if p c then ((c :: (spanC p cs).1.1, (spanC p cs).1.2), (spanC p cs).2 + 1) else (([], c :: cs), 1)

/-- `Lex.ident`: `peg::identifier`. -/
def identC : List Char → Option (List Char × List Char) × Nat
  | [] => (none, 1)
  | c :: cs =>
    if isIdFirst c then (some (c :: (spanC isIdOther cs).1.1, (spanC isIdOther cs).1.2), (spanC isIdOther cs).2 + 1)
    else (none, 1)

/-- `Lex.sym`, grammar.hpp:25-28. -/
def symC (c : Char) : List Char → Option (List Char) × Nat
  | [] => (none, 1)
  | d :: cs => if d = c then (some (skipC cs).1, (skipC cs).2 + 1) else (none, 1)

/-- `Lex.strictSym`, grammar.hpp:29,31. -/
def strictSymC (c : Char) : List Char → Option (List Char) × Nat
  | [] => (none, 1)
  | d :: cs =>
    if d = c then
      match cs with
      | [] => (some [], 2)
      | e :: _ => if e = c ∨ e = '=' then (none, 2) else (some (skipC cs).1, (skipC cs).2 + 2)
    else (none, 1)

/-- `Lex.weakSym`, grammar.hpp:30,32. -/
def weakSymC (c : Char) (inp : List Char) : Option (List Char) × Nat :=
  match strC [c, '='] inp with
  | (some r, n) => (some (skipC r).1, (skipC r).2 + n)
  | (none, n) => (none, n)

/-- `Lex.decimalSeq`, grammar.hpp:55. -/
def decimalSeqC : List Char → Option (List Char) × Nat
  | [] => (none, 1)
  | c :: cs => if c.isDigit then (some (spanC Char.isDigit cs).1.2, (spanC Char.isDigit cs).2 + 1) else (none, 1)

/-- `Lex.exponent`, grammar.hpp:57-59; one more for the optional sign. -/
def exponentC : List Char → Outcome (Option (List Char)) × Nat
  | [] => (.ok none, 1)
  | c :: cs =>
    if c = 'e' ∨ c = 'E' then
      match decimalSeqC (optSign cs) with
      | (some rest, n) => (.ok (some rest), n + 2)
      | (none, n) => (.throw .parseError, n + 2)
    else (.ok none, 1)

/-- `Lex.doubleAlt1`, grammar.hpp:63-67. -/
def doubleAlt1C (inp : List Char) : Outcome (Option (List Char)) × Nat :=
  match decimalSeqC inp with
  | (some (c :: cs), n) =>
    if c = '.' then
      match decimalSeqC cs with
      | (some r, m) =>
        match exponentC r with
        | (.ok (some r'), k) => (.ok (some r'), n + 1 + m + k)
        | (.ok none, k) => (.ok (some r), n + 1 + m + k)
        | (o, k) => (o, n + 1 + m + k)
      | (none, m) => (.ok none, n + 1 + m)
    else (.ok none, n + 1)
  | (_, n) => (.ok none, n + 1)

/-- `Lex.doubleAlt2`, grammar.hpp:68-71; one more for the optional point. -/
def doubleAlt2C (inp : List Char) : Outcome (Option (List Char)) × Nat :=
  match decimalSeqC inp with
  | (some r, n) => ((exponentC (optDot r)).1, (exponentC (optDot r)).2 + n + 1)
  | (none, n) => (.ok none, n)

/-- `Lex.doubleLit`, grammar.hpp:61-72. -/
def doubleLitC (inp : List Char) : Outcome (Option (List Char)) × Nat :=
  match doubleAlt1C inp with
  | (.ok (some r), n) => (.ok (some (skipC r).1), n + (skipC r).2)
  | (.ok none, n) =>
    match doubleAlt2C inp with
    | (.ok (some r), m) => (.ok (some (skipC r).1), n + m + (skipC r).2)
    | (.ok none, m) => (.ok none, n + m)
    | (o, m) => (o, n + m)
  | (o, n) => (o, n)

/-- `Lex.integerLit`, grammar.hpp:73. -/
def integerLitC (inp : List Char) : Option (List Char) × Nat :=
  match decimalSeqC inp with
  | (some r, n) => (some (skipC r).1, (skipC r).2 + n)
  | (none, n) => (none, n)

end Lex

/-- A rule that also returns the number of characters examined. -/
abbrev RuleC (K : Type) := List Char → PState K → Outcome (Option (List Char) × PState K) × Nat

namespace RuleC
variable {K : Type}

/-- `Rule.lex`. -/
def lex (f : List Char → Option (List Char) × Nat) : RuleC K := fun inp st => (.ok ((f inp).1, st), (f inp).2)

/-- `seq<r1, r2>`. -/
def seq (r1 r2 : RuleC K) : RuleC K := fun inp st =>
  match r1 inp st with
  | (.ok (some rest, st'), n) => ((r2 rest st').1, n + (r2 rest st').2)
  | (o, n) => (o, n)

/-- `sor<r1, r2>`. -/
def sor (r1 r2 : RuleC K) : RuleC K := fun inp st =>
  match r1 inp st with
  | (.ok (none, st'), n) => ((r2 inp st').1, n + (r2 inp st').2)
  | (o, n) => (o, n)

/-- `must<r>`. -/
def must (r : RuleC K) : RuleC K := fun inp st =>
  match r inp st with
  | (.ok (none, _), n) => (.throw .parseError, n)
  | (o, n) => (o, n)

/-- `if_must<c, r>`. -/
def ifMust (c r : RuleC K) : RuleC K := seq c (must r)

/-- The action of a rule (not counted). -/
def act (r : RuleC K) (f : PState K → Outcome (PState K)) : RuleC K := fun inp st =>
  match r inp st with
  | (.ok (some rest, st'), n) => ((f st').bind fun st'' => .ok (some rest, st''), n)
  | (o, n) => (o, n)

/-- `until<c, r>`. -/
def until_ (c r : RuleC K) : Nat → RuleC K
  | 0 => fun _ _ => (.diverge, 0)
  | n + 1 => sor c (seq r (until_ c r n))

/-- `star<r>`. -/
def star (r : RuleC K) : Nat → RuleC K
  | 0 => fun _ _ => (.diverge, 0)
  | n + 1 => fun inp st =>
    match r inp st with
    | (.ok (some rest, st'), m) => ((star r n rest st').1, m + (star r n rest st').2)
    | (.ok (none, st'), m) => (.ok (some inp, st'), m)
    | (o, m) => (o, m)

/-- `plus<r>`. -/
def plus (r : RuleC K) (n : Nat) : RuleC K := seq r (star r n)

section
variable [Field K] [LinearOrder K]

/-- `Rule.identifier`. -/
def identifier : RuleC K := fun inp st =>
  match Lex.identC inp with
  | (none, n) => (.ok (none, st), n)
  | (some (text, rest), n) =>
    (.ok ((Lex.endOfWordC rest).1,
      { st with s := { st.s with identifiers := st.s.identifiers ++ [String.ofList text] } }),
     n + (Lex.endOfWordC rest).2)

/-- `Rule.booleanLiteral`. -/
def booleanLiteral : RuleC K :=
  act (sor (act (lex (Lex.keywordC "true")) fun st => .ok (Rule.setPrim (.bool true) st))
           (act (lex (Lex.keywordC "false")) fun st => .ok (Rule.setPrim (.bool false) st)))
    fun st =>
      match st.s.primitive with
      | none => .ok st
      | some (.bool b) => .ok { st with s := { st.s with result := some (.Const b), primitive := none } }
      | some _ => .throw .badVariantAccess

/-- `Rule.doubleLiteral`; `std::stod` reads the text once more. -/
def doubleLiteral [Arith K] [Strtod K] : RuleC K := fun inp st =>
  match Lex.doubleLitC inp with
  | (.ok none, n) => (.ok (none, st), n)
  | (.ok (some rest), n) =>
    ((stod (Lex.textOf inp rest)).bind fun d => .ok (some rest, Rule.setPrim (.double d) st),
      n + (Lex.textOf inp rest).length)
  | (.throw e, n) => (.throw e, n)
  | (.abort, n) => (.abort, n)
  | (.ub u, n) => (.ub u, n)
  | (.diverge, n) => (.diverge, n)

/-- `Rule.integerLiteral`; `std::stol` reads the text once more. -/
def integerLiteral : RuleC K := fun inp st =>
  match Lex.integerLitC inp with
  | (none, n) => (.ok (none, st), n)
  | (some rest, n) =>
    ((stol (Lex.textOf inp rest)).bind fun d => .ok (some rest, Rule.setPrim (.long d) st),
      n + (Lex.textOf inp rest).length)

/-- `Rule.numeral`. -/
def numeral [Arith K] [Strtod K] : RuleC K := sor doubleLiteral integerLiteral

/-- `Rule.cmpSym`. -/
def cmpSym (f : List Char → Option (List Char) × Nat) (op : ComparisonOp) : RuleC K :=
  act (lex f) fun st => .ok { st with s := { st.s with comparison := some op } }

/-- `Rule.comparisonSymbol`. -/
def comparisonSymbol : RuleC K :=
  sor (cmpSym (Lex.strictSymC '<') .LT) <| sor (cmpSym (Lex.strictSymC '>') .GT) <|
    sor (cmpSym (Lex.weakSymC '<') .LE) (cmpSym (Lex.weakSymC '>') .GE)

/-- `Rule.predicateForm`. -/
def predicateForm [Arith K] [Strtod K] : RuleC K :=
  sor (act (seq identifier numeral) (Rule.setType .ONE)) (act (seq numeral identifier) (Rule.setType .TWO))

/-- `Rule.predicateTerm`. -/
def predicateTerm [Arith K] [Strtod K] : RuleC K :=
  act (ifMust comparisonSymbol predicateForm) Rule.predicateAction

/-- `Rule.kw`. -/
def kw (key : String) : RuleC K := lex (Lex.keywordC key)

/-- `Rule.expression`, grammar.hpp:147-158. -/
def expression [Arith K] [Strtod K] (nd : Bool) (fuel : Nat) (term : RuleC K) : RuleC K :=
  sor predicateTerm <|
  sor (act (ifMust (kw "not") term) (Rule.unaryAction nd false Expr.Not)) <|
  sor (act (ifMust (kw "and") (plus term fuel)) (Rule.naryAction nd Expr.And)) <|
  sor (act (ifMust (kw "or") (plus term fuel)) (Rule.naryAction nd Expr.Or)) <|
  sor (act (ifMust (kw "implies") (seq term term)) (Rule.binaryAction nd Expr.Implies)) <|
  sor (act (ifMust (kw "iff") (seq term term)) (Rule.binaryAction nd Expr.Iff)) <|
  sor (act (ifMust (kw "xor") (seq term term)) (Rule.binaryAction nd Expr.Xor)) <|
  sor (act (ifMust (kw "always") term) (Rule.unaryAction nd true Expr.Always)) <|
  sor (act (ifMust (kw "eventually") term) (Rule.unaryAction nd true Expr.Eventually)) <|
  sor (act (ifMust (kw "until") (seq (must term) (must term)))
    (Rule.binaryAction nd fun a b => .ok (Expr.Until a b)))
  term

/-- `Rule.onNewState`, actions.hpp:384-416. -/
def onNewState (r : RuleC K) : RuleC K := fun inp st =>
  ((r inp { g := st.g }).1.bind fun p =>
    .ok (p.1, { g := p.2.g, s := { st.s with terms := st.s.terms ++ p.2.s.terms } }), (r inp { g := st.g }).2)

/-- `Rule.term`, grammar.hpp:160-161. -/
def term [Arith K] [Strtod K] (nd : Bool) : Nat → RuleC K
  | 0 => fun _ _ => (.diverge, 0)
  | n + 1 =>
    onNewState <| act
      (sor (ifMust (lex (Lex.symC '(')) (until_ (lex (Lex.symC ')')) (expression nd n (term nd n)) n)) <|
        sor booleanLiteral identifier)
      Rule.termAction

/-- `Rule.assertion`. -/
def assertion [Arith K] [Strtod K] (nd : Bool) (fuel : Nat) : RuleC K :=
  act (ifMust (kw "assert") (seq (must identifier) (must (term nd fuel)))) (Rule.commandAction nd Rule.insertAssertion)

/-- `Rule.defineFormula`. -/
def defineFormula [Arith K] [Strtod K] (nd : Bool) (fuel : Nat) : RuleC K :=
  act (ifMust (kw "define-formula") (seq (must identifier) (must (term nd fuel))))
    (Rule.commandAction nd Rule.insertFormula)

/-- `Rule.anyCommand`. -/
def anyCommand [Arith K] [Strtod K] (nd : Bool) (fuel : Nat) : RuleC K :=
  ifMust (lex (Lex.symC '('))
    (until_ (lex (Lex.symC ')')) (must (sor (assertion nd fuel) (defineFormula nd fuel))) fuel)

/-- `Rule.eof`. -/
def eof : RuleC K := lex fun inp => (if inp.isEmpty then some [] else none, 1)

/-- `Skip` as a rule. -/
def skip : RuleC K := lex fun inp => (some (Lex.skipC inp).1, (Lex.skipC inp).2)

/-- `Rule.specificationFile`. -/
def specificationFile [Arith K] [Strtod K] (nd : Bool) (fuel : Nat) : RuleC K :=
  must <| seq skip (until_ eof (seq (anyCommand nd fuel) skip) fuel)

end
end RuleC

/-- `fromString`, parser.cc:21-50, and the number of characters examined. -/
def fromStringC {K : Type} [Field K] [LinearOrder K] [Arith K] [Strtod K] (nd : Bool) (fuel : Nat)
    (input : List Char) : Outcome (Specification K) × Nat :=
  ((RuleC.specificationFile nd fuel input {}).1.bind fun p =>
    match p with
    | (some _, st) => .ok st.g
    | (none, _) => .throw .logicError, (RuleC.specificationFile nd fuel input ({} : PState K)).2)

end Verif
