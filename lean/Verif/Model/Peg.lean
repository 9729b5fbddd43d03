import Verif.Model.Parser

/-!
# The grammar of `src/parser/grammar.hpp` as data, and the PEG machine that runs it

`Model/Parser.lean` writes the rules of the grammar as Lean functions.  Here the same grammar is *data*: one
line for each `struct` or `using` of grammar.hpp, in the same order and with the same combinators, a table
of the actions of actions.hpp, and an interpreter `Grammar.run` for the combinators of PEGTL, which knows
nothing of this grammar.  C115 proves that both are the same parser.

The combinators are those of PEGTL 3 (its documentation, "Rule Reference"; PEGTL is not in the
repository): a rule either matches and leaves the rest of the input, or fails locally and leaves the input
where it was, or ends the parse by an exception.  The interpreter takes fuel, one unit for each nested
call.
-/

namespace Verif
namespace Peg

/-- The rules of PEGTL that grammar.hpp uses, over names `N` of rules. -/
inductive Exp (N : Type) where
  /-- `one<c...>` -/
  | one (cs : List Char)
  /-- `ranges<a, b, ...>` -/
  | ranges (rs : List (Char × Char))
  /-- `TAO_PEGTL_STRING("...")` -/
  | str (s : List Char)
  /-- `eof` -/
  | eof
  /-- `eolf`: the end of the input, `\n` or `\r\n` -/
  | eolf
  /-- `seq<a, b>` -/
  | seq (a b : Exp N)
  /-- `sor<a, b>` -/
  | sor (a b : Exp N)
  /-- `star<a>` -/
  | star (a : Exp N)
  /-- `plus<a>` -/
  | plus (a : Exp N)
  /-- `opt<a>` -/
  | opt (a : Exp N)
  /-- `not_at<a>` -/
  | notAt (a : Exp N)
  /-- `until<c>`: any characters until `c` matches -/
  | untilAny (c : Exp N)
  /-- `until<c, a>` -/
  | untl (c a : Exp N)
  /-- `must<a>` -/
  | must (a : Exp N)
  /-- `disable<a>`: no actions in `a` -/
  | disable (a : Exp N)
  /-- a rule with a name -/
  | nt (x : N)

/-- `if_must<c, a>`. -/
def Exp.ifMust {N : Type} (c a : Exp N) : Exp N := .seq c (.must a)

/-- `if_must<c, a, b>`. -/
def Exp.ifMust2 {N : Type} (c a b : Exp N) : Exp N := .seq c (.seq (.must a) (.must b))

/-- The type of a running rule. -/
abbrev Run (S : Type) := List Char → S → Outcome (Option (List Char) × S)

/-- What a specialisation of the template `action` does for a rule. -/
inductive Action (S : Type) where
  /-- `peg::nothing` -/
  | nothing
  /-- `apply(in, ...)`, with the matched text, or `apply0(...)` -/
  | apply (f : List Char → S → Outcome S)
  /-- `match` that runs the rule on a state of its own and merges it afterwards, and `apply0` -/
  | fresh (enter : S → S) (leave : S → S → S) (f : List Char → S → Outcome S)

/-- A rule with `apply`: it is called when the rule has matched. -/
def applied {S : Type} (f : List Char → S → Outcome S) (r : Run S) : Run S := fun inp st => do
  match ← r inp st with
  | (some rest, st') => do
    let st'' ← f (Lex.textOf inp rest) st'
    return (some rest, st'')
  | (none, st') => return (none, st')

/-- A rule with its action; `a` tells if actions are enabled. -/
def Action.wrap {S : Type} (a : Bool) : Action S → Run S → Run S
  | .nothing, r => r
  | .apply f, r => if a then applied f r else r
  | .fresh enter leave f, r => fun inp st => do
    let (rest, st') ← (if a then applied f r else r) inp (enter st)
    return (rest, leave st st')

/-- A grammar with actions. -/
structure Grammar (N S : Type) where
  rules : N → Exp N
  action : N → Action S

/-- A rule for one character. -/
def char {S : Type} (p : Char → Bool) : Run S := fun inp st =>
  match inp with
  | [] => .ok (none, st)
  | c :: cs => .ok (if p c then some cs else none, st)

/-- `eolf`, with PEGTL's default end of line `lf_crlf`. -/
def eolf : List Char → Option (List Char)
  | [] => some []
  | '\n' :: cs => some cs
  | '\r' :: '\n' :: cs => some cs
  | _ => none

section
variable {S : Type}

/-- `seq<x, y>`: `x`, then `y` on the rest. -/
def thenR (x y : Run S) : Run S := fun inp st => do
  match ← x inp st with
  | (some rest, st') => y rest st'
  | (none, st') => return (none, st')

/-- `sor<x, y>`: `x`, or else `y`. -/
def elseR (x y : Run S) : Run S := fun inp st => do
  match ← x inp st with
  | (some rest, st') => return (some rest, st')
  | (none, st') => y inp st'

/-- One round of `star<x>`: `x` and then `again`, or nothing. -/
def starR (x again : Run S) : Run S := fun inp st => do
  match ← x inp st with
  | (some rest, st') => again rest st'
  | (none, st') => return (some inp, st')

/-- `opt<x>`. -/
def optR (x : Run S) : Run S := fun inp st => do
  match ← x inp st with
  | (some rest, st') => return (some rest, st')
  | (none, st') => return (some inp, st')

/-- `not_at<x>`: succeeds without consuming if `x` fails. -/
def notAtR (x : Run S) : Run S := fun inp st => do
  match ← x inp st with
  | (some _, st') => return (none, st')
  | (none, st') => return (some inp, st')

/-- `any`: one character. -/
def anyR : Run S := char fun _ => true

/-- `must<x>`: a local failure becomes a `parse_error`. -/
def mustR (x : Run S) : Run S := fun inp st => do
  match ← x inp st with
  | (some rest, st') => return (some rest, st')
  | (none, _) => .throw .parseError

end

/-- The machine. -/
def Grammar.run {N S : Type} (g : Grammar N S) : Nat → Bool → Exp N → Run S
  | 0, _, _ => fun _ _ => .diverge
  | _ + 1, _, .one cs => char fun c => cs.contains c
  | _ + 1, _, .ranges rs => char fun c => rs.any fun r => r.1 ≤ c && c ≤ r.2
  | _ + 1, _, .str s => fun inp st =>
    .ok (if s.isPrefixOf inp then some (inp.drop s.length) else none, st)
  | _ + 1, _, .eof => fun inp st => .ok (if inp.isEmpty then some inp else none, st)
  | _ + 1, _, .eolf => fun inp st => .ok (eolf inp, st)
  | n + 1, a, .seq x y => thenR (g.run n a x) (g.run n a y)
  | n + 1, a, .sor x y => elseR (g.run n a x) (g.run n a y)
  | n + 1, a, .star x => starR (g.run n a x) (g.run n a (.star x))
  | n + 1, a, .plus x => thenR (g.run n a x) (g.run n a (.star x))
  | n + 1, a, .opt x => optR (g.run n a x)
  | n + 1, _, .notAt x => notAtR (g.run n false x)
  | n + 1, a, .untilAny c => elseR (g.run n a c) (thenR anyR (g.run n a (.untilAny c)))
  | n + 1, a, .untl c x => elseR (g.run n a c) (thenR (g.run n a x) (g.run n a (.untl c x)))
  | n + 1, a, .must x => mustR (g.run n a x)
  | n + 1, _, .disable x => g.run n false x
  | n + 1, a, .nt x => (g.action x).wrap a (g.run n a (g.rules x))

/-! ## grammar.hpp -/

/-- The names of the rules: every `struct` of grammar.hpp, and `peg::identifier`. -/
inductive Nt where
  | LineComment | Sep | Skip | EndOfWord | pegIdentifier | Identifier
  | LParen | RParen | LtSymbol | LeSymbol | GtSymbol | GeSymbol
  | KwTrue | KwFalse | KwNot | KwAnd | KwOr | KwImplies | KwIff | KwXor | KwAlways | KwEventually | KwUntil
  | KwDefineFormula | KwAssert
  | decimal_seq | exponent | DoubleLiteral | IntegerLiteral | BooleanLiteral | Numeral | Constant
  | ComparisonSymbol | PredicateForm1 | PredicateForm2 | PredicateForm | PredicateTerm
  | NotTerm | NaryTail | BinaryTail | AndTerm | OrTerm | ImpliesTerm | IffTerm | XorTerm
  | AlwaysTerm | EventuallyTerm | UntilTerm | Term
  | Assertion | DefineFormula | Command | AnyCommand | StatementList | SpecificationFile
  deriving DecidableEq, Repr

open Exp Nt

/-- `peg::ascii::space`. -/
def space : Exp Nt := one [' ', '\n', '\r', '\t', '\x0b', '\x0c']
/-- `peg::digit`. -/
def digit : Exp Nt := ranges [('0', '9')]
/-- `peg::identifier_first`. -/
def identifierFirst : Exp Nt := ranges [('a', 'z'), ('A', 'Z'), ('_', '_')]
/-- `peg::identifier_other`. -/
def identifierOther : Exp Nt := ranges [('a', 'z'), ('A', 'Z'), ('0', '9'), ('_', '_')]

/-- `Symbol<S...>`, grammar.hpp:25-26, for one rule. -/
def symbol (s : Exp Nt) : Exp Nt := seq s (nt Skip)

/-- `Keyword<Key>`, grammar.hpp:35-36. -/
def keyword (key : String) : Exp Nt := seq (str key.toList) (nt EndOfWord)

/-- `Expression`, grammar.hpp:147-158. -/
def expression : Exp Nt :=
  sor (nt PredicateTerm) <| sor (nt NotTerm) <| sor (nt AndTerm) <| sor (nt OrTerm) <|
  sor (nt ImpliesTerm) <| sor (nt IffTerm) <| sor (nt XorTerm) <| sor (nt AlwaysTerm) <|
  sor (nt EventuallyTerm) <| sor (nt UntilTerm) <| nt Term

/-- `TermTail`, grammar.hpp:160. -/
def termTail : Exp Nt := untl (nt RParen) expression

/-- `AllowedCommands`, grammar.hpp:181. -/
def allowedCommands : Exp Nt := sor (nt Assertion) (nt DefineFormula)

/-- `AnyCommandTail`, grammar.hpp:192. -/
def anyCommandTail : Exp Nt := untl (nt RParen) (nt Command)

/-- The rules, grammar.hpp:13-200. -/
def rules : Nt → Exp Nt
  | LineComment => disable (seq (one [';']) (untilAny .eolf))                       -- 14
  | Nt.Sep => disable (sor space (nt LineComment))                                     -- 18
  | Skip => disable (star (nt Nt.Sep))                                              -- 19
  | EndOfWord => seq (notAt identifierOther) (nt Skip)                              -- 20
  | pegIdentifier => seq identifierFirst (star identifierOther)                     -- `peg::identifier`
  | Identifier => seq (nt pegIdentifier) (nt EndOfWord)                             -- 22
  | LParen => symbol (one ['('])                                                    -- 27
  | RParen => symbol (one [')'])                                                    -- 28
  | LtSymbol => seq (one ['<']) (symbol (notAt (one ['<', '='])))                   -- 29
  | LeSymbol => symbol (str "<=".toList)                                            -- 30
  | GtSymbol => seq (one ['>']) (symbol (notAt (one ['>', '='])))                   -- 31
  | GeSymbol => symbol (str ">=".toList)                                            -- 32
  | KwTrue => keyword "true"                                                        -- 38
  | KwFalse => keyword "false"                                                      -- 39
  | KwNot => keyword "not"                                                          -- 41
  | KwAnd => keyword "and"                                                          -- 42
  | KwOr => keyword "or"                                                            -- 43
  | KwImplies => keyword "implies"                                                  -- 44
  | KwIff => keyword "iff"                                                          -- 45
  | KwXor => keyword "xor"                                                          -- 46
  | KwAlways => keyword "always"                                                    -- 47
  | KwEventually => keyword "eventually"                                            -- 48
  | KwUntil => keyword "until"                                                      -- 49
  | KwDefineFormula => keyword "define-formula"                                     -- 51
  | KwAssert => keyword "assert"                                                    -- 52
  | decimal_seq => plus digit                                                       -- 55
  | exponent => ifMust (one ['e', 'E']) (seq (opt (one ['+', '-'])) (plus digit))   -- 57-59
  | DoubleLiteral =>                                                                -- 61-72
    seq (sor (seq (nt decimal_seq) <| seq (one ['.']) <| seq (nt decimal_seq) <| opt (nt exponent))
             (seq (nt decimal_seq) <| seq (opt (one ['.'])) <| nt exponent))
        (nt Skip)
  | IntegerLiteral => seq (nt decimal_seq) (nt Skip)                                -- 73
  | BooleanLiteral => sor (nt KwTrue) (nt KwFalse)                                  -- 74
  | Numeral => sor (nt DoubleLiteral) (nt IntegerLiteral)                           -- 82
  | Constant => sor (nt Numeral) (nt BooleanLiteral)                                -- 83
  | ComparisonSymbol =>                                                             -- 94
    sor (nt LtSymbol) <| sor (nt GtSymbol) <| sor (nt LeSymbol) (nt GeSymbol)
  | PredicateForm1 => seq (nt Identifier) (nt Numeral)                              -- 95
  | PredicateForm2 => seq (nt Numeral) (nt Identifier)                              -- 96
  | PredicateForm => sor (nt PredicateForm1) (nt PredicateForm2)                    -- 97
  | PredicateTerm =>                                                                -- 98-99
    ifMust (sor (nt LtSymbol) <| sor (nt GtSymbol) <| sor (nt LeSymbol) (nt GeSymbol)) (nt PredicateForm)
  | NotTerm => ifMust (nt KwNot) (nt Term)                                          -- 101
  | NaryTail => plus (nt Term)                                                      -- 130
  | BinaryTail => seq (nt Term) (nt Term)                                           -- 131
  | AndTerm => ifMust (nt KwAnd) (nt NaryTail)                                      -- 133
  | OrTerm => ifMust (nt KwOr) (nt NaryTail)                                        -- 134
  | ImpliesTerm => ifMust (nt KwImplies) (nt BinaryTail)                            -- 135
  | IffTerm => ifMust (nt KwIff) (nt BinaryTail)                                    -- 136
  | XorTerm => ifMust (nt KwXor) (nt BinaryTail)                                    -- 137
  | AlwaysTerm => ifMust (nt KwAlways) (nt Term)                                    -- 140
  | EventuallyTerm => ifMust (nt KwEventually) (nt Term)                            -- 141
  | UntilTerm => ifMust2 (nt KwUntil) (nt Term) (nt Term)                           -- 142
  | Term => sor (ifMust (nt LParen) termTail) <| sor (nt BooleanLiteral) (nt Identifier)  -- 161
  | Assertion => ifMust2 (nt KwAssert) (nt Identifier) (nt Term)                    -- 163
  | DefineFormula => ifMust2 (nt KwDefineFormula) (nt Identifier) (nt Term)         -- 164
  | Command => must allowedCommands                                                 -- 182
  | AnyCommand => ifMust (nt LParen) anyCommandTail                                 -- 193
  | StatementList => seq (nt Skip) (untl eof (seq (nt AnyCommand) (nt Skip)))       -- 195
  | SpecificationFile => must (nt StatementList)                                    -- 200

/-! ## actions.hpp -/

section
variable {K : Type} [Field K] [LinearOrder K]

/-- `apply0`: an action that does not look at the matched text. -/
def apply0 (f : PState K → Outcome (PState K)) : Action (PState K) := .apply fun _ => f

/-- The action of a comparison symbol, actions.hpp:144-170. -/
def comparison (op : ComparisonOp) : Action (PState K) :=
  apply0 fun st => .ok { st with s := { st.s with comparison := some op } }

/-- The specialisations of `action`, actions.hpp:83-503. -/
def actions [Arith K] [Strtod K] (nd : Bool) : Nt → Action (PState K)
  | pegIdentifier => .apply fun text st =>                                          -- 90-97
    .ok { st with s := { st.s with identifiers := st.s.identifiers ++ [String.ofList text] } }
  | KwTrue => apply0 fun st => .ok (Rule.setPrim (.bool true) st)                   -- 99-104
  | KwFalse => apply0 fun st => .ok (Rule.setPrim (.bool false) st)                 -- 106-111
  | BooleanLiteral => apply0 fun st =>                                              -- 113-124
    match st.s.primitive with
    | none => .ok st
    | some (.bool b) => .ok { st with s := { st.s with result := some (.Const b), primitive := none } }
    | some _ => .throw .badVariantAccess
  | IntegerLiteral => .apply fun text st =>                                         -- 126-133
    stol text >>= fun n => .ok (Rule.setPrim (.long n) st)
  | DoubleLiteral => .apply fun text st =>                                          -- 135-142
    stod text >>= fun d => .ok (Rule.setPrim (.double d) st)
  | LtSymbol => comparison .LT                                                      -- 144-149
  | LeSymbol => comparison .LE
  | GtSymbol => comparison .GT
  | GeSymbol => comparison .GE
  | PredicateForm1 => apply0 (Rule.setType .ONE)                                    -- 172-177
  | PredicateForm2 => apply0 (Rule.setType .TWO)                                    -- 179-184
  | PredicateTerm => apply0 Rule.predicateAction                                    -- 186-231
  | NotTerm => apply0 (Rule.unaryAction nd false Expr.Not)                          -- 233-247
  | AndTerm => apply0 (Rule.naryAction nd Expr.And)                                 -- 249-266
  | OrTerm => apply0 (Rule.naryAction nd Expr.Or)                                   -- 268-285
  | ImpliesTerm => apply0 (Rule.binaryAction nd Expr.Implies)                       -- 287-301
  | IffTerm => apply0 (Rule.binaryAction nd Expr.Iff)                               -- 303-316
  | XorTerm => apply0 (Rule.binaryAction nd Expr.Xor)                               -- 318-331
  | AlwaysTerm => apply0 (Rule.unaryAction nd true Expr.Always)                     -- 333-349
  | EventuallyTerm => apply0 (Rule.unaryAction nd true Expr.Eventually)             -- 351-366
  | UntilTerm => apply0 (Rule.binaryAction nd fun a b => .ok (Expr.Until a b))      -- 367-380
  | Term => .fresh (fun st => { g := st.g })                                        -- 383-448
    (fun st st' => { g := st'.g, s := { st.s with terms := st.s.terms ++ st'.s.terms } })
    fun _ => Rule.termAction
  | Assertion => apply0 (Rule.commandAction nd Rule.insertAssertion)                -- 450-476
  | DefineFormula => apply0 (Rule.commandAction nd Rule.insertFormula)              -- 478-503
  | _ => .nothing

/-- The grammar with its actions. -/
def grammar [Arith K] [Strtod K] (nd : Bool) : Grammar Nt (PState K) := ⟨rules, actions nd⟩

/-- `_parse`, parser.cc:21-42, run by the PEG machine. -/
def parse [Arith K] [Strtod K] (nd : Bool) (fuel : Nat) (input : List Char) :
    Outcome (Specification K) := do
  match ← (grammar nd).run fuel true (nt SpecificationFile) input {} with
  | (some _, st) => return st.g
  | (none, _) => .throw .logicError

end
end Peg
end Verif
