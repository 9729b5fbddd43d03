import Verif.Model.Parser
import Mathlib.Data.Nat.Digits.Defs

/-!
# The specification language: syntax trees, texts and meaning

Written from the documentation of the language (the comments of `src/parser/grammar.hpp`), independently
of how the parser works.  A specification is a list of commands; a text of it is the sequence of its
tokens with any layout (white space, comments) between them; its meaning is got by applying the
expression interface bottom up.
-/

namespace Verif
namespace Spec

/-! ## Numerals -/

/-- A non-empty sequence of decimal digits. -/
structure Digits where
  first : Fin 10
  rest : List (Fin 10) := []
  deriving DecidableEq

/-- The character of a digit. -/
def digitChar (d : Fin 10) : Char := Char.ofNat (48 + d)

namespace Digits
/-- All digits. -/
def all (n : Digits) : List (Fin 10) := n.first :: n.rest
/-- As text. -/
def chars (n : Digits) : List Char := n.all.map digitChar
/-- The number in base ten. -/
def val (n : Digits) : Nat := Nat.ofDigits 10 (n.all.reverse.map Fin.val)
end Digits

/-- An exponent: `e` or `E`, an optional sign, digits. -/
structure ExpLit where
  upper : Bool := false
  /-- `some true` is `-`, `some false` is `+`. -/
  sign : Option Bool := none
  digits : Digits
  deriving DecidableEq

namespace ExpLit
/-- The sign as text. -/
def signChars : Option Bool → List Char
  | none => []
  | some true => ['-']
  | some false => ['+']
/-- As text. -/
def chars (e : ExpLit) : List Char :=
  (if e.upper then 'E' else 'e') :: (signChars e.sign ++ e.digits.chars)
/-- The exponent. -/
def val (e : ExpLit) : ℤ := if e.sign = some true then -(e.digits.val : ℤ) else e.digits.val
end ExpLit

/-- Numerals, grammar.hpp:53-82. -/
inductive NumLit where
  | int (n : Digits)
  /-- With a fraction and an optional exponent. -/
  | dec (i f : Digits) (e : Option ExpLit)
  /-- Without a fraction (there may be a point) and with an exponent. -/
  | sci (i : Digits) (dot : Bool) (e : ExpLit)
  deriving DecidableEq

namespace NumLit
/-- As text. -/
def chars : NumLit → List Char
  | int n => n.chars
  | dec i f e => i.chars ++ '.' :: (f.chars ++ (match e with | none => [] | some e => e.chars))
  | sci i dot e => i.chars ++ ((if dot then ['.'] else []) ++ e.chars)

variable {K : Type} [Field K] [LinearOrder K]

/-- The number that is written. -/
def val : NumLit → K
  | int n => n.val
  | dec i f e => ((i.val : K) + (f.val : K) / (10 : K) ^ f.all.length) *
      (10 : K) ^ (match e with | none => 0 | some e => e.val : ℤ)
  | sci i _ e => (i.val : K) * (10 : K) ^ e.val

/-- Integers must fit into `long`, other numbers into `double`; then the value is rounded. -/
def eval [Arith K] [Strtod K] : NumLit → Outcome (D K)
  | int n => if n.val < 2 ^ 63 then .ok (Arith.rnd (n.val : K)) else .throw .outOfRange
  | l => if (Arith.rnd (l.val : K) : D K).isinf || Strtod.underflow (l.val : K) then .throw .outOfRange
    else .ok (Arith.rnd (l.val : K))
end NumLit

/-! ## Terms and commands -/

/-- An identifier of the language: letters, digits and underscores, not beginning with a digit. -/
def IsName (s : String) : Prop :=
  ∃ c cs, s.toList = c :: cs ∧ (c.isAlpha = true ∨ c = '_') ∧ ∀ d ∈ cs, d.isAlphanum = true ∨ d = '_'

/-- Terms. -/
inductive Syn where
  | tru
  | fls
  /-- A formula defined before. -/
  | ref (name : String)
  /-- `(op signal constant)` -/
  | cmp (op : ComparisonOp) (name : String) (c : NumLit)
  /-- `(op constant signal)` -/
  | rcmp (op : ComparisonOp) (c : NumLit) (name : String)
  | not (t : Syn)
  | and (ts : List Syn)
  | or (ts : List Syn)
  | implies (a b : Syn)
  | iff (a b : Syn)
  | xor (a b : Syn)
  | always (t : Syn)
  | eventually (t : Syn)
  | untl (a b : Syn)

/-- Commands. -/
inductive Cmd where
  | define (name : String) (t : Syn)
  | assert (name : String) (t : Syn)

/-! ## Tokens and texts -/

/-- Tokens. -/
inductive Tok where
  | lp
  | rp
  | word (s : String)
  | op (o : ComparisonOp)
  | num (l : NumLit)

/-- The text of a token. -/
def Tok.chars : Tok → List Char
  | lp => ['(']
  | rp => [')']
  | word s => s.toList
  | op .LT => ['<']
  | op .LE => ['<', '=']
  | op .GT => ['>']
  | op .GE => ['>', '=']
  | num l => l.chars

mutual
/-- What is between the parentheses of a compound term. -/
def inner : Syn → List Tok
  | .tru => []
  | .fls => []
  | .ref _ => []
  | .cmp o n c => [.op o, .word n, .num c]
  | .rcmp o c n => [.op o, .num c, .word n]
  | .not t => .word "not" :: toks t
  | .and ts => .word "and" :: toksAll ts
  | .or ts => .word "or" :: toksAll ts
  | .implies a b => .word "implies" :: (toks a ++ toks b)
  | .iff a b => .word "iff" :: (toks a ++ toks b)
  | .xor a b => .word "xor" :: (toks a ++ toks b)
  | .always t => .word "always" :: toks t
  | .eventually t => .word "eventually" :: toks t
  | .untl a b => .word "until" :: (toks a ++ toks b)
/-- The tokens of a term. -/
def toks : Syn → List Tok
  | .tru => [.word "true"]
  | .fls => [.word "false"]
  | .ref n => [.word n]
  | .cmp o n c => .lp :: (inner (.cmp o n c) ++ [.rp])
  | .rcmp o c n => .lp :: (inner (.rcmp o c n) ++ [.rp])
  | .not t => .lp :: (.word "not" :: toks t ++ [.rp])
  | .and ts => .lp :: (.word "and" :: toksAll ts ++ [.rp])
  | .or ts => .lp :: (.word "or" :: toksAll ts ++ [.rp])
  | .implies a b => .lp :: (.word "implies" :: (toks a ++ toks b) ++ [.rp])
  | .iff a b => .lp :: (.word "iff" :: (toks a ++ toks b) ++ [.rp])
  | .xor a b => .lp :: (.word "xor" :: (toks a ++ toks b) ++ [.rp])
  | .always t => .lp :: (.word "always" :: toks t ++ [.rp])
  | .eventually t => .lp :: (.word "eventually" :: toks t ++ [.rp])
  | .untl a b => .lp :: (.word "until" :: (toks a ++ toks b) ++ [.rp])
/-- The tokens of several terms. -/
def toksAll : List Syn → List Tok
  | [] => []
  | t :: ts => toks t ++ toksAll ts
end

/-- The tokens of a command. -/
def Cmd.toks : Cmd → List Tok
  | .define n t => .lp :: .word "define-formula" :: .word n :: (Spec.toks t ++ [.rp])
  | .assert n t => .lp :: .word "assert" :: .word n :: (Spec.toks t ++ [.rp])

/-- White space. -/
def IsSpace (c : Char) : Prop := c ∈ [' ', '\n', '\r', '\t', '\x0b', '\x0c']

/-- Layout: white space and comments from `;` to the end of the line. -/
inductive Layout : List Char → Prop
  | nil : Layout []
  | space {c : Char} {w : List Char} : IsSpace c → Layout w → Layout (c :: w)
  | comment {body w : List Char} : '\n' ∉ body → Layout w → Layout (';' :: (body ++ '\n' :: w))

/-- Layout at the end of the text: the last comment need not be closed. -/
inductive FinalLayout : List Char → Prop
  | closed {w : List Char} : Layout w → FinalLayout w
  | open {w body : List Char} : Layout w → '\n' ∉ body → FinalLayout (w ++ ';' :: body)

/-- Names, keywords and numerals. -/
def Tok.wordy : Tok → Bool
  | word _ => true
  | num _ => true
  | _ => false

/-- The numeral has an exponent. -/
def NumLit.hasExp : NumLit → Bool
  | int _ => false
  | dec _ _ e => e.isSome
  | sci _ _ _ => true

/-- The word begins with the letter of an exponent. -/
def startsExp (s : String) : Bool :=
  match s.toList with
  | [] => false
  | c :: _ => c == 'e' || c == 'E'

/-- Tokens that can be written one after the other without layout between them: neither two words, nor two
numerals, nor two comparison symbols; after a word no numeral; after a numeral a word only if it
cannot be taken for an exponent. -/
def Tok.apart : Tok → Tok → Bool
  | word _, word _ => false
  | word _, num _ => false
  | num _, num _ => false
  | num l, word s => l.hasExp || !startsExp s
  | op _, op _ => false
  | _, _ => true

/-- `Txt ts w`: the text `w` consists of the tokens `ts`, each followed by layout, which may be empty only
between tokens that can be written together. -/
inductive Txt : List Tok → List Char → Prop
  | nil : Txt [] []
  | last {t : Tok} {g : List Char} : FinalLayout g → Txt [t] (t.chars ++ g)
  | cons {t t' : Tok} {ts : List Tok} {g w : List Char} : Layout g → (g = [] → t.apart t' = true) →
      Txt (t' :: ts) w → Txt (t :: t' :: ts) (t.chars ++ (g ++ w))

/-- A text of a specification: layout, then the tokens of the commands. -/
inductive Text (cs : List Cmd) : List Char → Prop
  | mk {g w : List Char} : Layout g → Txt (cs.flatMap Cmd.toks) w → Text cs (g ++ w)
  | empty {g : List Char} : FinalLayout g → cs = [] → Text cs g

/-- A canonical text: every token is followed by a space. -/
def render : List Tok → List Char
  | [] => []
  | t :: ts => t.chars ++ ' ' :: render ts

/-! ## Which trees can be written -/

/-- All identifiers are names, and the words `true` and `false` are not used for formulas. -/
inductive SynOk : Syn → Prop
  | tru : SynOk .tru
  | fls : SynOk .fls
  | ref {n : String} : IsName n → n ≠ "true" → n ≠ "false" → SynOk (.ref n)
  | cmp {o : ComparisonOp} {n : String} {c : NumLit} : IsName n → SynOk (.cmp o n c)
  | rcmp {o : ComparisonOp} {n : String} {c : NumLit} : IsName n → SynOk (.rcmp o c n)
  | not {t : Syn} : SynOk t → SynOk (.not t)
  | and {ts : List Syn} : (∀ t ∈ ts, SynOk t) → SynOk (.and ts)
  | or {ts : List Syn} : (∀ t ∈ ts, SynOk t) → SynOk (.or ts)
  | implies {a b : Syn} : SynOk a → SynOk b → SynOk (.implies a b)
  | iff {a b : Syn} : SynOk a → SynOk b → SynOk (.iff a b)
  | xor {a b : Syn} : SynOk a → SynOk b → SynOk (.xor a b)
  | always {t : Syn} : SynOk t → SynOk (.always t)
  | eventually {t : Syn} : SynOk t → SynOk (.eventually t)
  | untl {a b : Syn} : SynOk a → SynOk b → SynOk (.untl a b)

/-- The same for commands. -/
inductive CmdOk : Cmd → Prop
  | define {n : String} {t : Syn} : IsName n → SynOk t → CmdOk (.define n t)
  | assert {n : String} {t : Syn} : IsName n → SynOk t → CmdOk (.assert n t)

/-- The term contains no predicate of the form `(op constant signal)`. -/
inductive NoRev : Syn → Prop
  | tru : NoRev .tru
  | fls : NoRev .fls
  | ref {n : String} : NoRev (.ref n)
  | cmp {o : ComparisonOp} {n : String} {c : NumLit} : NoRev (.cmp o n c)
  | not {t : Syn} : NoRev t → NoRev (.not t)
  | and {ts : List Syn} : (∀ t ∈ ts, NoRev t) → NoRev (.and ts)
  | or {ts : List Syn} : (∀ t ∈ ts, NoRev t) → NoRev (.or ts)
  | implies {a b : Syn} : NoRev a → NoRev b → NoRev (.implies a b)
  | iff {a b : Syn} : NoRev a → NoRev b → NoRev (.iff a b)
  | xor {a b : Syn} : NoRev a → NoRev b → NoRev (.xor a b)
  | always {t : Syn} : NoRev t → NoRev (.always t)
  | eventually {t : Syn} : NoRev t → NoRev (.eventually t)
  | untl {a b : Syn} : NoRev a → NoRev b → NoRev (.untl a b)

/-- The term contains a predicate of the form `(op constant signal)`. -/
inductive HasRev : Syn → Prop
  | rcmp {o : ComparisonOp} {n : String} {c : NumLit} : HasRev (.rcmp o c n)
  | not {t : Syn} : HasRev t → HasRev (.not t)
  | and {ts : List Syn} {t : Syn} : t ∈ ts → HasRev t → HasRev (.and ts)
  | or {ts : List Syn} {t : Syn} : t ∈ ts → HasRev t → HasRev (.or ts)
  | impliesL {a b : Syn} : HasRev a → HasRev (.implies a b)
  | impliesR {a b : Syn} : HasRev b → HasRev (.implies a b)
  | iffL {a b : Syn} : HasRev a → HasRev (.iff a b)
  | iffR {a b : Syn} : HasRev b → HasRev (.iff a b)
  | xorL {a b : Syn} : HasRev a → HasRev (.xor a b)
  | xorR {a b : Syn} : HasRev b → HasRev (.xor a b)
  | always {t : Syn} : HasRev t → HasRev (.always t)
  | eventually {t : Syn} : HasRev t → HasRev (.eventually t)
  | untlL {a b : Syn} : HasRev a → HasRev (.untl a b)
  | untlR {a b : Syn} : HasRev b → HasRev (.untl a b)

/-- The term refers to the formula `n`. -/
inductive Mentions (n : String) : Syn → Prop
  | ref : Mentions n (.ref n)
  | not {t : Syn} : Mentions n t → Mentions n (.not t)
  | and {ts : List Syn} {t : Syn} : t ∈ ts → Mentions n t → Mentions n (.and ts)
  | or {ts : List Syn} {t : Syn} : t ∈ ts → Mentions n t → Mentions n (.or ts)
  | impliesL {a b : Syn} : Mentions n a → Mentions n (.implies a b)
  | impliesR {a b : Syn} : Mentions n b → Mentions n (.implies a b)
  | iffL {a b : Syn} : Mentions n a → Mentions n (.iff a b)
  | iffR {a b : Syn} : Mentions n b → Mentions n (.iff a b)
  | xorL {a b : Syn} : Mentions n a → Mentions n (.xor a b)
  | xorR {a b : Syn} : Mentions n b → Mentions n (.xor a b)
  | always {t : Syn} : Mentions n t → Mentions n (.always t)
  | eventually {t : Syn} : Mentions n t → Mentions n (.eventually t)
  | untlL {a b : Syn} : Mentions n a → Mentions n (.untl a b)
  | untlR {a b : Syn} : Mentions n b → Mentions n (.untl a b)

/-- The names of the defined formulas, in order. -/
def defNames : List Cmd → List String
  | [] => []
  | .define n _ :: cs => n :: defNames cs
  | .assert _ _ :: cs => defNames cs

/-- The names of the assertions, in order. -/
def assertNames : List Cmd → List String
  | [] => []
  | .define _ _ :: cs => assertNames cs
  | .assert n _ :: cs => n :: assertNames cs

/-- The term of a command. -/
def Cmd.term : Cmd → Syn
  | .define _ t => t
  | .assert _ t => t

/-! ## Meaning -/

section
variable {K : Type} [Field K] [LinearOrder K] [Arith K] [Strtod K]

/-- The mirrored comparison: `c op x` is `x (mirror op) c`. -/
def mirror : ComparisonOp → ComparisonOp
  | .LT => .GT
  | .GT => .LT
  | .LE => .GE
  | .GE => .LE

/-- What `(op c x)` should mean. -/
def reversed (op : ComparisonOp) (c : D K) (n : String) : Outcome (Expr K) := .ok (.pred n (mirror op) c)

variable (rev : ComparisonOp → D K → String → Outcome (Expr K)) (env : String → Option (Expr K))

mutual
/-- The expression that a term denotes: the functions of the expression interface applied bottom up, from
left to right.  `env` are the formulas defined so far, `rev` is the meaning of `(op constant signal)`. -/
def denote : Syn → Outcome (Expr K)
  | .tru => .ok (.Const true)
  | .fls => .ok (.Const false)
  | .ref n => match env n with
    | some e => .ok e
    | none => .throw .outOfRange
  | .cmp o n c => do
    let d ← c.eval
    return .pred n o d
  | .rcmp o c n => do
    let d ← c.eval
    rev o d n
  | .not t => do return .Not (← denote t)
  | .and ts => do
    let es ← evalAll ts
    if es.length < 2 then .throw .parseError else Expr.And es
  | .or ts => do
    let es ← evalAll ts
    if es.length < 2 then .throw .parseError else Expr.Or es
  | .implies a b => do
    let x ← denote a
    let y ← denote b
    Expr.Implies x y
  | .iff a b => do
    let x ← denote a
    let y ← denote b
    Expr.Iff x y
  | .xor a b => do
    let x ← denote a
    let y ← denote b
    Expr.Xor x y
  | .always t => do return .Always (← denote t)
  | .eventually t => do return .Eventually (← denote t)
  | .untl a b => do
    let x ← denote a
    let y ← denote b
    return .Until x y
/-- Several terms. -/
def evalAll : List Syn → Outcome (List (Expr K))
  | [] => .ok []
  | t :: ts => do
    let e ← denote t
    let es ← evalAll ts
    return e :: es
end

/-- The formula with the given name. -/
def find (m : List (String × Expr K)) (n : String) : Option (Expr K) :=
  (m.find? fun p => p.1 == n).map Prod.snd

/-- A new entry, unless there is one with this name. -/
def addNew (m : List (String × Expr K)) (n : String) (e : Expr K) : Outcome (List (String × Expr K)) :=
  if n ∈ m.map Prod.fst then .throw .parseError else .ok (m ++ [(n, e)])

/-- The effect of a command. -/
def evalCmd (sp : Specification K) : Cmd → Outcome (Specification K)
  | .define n t => do
    let e ← denote rev (find sp.formulas) t
    let m ← addNew sp.formulas n e
    return { sp with formulas := m }
  | .assert n t => do
    let e ← denote rev (find sp.formulas) t
    let m ← addNew sp.assertions n e
    return { sp with assertions := m }

/-- The meaning of a specification: its commands one after the other. -/
def evalSpec (sp : Specification K) : List Cmd → Outcome (Specification K)
  | [] => .ok sp
  | c :: cs => do
    let sp' ← evalCmd rev sp c
    evalSpec sp' cs

end
end Spec
end Verif
