import Verif.Spec.Syntax

/-!
# The accepted language

The texts that the parser accepts, which are more than those of `Syn` (the documented language): between
the parentheses of a term there can be several expressions, and between those of a command several
commands.  The meaning of such a term is a list of expressions.
-/

namespace Verif
namespace Spec

/-- Operators with one operand. -/
inductive UnOp where
  | not | always | eventually
  deriving DecidableEq

/-- Operators with any number of operands. -/
inductive NaryOp where
  | and | or
  deriving DecidableEq

/-- Operators with two operands. -/
inductive BinOp where
  | implies | iff | xor | untl
  deriving DecidableEq

/-- The keyword of an operator. -/
def UnOp.key : UnOp → String
  | not => "not"
  | always => "always"
  | eventually => "eventually"
/-- The keyword of an operator. -/
def NaryOp.key : NaryOp → String
  | and => "and"
  | or => "or"
/-- The keyword of an operator. -/
def BinOp.key : BinOp → String
  | implies => "implies"
  | iff => "iff"
  | xor => "xor"
  | untl => "until"

/-- All these keywords. -/
def opKeys : List String := ["not", "and", "or", "implies", "iff", "xor", "always", "eventually", "until"]

mutual
/-- Terms. -/
inductive Raw where
  | tru
  | fls
  /-- A formula defined before. -/
  | ref (name : String)
  /-- Expressions in parentheses. -/
  | paren (items : List Item)
/-- Expressions. -/
inductive Item where
  | cmp (op : ComparisonOp) (name : String) (c : NumLit)
  | un (op : UnOp) (t : Raw)
  | nary (op : NaryOp) (ts : List Raw)
  | bin (op : BinOp) (a b : Raw)
  | term (t : Raw)
end

/-- Commands. -/
inductive RawCmd where
  | define (name : String) (t : Raw)
  | assert (name : String) (t : Raw)

/-! ## Tokens -/

mutual
/-- The tokens of a term. -/
def Raw.toks : Raw → List Tok
  | .tru => [.word "true"]
  | .fls => [.word "false"]
  | .ref n => [.word n]
  | .paren is => .lp :: (Item.toksAll is ++ [.rp])
/-- The tokens of several terms. -/
def Raw.toksAll : List Raw → List Tok
  | [] => []
  | t :: ts => Raw.toks t ++ Raw.toksAll ts
/-- The tokens of an expression. -/
def Item.toks : Item → List Tok
  | .cmp o n c => [.op o, .word n, .num c]
  | .un o t => .word o.key :: Raw.toks t
  | .nary o ts => .word o.key :: Raw.toksAll ts
  | .bin o a b => .word o.key :: (Raw.toks a ++ Raw.toks b)
  | .term t => Raw.toks t
/-- The tokens of several expressions. -/
def Item.toksAll : List Item → List Tok
  | [] => []
  | i :: is => Item.toks i ++ Item.toksAll is
end

/-- The tokens of a command, without the parentheses. -/
def RawCmd.toks : RawCmd → List Tok
  | .define n t => .word "define-formula" :: .word n :: t.toks
  | .assert n t => .word "assert" :: .word n :: t.toks

/-- The tokens of commands in parentheses. -/
def groupToks (cs : List RawCmd) : List Tok := .lp :: (cs.flatMap RawCmd.toks ++ [.rp])

/-- A text of a file: layout, then the tokens of the groups of commands. -/
inductive RawText (gs : List (List RawCmd)) : List Char → Prop
  | mk {g w : List Char} : Layout g → Txt (gs.flatMap groupToks) w → RawText gs (g ++ w)
  | empty {g : List Char} : FinalLayout g → gs = [] → RawText gs g

/-! ## Restrictions -/

/-- What can follow an `and` or `or` in the same parentheses: every word and every parenthesis would be
taken for an operand. -/
def Item.isCmp : Item → Bool
  | .cmp _ _ _ => true
  | _ => false

mutual
/-- Words that are names; `true` and `false` do not refer to formulas. -/
inductive RawOk : Raw → Prop
  | tru : RawOk .tru
  | fls : RawOk .fls
  | ref {n : String} : IsName n → n ≠ "true" → n ≠ "false" → RawOk (.ref n)
  | paren {is : List Item} : ItemsOk is → RawOk (.paren is)
/-- Several terms. -/
inductive RawsOk : List Raw → Prop
  | nil : RawsOk []
  | cons {t : Raw} {ts : List Raw} : RawOk t → RawsOk ts → RawsOk (t :: ts)
/-- An `and` or `or` has operands; the keyword of an operator is not an expression. -/
inductive ItemOk : Item → Prop
  | cmp {o : ComparisonOp} {n : String} {c : NumLit} : IsName n → ItemOk (.cmp o n c)
  | un {o : UnOp} {t : Raw} : RawOk t → ItemOk (.un o t)
  | nary {o : NaryOp} {ts : List Raw} : ts ≠ [] → RawsOk ts → ItemOk (.nary o ts)
  | bin {o : BinOp} {a b : Raw} : RawOk a → RawOk b → ItemOk (.bin o a b)
  | term {t : Raw} : RawOk t → (∀ n, t = .ref n → n ∉ opKeys) → ItemOk (.term t)
/-- Several expressions: an `and` or `or` is the last one or is followed by a predicate. -/
inductive ItemsOk : List Item → Prop
  | nil : ItemsOk []
  | cons {i : Item} {is : List Item} : ItemOk i → ItemsOk is →
      (∀ o ts, i = .nary o ts → ∀ j js, is = j :: js → j.isCmp = true) → ItemsOk (i :: is)
end

/-- Commands with names. -/
inductive RawCmdOk : RawCmd → Prop
  | define {n : String} {t : Raw} : IsName n → RawOk t → RawCmdOk (.define n t)
  | assert {n : String} {t : Raw} : IsName n → RawOk t → RawCmdOk (.assert n t)

/-! ## The documented language within it -/

mutual
/-- A documented term (without reversed predicates) as an accepted term. -/
def Syn.raw : Syn → Raw
  | .tru => .tru
  | .fls => .fls
  | .ref n => .ref n
  | .cmp o n c => .paren [.cmp o n c]
  | .rcmp o c n => .paren [.cmp o n c]
  | .not t => .paren [.un .not (Syn.raw t)]
  | .and ts => .paren [.nary .and (Syn.rawAll ts)]
  | .or ts => .paren [.nary .or (Syn.rawAll ts)]
  | .implies a b => .paren [.bin .implies (Syn.raw a) (Syn.raw b)]
  | .iff a b => .paren [.bin .iff (Syn.raw a) (Syn.raw b)]
  | .xor a b => .paren [.bin .xor (Syn.raw a) (Syn.raw b)]
  | .always t => .paren [.un .always (Syn.raw t)]
  | .eventually t => .paren [.un .eventually (Syn.raw t)]
  | .untl a b => .paren [.bin .untl (Syn.raw a) (Syn.raw b)]
/-- Several terms. -/
def Syn.rawAll : List Syn → List Raw
  | [] => []
  | t :: ts => Syn.raw t :: Syn.rawAll ts
end

/-- A documented command. -/
def Cmd.raw : Cmd → RawCmd
  | .define n t => .define n t.raw
  | .assert n t => .assert n t.raw

/-- Documented terms with operands for every `and` and `or`. -/
inductive HasArgs : Syn → Prop
  | tru : HasArgs .tru
  | fls : HasArgs .fls
  | ref {n : String} : HasArgs (.ref n)
  | cmp {o : ComparisonOp} {n : String} {c : NumLit} : HasArgs (.cmp o n c)
  | rcmp {o : ComparisonOp} {n : String} {c : NumLit} : HasArgs (.rcmp o c n)
  | not {t : Syn} : HasArgs t → HasArgs (.not t)
  | and {ts : List Syn} : ts ≠ [] → (∀ t ∈ ts, HasArgs t) → HasArgs (.and ts)
  | or {ts : List Syn} : ts ≠ [] → (∀ t ∈ ts, HasArgs t) → HasArgs (.or ts)
  | implies {a b : Syn} : HasArgs a → HasArgs b → HasArgs (.implies a b)
  | iff {a b : Syn} : HasArgs a → HasArgs b → HasArgs (.iff a b)
  | xor {a b : Syn} : HasArgs a → HasArgs b → HasArgs (.xor a b)
  | always {t : Syn} : HasArgs t → HasArgs (.always t)
  | eventually {t : Syn} : HasArgs t → HasArgs (.eventually t)
  | untl {a b : Syn} : HasArgs a → HasArgs b → HasArgs (.untl a b)

/-! ## Meaning -/

section
variable {K : Type} [Field K] [LinearOrder K] [Arith K] [Strtod K]

/-- An operator applied to its operand. -/
def UnOp.apply : UnOp → Expr K → Expr K
  | not, e => .Not e
  | always, e => .Always e
  | eventually, e => .Eventually e

/-- An operator applied to its operands. -/
def NaryOp.apply : NaryOp → List (Expr K) → Outcome (Expr K)
  | and, es => Expr.And es
  | or, es => Expr.Or es

/-- An operator applied to its operands. -/
def BinOp.apply : BinOp → Expr K → Expr K → Outcome (Expr K)
  | implies, a, b => Expr.Implies a b
  | iff, a, b => Expr.Iff a b
  | xor, a, b => Expr.Xor a b
  | untl, a, b => .ok (.Until a b)

/-- What the expressions read so far in the present parentheses leave behind: the value of the last
predicate or operator, and the terms that were not used as operands. -/
structure Left (K : Type) where
  value : Option (Expr K) := none
  terms : List (Expr K) := []

/-- An operator with one operand takes the last term; with assertions enabled there must not be others. -/
def Left.un (nd : Bool) (o : UnOp) (l : Left K) : Outcome (Left K) :=
  if nd = false ∧ l.terms.length ≠ 1 then .abort
  else match l.terms.reverse with
    | e :: rest => .ok ⟨some (o.apply e), rest.reverse⟩
    | [] => .ub .emptyAccess

/-- `and` and `or` take all terms. -/
def Left.nary (o : NaryOp) (l : Left K) : Outcome (Left K) :=
  if l.terms.length < 2 then .throw .parseError
  else do
    let e ← o.apply l.terms
    return ⟨some e, []⟩

/-- An operator with two operands takes the last two terms; with assertions enabled there must not be
others. -/
def Left.bin (nd : Bool) (o : BinOp) (l : Left K) : Outcome (Left K) :=
  if nd = false ∧ l.terms.length ≠ 2 then .abort
  else match l.terms.reverse with
    | b :: a :: rest => do
      let e ← o.apply a b
      return ⟨some e, rest.reverse⟩
    | _ => .ub .emptyAccess

variable (nd : Bool) (env : String → Option (Expr K))

mutual
/-- The expressions that a term denotes. `nd` means that assertions are disabled, `env` are the formulas
defined so far. -/
def Raw.eval : Raw → Outcome (List (Expr K))
  | .tru => .ok [.Const true]
  | .fls => .ok [.Const false]
  | .ref n => match env n with
    | some e => .ok [e]
    | none => .throw .outOfRange
  | .paren is => do
    let l ← Item.evalAll is {}
    match l.value with
    | some e => .ok (l.terms ++ [e])
    | none => .throw .logicError
/-- Several terms. -/
def Raw.evalAll : List Raw → Outcome (List (Expr K))
  | [] => .ok []
  | t :: ts => do
    let es ← Raw.eval t
    let es' ← Raw.evalAll ts
    return es ++ es'
/-- An expression. -/
def Item.eval : Item → Left K → Outcome (Left K)
  | .cmp o n c, l => do
    let d ← c.eval
    return { l with value := some (.pred n o d) }
  | .un o t, l => do
    let es ← Raw.eval t
    Left.un nd o { l with terms := l.terms ++ es }
  | .nary o ts, l => do
    let es ← Raw.evalAll ts
    Left.nary o { l with terms := l.terms ++ es }
  | .bin o a b, l => do
    let es ← Raw.eval a
    let es' ← Raw.eval b
    Left.bin nd o { l with terms := l.terms ++ es ++ es' }
  | .term t, l => do
    let es ← Raw.eval t
    return { l with terms := l.terms ++ es }
/-- Several expressions. -/
def Item.evalAll : List Item → Left K → Outcome (Left K)
  | [], l => .ok l
  | i :: is, l => do
    let l' ← Item.eval i l
    Item.evalAll is l'
end

/-- The expression that a command names: the last one of its term; with assertions enabled it must be the
only one. -/
def theTerm (es : List (Expr K)) : Outcome (Expr K) :=
  if nd = false ∧ es.length ≠ 1 then .abort
  else match es.getLast? with
    | some e => .ok e
    | none => .ub .emptyAccess

/-- The effect of a command. -/
def RawCmd.eval (sp : Specification K) : RawCmd → Outcome (Specification K)
  | .define n t => do
    let e ← theTerm nd (← t.eval nd (find sp.formulas))
    let m ← addNew sp.formulas n e
    return { sp with formulas := m }
  | .assert n t => do
    let e ← theTerm nd (← t.eval nd (find sp.formulas))
    let m ← addNew sp.assertions n e
    return { sp with assertions := m }

/-- Commands one after the other. -/
def evalRaws (sp : Specification K) : List RawCmd → Outcome (Specification K)
  | [] => .ok sp
  | c :: cs => do
    let sp' ← c.eval nd sp
    evalRaws sp' cs

end
end Spec
end Verif
