import Verif.Proofs.Peg
import Verif.Proofs.ParserFuel

/-!
# The PEG machine on the grammar of grammar.hpp: the rules
-/

set_option linter.unusedSectionVars false

namespace Verif
namespace Peg

variable {K : Type} [Field K] [LinearOrder K] [Arith K] [Strtod K] {nd : Bool}

/-- A lexical rule that may throw. -/
def lexO (f : List Char → Outcome (Option (List Char))) : Rule K := fun inp st =>
  f inp >>= fun r => .ok (r, st)

theorem Ev.opt {a : Bool} {e : Exp Nt} {f : Rule K} (h : Ev nd a e f) : Ev nd a (.opt e) (optR f) :=
  (EvtR.optR h).step fun _ => rfl

theorem Ev.congr {a : Bool} {e : Exp Nt} {f f' : Rule K} (h : Ev nd a e f)
    (hf : ∀ inp st, f inp st = f' inp st) : Ev nd a e f' := by
  have : f = f' := funext fun inp => funext fun st => hf inp st
  exact this ▸ h

/-! ## Numerals -/

theorem EvL.optSign : EvL K nd (.opt (.one ['+', '-'])) (fun inp => some (Lex.optSign inp)) :=
  (EvL.one _).opt.congr fun l => by
    cases l with
    | nil => rfl
    | cons c cs =>
      simp only [chr, Lex.optSign]
      by_cases h : c = '+' ∨ c = '-' <;> simp [h]

theorem EvL.optDot : EvL K nd (.opt (.one ['.'])) (fun inp => some (Lex.optDot inp)) :=
  (EvL.one _).opt.congr fun l => by
    cases l with
    | nil => rfl
    | cons c cs =>
      simp only [chr, Lex.optDot]
      by_cases h : c = '.' <;> simp [h]

theorem Ev.exponent (a : Bool) : Ev (K := K) nd a (.nt .exponent) (lexO Lex.exponent) :=
  Ev.nothing (x := .exponent) (((EvL.one ['e', 'E'] a).ifMust
    ((EvL.optSign.seq EvL.plusDigit) a)).congr fun inp st => by
      cases inp with
      | nil => rfl
      | cons c cs =>
        simp only [Rule.ifMust, Rule.seq, Rule.lex, Rule.must, lexO, chr, Lex.exponent, Outcome.bind_ok]
        by_cases h : c = 'e' ∨ c = 'E'
        · have h' : List.contains ['e', 'E'] c = true := by simpa using h
          simp only [h, h', if_true, Option.bind_some]
          cases Lex.decimalSeq (Lex.optSign cs) <;> rfl
        · have h' : List.contains ['e', 'E'] c = false := by
            rw [Bool.eq_false_iff]; simpa using h
          simp only [h, h', if_false, Bool.false_eq_true]
          rfl) rfl

theorem Ev.doubleAlt1 (a : Bool) : Ev (K := K) nd a
    (.seq (.nt .decimal_seq) <| .seq (.one ['.']) <| .seq (.nt .decimal_seq) <| .opt (.nt .exponent))
    (lexO Lex.doubleAlt1) :=
  ((EvL.decimalSeq a).seq ((EvL.one ['.'] a).seq ((EvL.decimalSeq a).seq (Ev.exponent a).opt))).congr
    fun inp st => by
      simp only [Rule.seq, Rule.lex, lexO, Lex.doubleAlt1, Outcome.bind_ok]
      cases h1 : Lex.decimalSeq inp with
      | none => rfl
      | some r =>
        cases r with
        | nil => rfl
        | cons c cs =>
          by_cases hc : c = '.'
          · subst hc
            simp only [chr, show List.contains ['.'] '.' = true from rfl, if_true]
            cases h2 : Lex.decimalSeq cs with
            | none => rfl
            | some r2 =>
              simp only [optR, lexO]
              rcases Lex.exponent r2 with ⟨_ | r3⟩ | _ | _ | _ | _ <;> rfl
          · have h' : List.contains ['.'] c = false := by
              rw [Bool.eq_false_iff]; simpa using hc
            simp only [chr, h', Bool.false_eq_true, if_false]
            split
            · rename_i h
              simp only [Option.some.injEq, List.cons.injEq] at h
              exact (hc h.1).elim
            · rfl

theorem Ev.doubleAlt2 (a : Bool) : Ev (K := K) nd a
    (.seq (.nt .decimal_seq) <| .seq (.opt (.one ['.'])) <| .nt .exponent) (lexO Lex.doubleAlt2) :=
  ((EvL.decimalSeq a).seq ((EvL.optDot a).seq (Ev.exponent a))).congr fun inp st => by
    simp only [Rule.seq, Rule.lex, lexO, Lex.doubleAlt2, Outcome.bind_ok]
    cases Lex.decimalSeq inp <;> rfl

theorem Ev.doubleLiteral : Ev (K := K) nd true (.nt .DoubleLiteral) Rule.doubleLiteral :=
  (Ev.apply (x := .DoubleLiteral) (((Ev.doubleAlt1 true).sor (Ev.doubleAlt2 true)).seq (EvL.skip true))
    rfl).congr fun inp st => by
      simp only [applied, Rule.seq, Rule.sor, Rule.lex, lexO, Rule.doubleLiteral, Lex.doubleLit]
      rcases Lex.doubleAlt1 inp with ⟨_ | r⟩ | _ | _ | _ | _ <;> try rfl
      · simp only [Outcome.bind_ok]
        rcases Lex.doubleAlt2 inp with ⟨_ | r⟩ | _ | _ | _ | _ <;> try rfl
        simp only [Outcome.bind_ok, Outcome.pure_eq_ok]
        cases stod (K := K) (Lex.textOf inp (Lex.skip r)) <;> rfl
      · simp only [Outcome.bind_ok, Outcome.pure_eq_ok]
        cases stod (K := K) (Lex.textOf inp (Lex.skip r)) <;> rfl

theorem Ev.integerLiteral : Ev (K := K) nd true (.nt .IntegerLiteral) Rule.integerLiteral :=
  (Ev.apply (x := .IntegerLiteral) ((EvL.decimalSeq.seq EvL.skip) true) rfl).congr fun inp st => by
    simp only [applied, Rule.lex, Rule.integerLiteral, Lex.integerLit, Outcome.bind_ok]
    cases Lex.decimalSeq inp with
    | none => rfl
    | some r =>
      simp only [Option.bind_some, Option.map_some]
      cases stol (Lex.textOf inp (Lex.skip r)) <;> rfl

theorem Ev.numeral : Ev (K := K) nd true (.nt .Numeral) Rule.numeral :=
  (Ev.doubleLiteral.sor Ev.integerLiteral).nothing rfl

/-! ## Identifiers and keywords -/

theorem textOf_ident (p : Char → Bool) (c : Char) (cs : List Char) :
    Lex.textOf (c :: cs) (cs.dropWhile p) = c :: cs.takeWhile p := by
  have h : cs.takeWhile p ++ cs.dropWhile p = cs := List.takeWhile_append_dropWhile
  have hl : cs.length = (cs.takeWhile p).length + (cs.dropWhile p).length := by
    conv_lhs => rw [← h]
    exact List.length_append
  rw [Lex.textOf]
  conv_lhs => arg 2; rw [← h]
  rw [List.length_cons, show cs.length + 1 - (cs.dropWhile p).length = (cs.takeWhile p).length + 1 by omega,
    List.take_succ_cons, List.take_left']
  rfl

theorem Ev.identifier : Ev (K := K) nd true (.nt .Identifier) Rule.identifier :=
  Ev.nothing (x := .Identifier) (((Ev.apply (x := .pegIdentifier)
    ((EvL.identifierFirst.seq (EvL.starChr EvL.identifierOther)) true) rfl).seq
      (EvL.endOfWord true)).congr fun inp st => by
        cases inp with
        | nil => rfl
        | cons c cs =>
          simp only [Rule.seq, applied, Rule.lex, chr, Rule.identifier, Lex.ident, Outcome.bind_ok]
          by_cases h : Lex.isIdFirst c = true
          · simp only [h, if_true, Option.bind_some, textOf_ident]
            rfl
          · simp only [h]
            rfl) rfl

theorem Ev.booleanLiteral : Ev (K := K) nd true (.nt .BooleanLiteral) Rule.booleanLiteral :=
  Ev.act (x := .BooleanLiteral) ((Ev.act (x := .KwTrue) (EvL.keyword "true" true) rfl).sor
    (Ev.act (x := .KwFalse) (EvL.keyword "false" true) rfl)) rfl

/-! ## Predicates -/

theorem Ev.comparisonSymbol : Ev (K := K) nd true
    (.sor (.nt .LtSymbol) <| .sor (.nt .GtSymbol) <| .sor (.nt .LeSymbol) (.nt .GeSymbol))
    Rule.comparisonSymbol :=
  (Ev.act (x := .LtSymbol) (EvL.strictSym '<' true) rfl).sor <|
    (Ev.act (x := .GtSymbol) (EvL.strictSym '>' true) rfl).sor <|
      (Ev.act (x := .LeSymbol) (EvL.weakSym '<' true) rfl).sor
        (Ev.act (x := .GeSymbol) (EvL.weakSym '>' true) rfl)

theorem Ev.predicateTerm : Ev (K := K) nd true (.nt .PredicateTerm) Rule.predicateTerm :=
  Ev.act (x := .PredicateTerm) (Ev.comparisonSymbol.ifMust
    (Ev.nothing (x := .PredicateForm)
      ((Ev.act (x := .PredicateForm1) (Ev.identifier.seq Ev.numeral) rfl).sor
        (Ev.act (x := .PredicateForm2) (Ev.numeral.seq Ev.identifier) rfl)) rfl)) rfl

/-! ## Terms -/

theorem Ev.kw {x : Nt} (key : String) (h : rules x = Peg.keyword key)
    (hx : actions (K := K) nd x = .nothing) : Ev (K := K) nd true (.nt x) (Rule.kw key) :=
  Ev.nothing (h ▸ EvL.keyword key true) hx

theorem Ev.expression {t : Rule K} (ht : Ev nd true (.nt .Term) t) (n : Nat) :
    Ev nd true Peg.expression (Rule.expression nd n t) :=
  Ev.predicateTerm.sor <|
  (Ev.act (x := .NotTerm) ((Ev.kw (x := .KwNot) "not" rfl rfl).ifMust ht) rfl).sor <|
  (Ev.act (x := .AndTerm) ((Ev.kw (x := .KwAnd) "and" rfl rfl).ifMust
    (Ev.nothing (x := .NaryTail) (ht.plus n) rfl)) rfl).sor <|
  (Ev.act (x := .OrTerm) ((Ev.kw (x := .KwOr) "or" rfl rfl).ifMust
    (Ev.nothing (x := .NaryTail) (ht.plus n) rfl)) rfl).sor <|
  (Ev.act (x := .ImpliesTerm) ((Ev.kw (x := .KwImplies) "implies" rfl rfl).ifMust
    (Ev.nothing (x := .BinaryTail) (ht.seq ht) rfl)) rfl).sor <|
  (Ev.act (x := .IffTerm) ((Ev.kw (x := .KwIff) "iff" rfl rfl).ifMust
    (Ev.nothing (x := .BinaryTail) (ht.seq ht) rfl)) rfl).sor <|
  (Ev.act (x := .XorTerm) ((Ev.kw (x := .KwXor) "xor" rfl rfl).ifMust
    (Ev.nothing (x := .BinaryTail) (ht.seq ht) rfl)) rfl).sor <|
  (Ev.act (x := .AlwaysTerm) ((Ev.kw (x := .KwAlways) "always" rfl rfl).ifMust ht) rfl).sor <|
  (Ev.act (x := .EventuallyTerm) ((Ev.kw (x := .KwEventually) "eventually" rfl rfl).ifMust ht) rfl).sor <|
  (Ev.act (x := .UntilTerm) ((Ev.kw (x := .KwUntil) "until" rfl rfl).ifMust2 ht ht) rfl).sor ht

/-- A lexical rule with a name. -/
theorem EvL.nt {x : Nt} {f : List Char → Option (List Char)} (h : EvL K nd (rules x) f)
    (hx : actions (K := K) nd x = .nothing) : Ev (K := K) nd true (.nt x) (Rule.lex f) := h.nothing hx true

theorem Ev.term : ∀ n, Ev (K := K) nd true (.nt .Term) (Rule.term nd n)
  | 0 => fun _ _ hd => (hd rfl).elim
  | n + 1 => by
    have h : Ev (K := K) nd true (rules .Term) _ :=
      ((EvL.nt (x := .LParen) (EvL.sym '(') rfl).ifMust ((EvL.nt (x := .RParen) (EvL.sym ')') rfl).untl
        (Ev.expression (Ev.term n) n) n)).sor (Ev.booleanLiteral.sor Ev.identifier)
    have h' := (EvtR.wrap (actions nd .Term) true h).step
      (F := fun m => (grammar nd).run m true (.nt .Term)) fun _ => rfl
    rw [Rule.term, act_eq]
    exact h'

/-! ## Commands -/

theorem Ev.specificationFile (n : Nat) :
    Ev (K := K) nd true (.nt .SpecificationFile) (Rule.specificationFile nd n) := by
  have hs : Ev (K := K) nd true (.nt .Skip) (Rule.lex fun inp => some (Lex.skip inp)) := EvL.skip true
  have h1 : Ev (K := K) nd true (.nt .Assertion) (Rule.assertion nd n) :=
    Ev.act (x := .Assertion) ((Ev.kw (x := .KwAssert) "assert" rfl rfl).ifMust2 Ev.identifier (Ev.term n)) rfl
  have h2 : Ev (K := K) nd true (.nt .DefineFormula) (Rule.defineFormula nd n) :=
    Ev.act (x := .DefineFormula) ((Ev.kw (x := .KwDefineFormula) "define-formula" rfl rfl).ifMust2
      Ev.identifier (Ev.term n)) rfl
  have h3 : Ev (K := K) nd true (.nt .AnyCommand) (Rule.anyCommand nd n) :=
    Ev.nothing (x := .AnyCommand) ((EvL.nt (x := .LParen) (EvL.sym '(') rfl).ifMust
      ((EvL.nt (x := .RParen) (EvL.sym ')') rfl).untl
        (Ev.nothing (x := .Command) (h1.sor h2).must rfl) n)) rfl
  have h4 : Ev (K := K) nd true .eof Rule.eof := fun inp st => Evt.of_eq fun m => by
    cases inp <;> rfl
  exact Ev.nothing (x := .SpecificationFile) (Ev.nothing (x := .StatementList)
    (hs.seq (h4.untl (h3.seq hs) n)) rfl).must rfl

/-- The machine computes what `fromString` computes. -/
theorem parse_eq (nd : Bool) (n : Nat) (input : List Char) (h : fromString (K := K) nd n input ≠ .diverge) :
    ∃ N, ∀ m, N ≤ m → parse (K := K) nd m input = fromString nd n input := by
  refine ((Ev.specificationFile (nd := nd) (K := K) n input {}).bind (k := fun r => match r with
    | (some _, st) => .ok st.g
    | (none, _) => .throw .logicError) (G := fun _ r => match r with
    | (some _, st) => .ok st.g
    | (none, _) => .throw .logicError) fun _ => .const _) ?_
  exact h

end Peg
end Verif
