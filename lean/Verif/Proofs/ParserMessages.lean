import Verif.Model.ParserMessages
import Verif.Proofs.ParserConv
import Verif.Proofs.ParserErrors

/-! # Lemmas about the messages of parse errors: the results are those of the parser without messages -/

set_option linter.unusedSectionVars false

namespace Verif
open Spec

/-- Without the message and the places. -/
def plain {K : Type} (x : Said (Except (List Char) (List Char) × PState K)) : Outcome (Option (List Char) × PState K) :=
  x.forget >>= fun p => .ok (p.1.toOption, p.2)

/-- A rule with messages gives the results of a rule without. -/
def Tells {K : Type} (rm : RuleM K) (r : Rule K) : Prop := ∀ inp st, plain (rm inp st) = r inp st

namespace Lex

theorem exponentM_forget (l : List Char) : (exponentM l).forget = exponent l := by
  cases l with
  | nil => rfl
  | cons c cs =>
    simp only [exponentM, exponent]
    split
    · cases decimalSeq (optSign cs) <;> rfl
    · rfl

theorem doubleAlt1M_forget (l : List Char) : (doubleAlt1M l).forget = doubleAlt1 l := by
  unfold doubleAlt1M doubleAlt1
  split
  · rename_i cs h
    simp only [h]
    cases decimalSeq cs with
    | none => rfl
    | some r =>
      simp only
      rw [← exponentM_forget]
      rcases exponentM r with _ | ((_ | _) | _ | _ | _ | _) <;> rfl
  · rename_i h
    split
    · rename_i cs h'
      exact absurd h' (h cs)
    · rfl

theorem doubleAlt2M_forget (l : List Char) : (doubleAlt2M l).forget = doubleAlt2 l := by
  unfold doubleAlt2M doubleAlt2
  cases decimalSeq l with
  | none => rfl
  | some r => exact exponentM_forget _

theorem doubleLitM_forget (l : List Char) : (doubleLitM l).forget = doubleLit l := by
  unfold doubleLitM doubleLit
  rw [← doubleAlt1M_forget, ← doubleAlt2M_forget]
  rcases doubleAlt1M l with _ | ((_ | _) | _ | _ | _ | _)
  on_goal 2 => rcases doubleAlt2M l with _ | ((_ | _) | _ | _ | _ | _) <;> rfl
  all_goals rfl

end Lex

namespace Tells
variable {K : Type} {c r r1 r2 : RuleM K} {c' r' r1' r2' : Rule K}

theorem lex (f : List Char → Option (List Char)) : Tells (K := K) (RuleM.lex f) (Rule.lex f) := fun inp st => by
  simp only [RuleM.lex, Rule.lex]
  cases f inp <;> rfl

theorem seq (h1 : Tells r1 r1') (h2 : Tells r2 r2') : Tells (RuleM.seq r1 r2) (Rule.seq r1' r2') := fun inp st => by
  simp only [RuleM.seq, Rule.seq]
  rw [← h1 inp st]
  rcases r1 inp st with _ | (⟨_ | rest, st'⟩ | _ | _ | _ | _)
  on_goal 3 => exact h2 rest st'
  all_goals rfl

theorem sor (h1 : Tells r1 r1') (h2 : Tells r2 r2') : Tells (RuleM.sor r1 r2) (Rule.sor r1' r2') := fun inp st => by
  simp only [RuleM.sor, Rule.sor]
  rw [← h1 inp st]
  rcases r1 inp st with _ | (⟨_ | rest, st'⟩ | _ | _ | _ | _)
  on_goal 2 => exact h2 inp st'
  all_goals rfl

theorem must (m : Msg) (h : Tells r r') : Tells (RuleM.must m r) (Rule.must r') := fun inp st => by
  simp only [RuleM.must, Rule.must]
  rw [← h inp st]
  rcases r inp st with _ | (⟨_ | rest, st'⟩ | _ | _ | _ | _) <;> rfl

theorem ifMust (m : Msg) (h1 : Tells c c') (h2 : Tells r r') : Tells (RuleM.ifMust m c r) (Rule.ifMust c' r') :=
  seq h1 (must m h2)

theorem act (h : Tells r r') (f : PState K → Outcome (PState K)) : Tells (RuleM.act r f) (Rule.act r' f) :=
  fun inp st => by
    simp only [RuleM.act, Rule.act]
    rw [← h inp st]
    rcases r inp st with _ | (⟨_ | rest, st'⟩ | _ | _ | _ | _)
    on_goal 3 =>
      show plain ((Said.does (f st')).bind _) = (f st' >>= _)
      cases f st' <;> rfl
    all_goals rfl

theorem actIn (h : Tells r r') {f : List Char → PState K → Said (PState K)} {f' : PState K → Outcome (PState K)}
    (hf : ∀ inp st, (f inp st).forget = f' st) : Tells (RuleM.actIn r f) (Rule.act r' f') :=
  fun inp st => by
    simp only [RuleM.actIn, Rule.act]
    rw [← h inp st]
    rcases r inp st with _ | (⟨_ | rest, st'⟩ | _ | _ | _ | _)
    on_goal 3 =>
      show plain ((f inp st').bind _) = (f' st' >>= _)
      rw [← hf inp st']
      rcases f inp st' with _ | (_ | _ | _ | _ | _) <;> rfl
    all_goals rfl

theorem until_ (h1 : Tells c c') (h2 : Tells r r') : ∀ n, Tells (RuleM.until_ c r n) (Rule.until_ c' r' n)
  | 0 => fun _ _ => rfl
  | n + 1 => fun inp st => by
    have ih := until_ h1 h2 n
    simp only [RuleM.until_, Rule.until_]
    rw [← h1 inp st]
    rcases c inp st with _ | (⟨_ | rest, st'⟩ | _ | _ | _ | _)
    on_goal 2 =>
      show plain ((r inp st').bind _) = (r' inp st' >>= _)
      rw [← h2 inp st']
      rcases r inp st' with _ | (⟨_ | rest, st''⟩ | _ | _ | _ | _)
      on_goal 3 => exact ih rest st''
      all_goals rfl
    all_goals rfl

theorem star (h : Tells r r') : ∀ n, Tells (RuleM.star r n) (Rule.star r' n)
  | 0 => fun _ _ => rfl
  | n + 1 => fun inp st => by
    have ih := star h n
    simp only [RuleM.star, Rule.star]
    rw [← h inp st]
    rcases r inp st with _ | (⟨_ | rest, st'⟩ | _ | _ | _ | _)
    on_goal 3 => exact ih rest st'
    all_goals rfl

theorem plus (h : Tells r r') (n : Nat) : Tells (RuleM.plus r n) (Rule.plus r' n) := seq h (star h n)

variable [Field K] [LinearOrder K]

theorem identifier : Tells (K := K) RuleM.identifier Rule.identifier := fun inp st => by
  simp only [RuleM.identifier, Rule.identifier]
  rcases Lex.ident inp with _ | ⟨t, rest⟩
  · rfl
  · dsimp only
    cases Lex.endOfWord rest <;> rfl

theorem booleanLiteral : Tells (K := K) RuleM.booleanLiteral Rule.booleanLiteral :=
  act (sor (act (lex _) _) (act (lex _) _)) _

theorem doubleLiteral [Arith K] [Strtod K] : Tells (K := K) RuleM.doubleLiteral Rule.doubleLiteral :=
  fun inp st => by
    simp only [RuleM.doubleLiteral, Rule.doubleLiteral]
    rw [← Lex.doubleLitM_forget]
    rcases Lex.doubleLitM inp with _ | ((_ | rest) | _ | _ | _ | _)
    on_goal 3 =>
      show plain ((Said.does (stod (Lex.textOf inp rest))).bind _) = (stod (Lex.textOf inp rest) >>= _)
      cases stod (K := K) (Lex.textOf inp rest) <;> rfl
    all_goals rfl

theorem integerLiteral : Tells (K := K) RuleM.integerLiteral Rule.integerLiteral := fun inp st => by
  simp only [RuleM.integerLiteral, Rule.integerLiteral]
  rcases Lex.integerLit inp with _ | rest
  · rfl
  · dsimp only
    cases stol (Lex.textOf inp rest) <;> rfl

theorem numeral [Arith K] [Strtod K] : Tells (K := K) RuleM.numeral Rule.numeral := sor doubleLiteral integerLiteral

theorem comparisonSymbol : Tells (K := K) RuleM.comparisonSymbol Rule.comparisonSymbol :=
  sor (act (lex _) _) <| sor (act (lex _) _) <| sor (act (lex _) _) (act (lex _) _)

theorem predicateTerm [Arith K] [Strtod K] : Tells (K := K) RuleM.predicateTerm Rule.predicateTerm :=
  act (ifMust _ comparisonSymbol (sor (act (seq identifier numeral) _) (act (seq numeral identifier) _))) _

theorem kw (key : String) : Tells (K := K) (RuleM.kw key) (Rule.kw key) := lex _

theorem naryAction (nd : Bool) (f : List (Expr K) → Outcome (Expr K)) (inp : List Char) (st : PState K) :
    (RuleM.naryAction nd f inp st).forget = Rule.naryAction nd f st := by
  unfold RuleM.naryAction
  split
  · rename_i h
    unfold Rule.naryAction
    rw [if_pos h]
    rfl
  · rfl

theorem expression [Arith K] [Strtod K] (nd : Bool) (fuel : Nat) (h : Tells r r') :
    Tells (RuleM.expression nd fuel r) (Rule.expression nd fuel r') :=
  sor predicateTerm <|
  sor (act (ifMust _ (kw _) h) _) <|
  sor (actIn (ifMust _ (kw _) (plus h _)) (naryAction nd _)) <|
  sor (actIn (ifMust _ (kw _) (plus h _)) (naryAction nd _)) <|
  sor (act (ifMust _ (kw _) (seq h h)) _) <|
  sor (act (ifMust _ (kw _) (seq h h)) _) <|
  sor (act (ifMust _ (kw _) (seq h h)) _) <|
  sor (act (ifMust _ (kw _) h) _) <|
  sor (act (ifMust _ (kw _) h) _) <|
  sor (act (fun inp st => by
    have key : Rule.ifMust (Rule.kw "until") (Rule.seq (Rule.must r') (Rule.must r')) inp st =
        Rule.seq (Rule.kw "until") (Rule.seq (Rule.must r') (Rule.must r')) inp st := by
      simp only [Rule.ifMust, Rule.seq, Rule.must]
      rcases Rule.kw "until" inp st with ⟨_ | rest, st'⟩ | _ | _ | _ | _
      on_goal 2 =>
        show ((r' rest st' >>= _) >>= _) >>= _ = (r' rest st' >>= _) >>= _
        rcases r' rest st' with ⟨_ | rest', st''⟩ | _ | _ | _ | _
        on_goal 2 =>
          show (r' rest' st'' >>= _) >>= _ = (r' rest' st'' >>= _)
          rcases r' rest' st'' with ⟨_ | rest', st''⟩ | _ | _ | _ | _ <;> rfl
        all_goals rfl
      all_goals rfl
    rw [key]
    exact seq (kw _) (seq (must _ h) (must _ h)) inp st) _) h

theorem onNewState (h : Tells r r') : Tells (RuleM.onNewState r) (Rule.onNewState r') := fun inp st => by
  simp only [RuleM.onNewState, Rule.onNewState]
  rw [← h]
  rcases r inp { g := st.g } with _ | (⟨_ | rest, st'⟩ | _ | _ | _ | _) <;> rfl

theorem term [Arith K] [Strtod K] (nd : Bool) : ∀ n, Tells (K := K) (RuleM.term nd n) (Rule.term nd n)
  | 0 => fun _ _ => rfl
  | n + 1 => onNewState <| act (sor (ifMust _ (lex _)
      (until_ (lex _) (expression nd n (term nd n)) n)) (sor booleanLiteral identifier)) _

theorem commandAction (nd : Bool) (ins : Specification K → String → Expr K → Specification K × Bool)
    (again : String → Msg) (inp : List Char) (st : PState K) :
    (RuleM.commandAction nd ins again inp st).forget = Rule.commandAction nd ins st := by
  unfold RuleM.commandAction Rule.commandAction
  cases assert_ nd (st.s.terms.length == 1) <;> try rfl
  cases assert_ nd (!st.s.identifiers.isEmpty) <;> try rfl
  show Said.forget ((Said.does (Rule.back st.s.identifiers)).bind _) = (Rule.back st.s.identifiers >>= _)
  rcases Rule.back st.s.identifiers with id | _ | _ | _ | _ <;> try rfl
  show Said.forget ((Said.does (Rule.back st.s.terms)).bind _) = (Rule.back st.s.terms >>= _)
  rcases Rule.back st.s.terms with e | _ | _ | _ | _ <;> try rfl
  simp only [Said.bind]
  show _ = (if (!(ins st.g id e).2) = true then _ else _)
  rcases ins st.g id e with ⟨g, _ | _⟩
  · rfl
  · show Said.forget ((Said.does (assert_ nd st.s.terms.dropLast.isEmpty)).bind _) =
      (assert_ nd st.s.terms.dropLast.isEmpty >>= _)
    rcases assert_ nd st.s.terms.dropLast.isEmpty with e | _ | _ | _ | _ <;> rfl

theorem command [Arith K] [Strtod K] (nd : Bool) (n : Nat) (key : String) :
    Tells (K := K) (RuleM.seq (RuleM.kw key) (RuleM.arguments nd n))
      (Rule.ifMust (Rule.kw key) (Rule.seq (Rule.must Rule.identifier) (Rule.must (Rule.term nd n)))) :=
  fun inp st => by
    have h : Rule.ifMust (K := K) (Rule.kw key)
        (Rule.seq (Rule.must Rule.identifier) (Rule.must (Rule.term nd n))) inp st =
        Rule.seq (Rule.kw key) (Rule.seq (Rule.must Rule.identifier) (Rule.must (Rule.term nd n))) inp st := by
      simp only [Rule.ifMust, Rule.seq, Rule.must]
      rcases Rule.kw key inp st with ⟨_ | rest, st'⟩ | _ | _ | _ | _
      on_goal 2 =>
        show ((Rule.identifier rest st' >>= _) >>= _) >>= _ = (Rule.identifier rest st' >>= _) >>= _
        rcases Rule.identifier rest st' with ⟨_ | rest', st''⟩ | _ | _ | _ | _
        on_goal 2 =>
          show (Rule.term nd n rest' st'' >>= _) >>= _ = (Rule.term nd n rest' st'' >>= _)
          rcases Rule.term nd n rest' st'' with ⟨_ | rest', st''⟩ | _ | _ | _ | _ <;> rfl
        all_goals rfl
      all_goals rfl
    rw [h]
    exact seq (kw _) (seq (must _ identifier) (must _ (term nd n))) inp st

theorem specificationFile [Arith K] [Strtod K] (nd : Bool) (n : Nat) :
    Tells (K := K) (RuleM.specificationFile nd n) (Rule.specificationFile nd n) :=
  must _ (seq (lex _) (until_ (lex _) (seq (ifMust _ (lex _) (until_ (lex _) (must _ (sor
    (actIn (command nd n _) (commandAction nd _ _)) (actIn (command nd n _) (commandAction nd _ _)))) n)) (lex _)) n))

end Tells

theorem fromStringM_forget {K : Type} [Field K] [LinearOrder K] [Arith K] [Strtod K] (nd : Bool) (fuel : Nat)
    (input : List Char) : (fromStringM (K := K) nd fuel input).forget = fromString nd fuel input := by
  simp only [fromStringM, fromString]
  rw [← Tells.specificationFile nd fuel input {}]
  rcases RuleM.specificationFile nd fuel input ({} : PState K) with _ | (⟨_ | rest, st'⟩ | _ | _ | _ | _) <;> rfl

end Verif
