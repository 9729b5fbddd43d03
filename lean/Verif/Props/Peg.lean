import Verif.Proofs.PegRules
import Verif.Proofs.PegHalts
import Verif.Props.Parser

/-!
# The grammar as data: C115, C116
-/

set_option linter.unusedSectionVars false

namespace Verif
open Rule Peg

variable {K : Type} [Field K] [LinearOrder K] [Arith K] [Strtod K]

/-! ## C115 -/

/-- **C115.** For every text, the PEG machine running the rules of grammar.hpp with the actions of
actions.hpp gives exactly what `fromString` gives. -/
theorem C115_same (nd : Bool) (input : List Char) :
    ∃ n, ∀ fuel, n ≤ fuel → parse (K := K) nd fuel input = fromString nd (input.length + 1) input :=
  parse_eq nd _ input (fromString_ne_diverge nd (by omega))

/-- **C115.** With less fuel the machine does not come to an end; it never gives another result. -/
theorem C115_any_fuel (nd : Bool) (input : List Char) (fuel : Nat) :
    parse (K := K) nd fuel input = .diverge ∨
      parse (K := K) nd fuel input = fromString nd (input.length + 1) input := by
  by_cases h : (grammar (K := K) nd).run fuel true (.nt .SpecificationFile) input {} = .diverge
  · left
    rw [parse, h]
    rfl
  · right
    obtain ⟨n, hn⟩ := C115_same (K := K) nd input
    rw [← hn (max n fuel) (by omega), parse, parse, run_mono _ (by omega : fuel ≤ max n fuel) _ _ _ _ h]

/-- **C115.** Every rule on its own: the machine runs `Term` of grammar.hpp as the function `Rule.term`. -/
theorem C115_term (nd : Bool) (n : Nat) (inp : List Char) (st : PState K)
    (h : Rule.term (K := K) nd n inp st ≠ .diverge) :
    ∃ m, ∀ fuel, m ≤ fuel → (grammar nd).run fuel true (.nt .Term) inp st = Rule.term nd n inp st :=
  Ev.term n inp st h

/-- Concrete case: the machine accepts the text of C53, and gives its meaning. -/
example (nd : Bool) : ∃ n, ∀ fuel, n ≤ fuel → parse (K := ℚ) nd fuel exText = .ok exMeaning := by
  obtain ⟨n, hn⟩ := C115_same (K := ℚ) nd exText
  refine ⟨n, fun fuel hf => (hn fuel hf).trans ?_⟩
  rw [← fromString_fuel (K := ℚ) nd (Nat.lt_succ_self _) (by decide : exText.length + 1 ≤ 1000)]
  exact exText_parsed nd

/-- Concrete case: it rejects a text without a closing parenthesis. -/
example (nd : Bool) (fuel : Nat) (sp : Specification ℚ) : parse (K := ℚ) nd fuel "(".toList ≠ .ok sp := by
  rcases C115_any_fuel (K := ℚ) nd "(".toList fuel with h | h <;> rw [h]
  · simp
  · have : fromString (K := ℚ) nd ("(".toList.length + 1) "(".toList = .throw .parseError := by
      rfl
    rw [this]
    simp

/-! ## C116 -/

variable {N S : Type}

/-- **C116.** The check is sound for every PEG grammar: if it finds no issue in any rule, and no action
loops, then every rule comes back on every input and every state. -/
theorem C116_sound (g : Grammar N S) (names : List N) (hall : ∀ x, x ∈ names) (k : Nat)
    (h : g.issues names k = []) (hc : ∀ x, (g.action x).Calm) (a : Bool) (x : N) (inp : List Char) (st : S) :
    g.Halts a (.nt x) inp st := by
  have hx : ∀ x, (g.rules x).loops (g.eats k) = true ∧ g.left (g.eats k) k x = true := by
    intro x
    have := List.filter_eq_nil_iff.1 h x (hall x)
    simpa using this
  exact halts g k (fun x => (hx x).1) (fun x => (hx x).2) hc inp.length inp rfl a (.nt x) rfl st

/-- The check looks at the rules only. -/
theorem Peg.issues_rules (g : Grammar N S) (names : List N) (n : Nat) :
    g.issues names n = (⟨g.rules, fun _ => .nothing⟩ : Grammar N Unit).issues names n := by
  have he : ∀ k, g.eats k = (⟨g.rules, fun _ => .nothing⟩ : Grammar N Unit).eats k := by
    intro k
    induction k with
    | zero => rfl
    | succ k ih => funext x; simp only [Grammar.eats, ih]
  have hl : ∀ known k, g.left known k = (⟨g.rules, fun _ => .nothing⟩ : Grammar N Unit).left known k := by
    intro known k
    induction k with
    | zero => rfl
    | succ k ih => funext x; simp only [Grammar.left, ih]
  simp only [Grammar.issues, he, hl]

/-- **C116.** The grammar of grammar.hpp has no issue. -/
theorem C116_no_issues (nd : Bool) : (grammar (K := K) nd).issues Nt.all 55 = [] := by
  rw [issues_rules]
  change (⟨rules, fun _ => .nothing⟩ : Grammar Nt Unit).issues Nt.all 55 = []
  decide +kernel

/-- The list of names is complete. -/
theorem Peg.Nt.mem_all (x : Nt) : x ∈ Nt.all := by cases x <;> decide

/-- No action of actions.hpp loops. -/
theorem Peg.actions_calm (nd : Bool) (x : Nt) : (actions (K := K) nd x).Calm := by
  cases x
  case BooleanLiteral =>
    intro _ st
    dsimp only
    split <;> simp
  case IntegerLiteral =>
    refine fun text st => bind_ends ?_ fun _ => by simp
    unfold stol; simp only; split <;> simp
  case DoubleLiteral =>
    refine fun text st => bind_ends ?_ fun _ => by simp
    unfold stod; simp only; split <;> simp
  case PredicateForm1 => exact fun _ => setType_ends _
  case PredicateForm2 => exact fun _ => setType_ends _
  case PredicateTerm => exact fun _ => predicateAction_ends
  case NotTerm => exact fun _ => unaryAction_ends _ _ _
  case AlwaysTerm => exact fun _ => unaryAction_ends _ _ _
  case EventuallyTerm => exact fun _ => unaryAction_ends _ _ _
  case AndTerm => exact fun _ => naryAction_ends _ And_ends
  case OrTerm => exact fun _ => naryAction_ends _ Or_ends
  case ImpliesTerm => exact fun _ => binaryAction_ends _ fun _ _ => orOp_ends _ _
  case IffTerm =>
    refine fun _ => binaryAction_ends _ fun _ _ => ?_
    exact bind_ends (andOp_ends _ _) fun _ => bind_ends (andOp_ends _ _) fun _ => orOp_ends _ _
  case XorTerm =>
    refine fun _ => binaryAction_ends _ fun _ _ => ?_
    exact bind_ends (orOp_ends _ _) fun _ => bind_ends (orOp_ends _ _) fun _ => andOp_ends _ _
  case UntilTerm => exact fun _ => binaryAction_ends _ fun _ _ => by simp
  case Term => exact fun _ => termAction_ends
  case Assertion => exact fun _ => commandAction_ends _ _
  case DefineFormula => exact fun _ => commandAction_ends _ _
  all_goals first | trivial | (intro _ st; simp)

/-- **C116.** So every rule of grammar.hpp comes back on every text, in every state of the parser. -/
theorem C116_halts (nd a : Bool) (x : Nt) (inp : List Char) (st : PState K) :
    (grammar nd).Halts a (.nt x) inp st :=
  C116_sound _ Nt.all Nt.mem_all 55 (C116_no_issues nd) (actions_calm nd) a x inp st

/-- **C116.** In one word: parsing any text comes to an end. -/
theorem C116_parse (nd : Bool) (input : List Char) :
    ∃ n, ∀ fuel, n ≤ fuel → parse (K := K) nd fuel input ≠ .diverge := by
  obtain ⟨o, ho, n, hn⟩ := C116_halts (K := K) nd true .SpecificationFile input {}
  refine ⟨n, fun fuel hf => ?_⟩
  rw [parse, hn fuel hf]
  refine bind_ends ho fun r => ?_
  rcases r with ⟨_ | _, _⟩ <;> simp

/-! The hypothesis cannot be dropped: two grammars with an issue, and how they run. -/

/-- `struct A : seq<A, one<'a'>> {}` -/
def Peg.leftRec : Grammar Unit Unit := ⟨fun _ => .seq (.nt ()) (.one ['a']), fun _ => .nothing⟩

/-- `struct A : star<opt<one<'a'>>> {}` -/
def Peg.idle : Grammar Unit Unit := ⟨fun _ => .star (.opt (.one ['a'])), fun _ => .nothing⟩

/-- **C116.** Left recursion is found, and indeed no input comes to an end. -/
theorem C116_left_recursion (n : Nat) : leftRec.issues [()] n = [()] ∧
    ∀ (a : Bool) (inp : List Char) (st : Unit), ¬ leftRec.Halts a (.nt ()) inp st := by
  constructor
  · cases n with
    | zero => rfl
    | succ n =>
      have he : ∀ k, leftRec.left (leftRec.eats (n + 1)) k () = false := by
        intro k
        induction k with
        | zero => rfl
        | succ k ih => simp only [Grammar.left, leftRec, Exp.left] at ih ⊢; simp [ih]
      simp [Grammar.issues, he]
  · rintro a inp st ⟨o, ho, n, hn⟩
    have : ∀ k, leftRec.run k a (.nt ()) inp st = .diverge ∧
        leftRec.run k a (.seq (.nt ()) (.one ['a'])) inp st = .diverge := by
      intro k
      induction k with
      | zero => exact ⟨rfl, rfl⟩
      | succ k ih =>
        refine ⟨ih.2, ?_⟩
        change (leftRec.run k a (.nt ()) inp st >>= _) = _
        rw [ih.1]
        rfl
    exact ho ((hn n le_rfl).symm.trans (this n).1)

/-- **C116.** A loop whose body need not consume anything is found, and indeed no input comes to an end. -/
theorem C116_idle_loop (n : Nat) : idle.issues [()] n = [()] ∧
    ∀ (a : Bool) (inp : List Char) (st : Unit), ¬ idle.Halts a (.nt ()) inp st := by
  constructor
  · simp [Grammar.issues, idle, Exp.loops, Exp.eats]
  · rintro a inp st ⟨o, ho, n, hn⟩
    have opt : ∀ k (inp : List Char), idle.run k a (.opt (.one ['a'])) inp st = .diverge ∨
        ∃ rest, idle.run k a (.opt (.one ['a'])) inp st = .ok (some rest, st) := by
      intro k inp
      rcases k with _ | _ | k
      · exact .inl rfl
      · exact .inl rfl
      · right
        rcases inp with _ | ⟨c, cs⟩
        · exact ⟨_, rfl⟩
        · by_cases h : ['a'].contains c
          · exact ⟨cs, by
              change (Outcome.ok (if ['a'].contains c then some cs else none, st) >>= _) = _
              rw [if_pos h]; rfl⟩
          · exact ⟨c :: cs, by
              change (Outcome.ok (if ['a'].contains c then some cs else none, st) >>= _) = _
              rw [if_neg h]; rfl⟩
    have star : ∀ k (inp : List Char), idle.run k a (.star (.opt (.one ['a']))) inp st = .diverge := by
      intro k
      induction k with
      | zero => exact fun _ => rfl
      | succ k ih =>
        intro inp
        change (idle.run k a (.opt (.one ['a'])) inp st >>= _) = _
        rcases opt k inp with h | ⟨rest, h⟩ <;> rw [h]
        · rfl
        · exact ih rest
    refine ho ((hn (n + 1) (by omega)).symm.trans ?_)
    exact star n inp

end Verif
