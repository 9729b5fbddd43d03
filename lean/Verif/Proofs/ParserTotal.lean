import Verif.Model.Parser
import Mathlib.Tactic.Push
import Mathlib.Tactic.Linarith

/-!
# Termination of the parser

`Safe N r`: on inputs shorter than `N` the rule does not run out of fuel, and it does not extend the
input.  `Eats N r`: moreover a match consumes something.
-/

set_option linter.unusedSectionVars false

namespace Verif

/-! ## Lexical rules shorten the input -/

namespace Lex

mutual
theorem skip_le : ∀ l : List Char, (skip l).length ≤ l.length
  | [] => by simp [skip]
  | c :: cs => by
    rw [skip]
    split
    · have := skip_le cs; simp; omega
    · split
      · have := skipComment_le cs; simp; omega
      · simp
theorem skipComment_le : ∀ l : List Char, (skipComment l).length ≤ l.length
  | [] => by simp [skipComment]
  | c :: cs => by
    rw [skipComment]
    split
    · have := skip_le cs; simp; omega
    · have := skipComment_le cs; simp; omega
end

theorem dropWhile_le (p : Char → Bool) (l : List Char) : (l.dropWhile p).length ≤ l.length :=
  (List.dropWhile_suffix p).length_le

theorem str_lt {s inp rest : List Char} (hs : s ≠ []) (h : str s inp = some rest) :
    rest.length < inp.length := by
  unfold str at h
  split at h
  · rename_i hp
    simp only [Option.some.injEq] at h
    subst h
    have h1 := (List.isPrefixOf_iff_prefix.1 hp).length_le
    have h2 : 0 < s.length := List.length_pos_iff.2 hs
    simp only [List.length_drop]; omega
  · simp at h

theorem endOfWord_le {inp rest : List Char} (h : endOfWord inp = some rest) : rest.length ≤ inp.length := by
  cases inp with
  | nil => simp [endOfWord] at h; subst h; simp
  | cons c cs =>
    rw [endOfWord] at h
    split at h
    · simp at h
    · simp only [Option.some.injEq] at h; subst h; exact skip_le _

theorem keyword_lt {key : String} {inp rest : List Char} (hk : key.toList ≠ [])
    (h : keyword key inp = some rest) : rest.length < inp.length := by
  unfold keyword at h
  rw [Option.bind_eq_some_iff] at h
  obtain ⟨r, h1, h2⟩ := h
  have := str_lt hk h1
  have := endOfWord_le h2
  omega

theorem sym_lt {c : Char} {inp rest : List Char} (h : sym c inp = some rest) : rest.length < inp.length := by
  cases inp with
  | nil => simp [sym] at h
  | cons d cs =>
    rw [sym] at h
    split at h
    · simp only [Option.some.injEq] at h; subst h
      have := skip_le cs; simp; omega
    · simp at h

theorem strictSym_lt {c : Char} {inp rest : List Char} (h : strictSym c inp = some rest) :
    rest.length < inp.length := by
  cases inp with
  | nil => simp [strictSym] at h
  | cons d cs =>
    rw [strictSym.eq_def] at h
    simp only at h
    split at h
    · split at h
      · simp at h; subst h; simp
      · rename_i e es
        split at h
        · simp at h
        · simp only [Option.some.injEq] at h; subst h
          have := skip_le (e :: es); simp at *; omega
    · simp at h

theorem weakSym_lt {c : Char} {inp rest : List Char} (h : weakSym c inp = some rest) :
    rest.length < inp.length := by
  unfold weakSym at h
  rw [Option.map_eq_some_iff] at h
  obtain ⟨r, h1, rfl⟩ := h
  have := str_lt (by simp) h1
  have := skip_le r
  omega

theorem ident_lt {inp text rest : List Char} (h : ident inp = some (text, rest)) :
    rest.length < inp.length := by
  cases inp with
  | nil => simp [ident] at h
  | cons c cs =>
    rw [ident] at h
    split at h
    · simp only [Option.some.injEq, Prod.mk.injEq] at h
      obtain ⟨-, rfl⟩ := h
      have := dropWhile_le isIdOther cs
      simp; omega
    · simp at h

theorem decimalSeq_lt {inp rest : List Char} (h : decimalSeq inp = some rest) : rest.length < inp.length := by
  cases inp with
  | nil => simp [decimalSeq] at h
  | cons c cs =>
    rw [decimalSeq] at h
    split at h
    · simp only [Option.some.injEq] at h; subst h
      have := dropWhile_le Char.isDigit cs
      simp; omega
    · simp at h

theorem optSign_le (l : List Char) : (optSign l).length ≤ l.length := by
  cases l with
  | nil => simp [optSign]
  | cons c cs => rw [optSign]; split <;> simp

theorem optDot_le (l : List Char) : (optDot l).length ≤ l.length := by
  cases l with
  | nil => simp [optDot]
  | cons c cs => rw [optDot]; split <;> simp

theorem exponent_spec (inp : List Char) : exponent inp ≠ .diverge ∧
    ∀ rest, exponent inp = .ok (some rest) → rest.length < inp.length := by
  cases inp with
  | nil => simp [exponent]
  | cons c cs =>
    rw [exponent]
    split
    · cases hd : decimalSeq (optSign cs) with
      | none => simp
      | some r =>
        have := decimalSeq_lt hd
        have := optSign_le cs
        simp; omega
    · simp

theorem doubleAlt1_spec (inp : List Char) : doubleAlt1 inp ≠ .diverge ∧
    ∀ rest, doubleAlt1 inp = .ok (some rest) → rest.length < inp.length := by
  unfold doubleAlt1
  split
  · rename_i cs h1
    have l1 := decimalSeq_lt h1
    split
    · rename_i r h2
      have l2 := decimalSeq_lt h2
      obtain ⟨h3, h4⟩ := exponent_spec r
      cases he : exponent r with
      | ok o =>
        cases o with
        | none => simp at *; omega
        | some r' => have := h4 r' he; simp at *; omega
      | diverge => exact absurd he h3
      | _ => simp
    · simp
  · simp

theorem doubleAlt2_spec (inp : List Char) : doubleAlt2 inp ≠ .diverge ∧
    ∀ rest, doubleAlt2 inp = .ok (some rest) → rest.length < inp.length := by
  unfold doubleAlt2
  split
  · rename_i r h1
    have l1 := decimalSeq_lt h1
    have l2 := optDot_le r
    obtain ⟨h3, h4⟩ := exponent_spec (optDot r)
    exact ⟨h3, fun rest h => by have := h4 rest h; omega⟩
  · simp

theorem doubleLit_spec (inp : List Char) : doubleLit inp ≠ .diverge ∧
    ∀ rest, doubleLit inp = .ok (some rest) → rest.length < inp.length := by
  unfold doubleLit
  obtain ⟨h1, h2⟩ := doubleAlt1_spec inp
  obtain ⟨h3, h4⟩ := doubleAlt2_spec inp
  cases ha : doubleAlt1 inp with
  | ok o =>
    cases o with
    | some r =>
      have := h2 r ha; have := skip_le r
      simp only [Outcome.bind_ok]; simp; omega
    | none =>
      cases hb : doubleAlt2 inp with
      | ok o =>
        cases o with
        | some r =>
          have := h4 r hb; have := skip_le r
          simp only [Outcome.bind_ok]; simp; omega
        | none => simp
      | diverge => exact absurd hb h3
      | _ => simp
  | diverge => exact absurd ha h1
  | _ => simp

theorem integerLit_lt {inp rest : List Char} (h : integerLit inp = some rest) : rest.length < inp.length := by
  unfold integerLit at h
  rw [Option.map_eq_some_iff] at h
  obtain ⟨r, h1, rfl⟩ := h
  have := decimalSeq_lt h1
  have := skip_le r
  omega

end Lex

/-! ## Rules -/

namespace Rule
variable {K : Type}

/-- On inputs shorter than `N`: enough fuel, and the input is not extended. -/
def Safe (N : Nat) (r : Rule K) : Prop := ∀ inp st, inp.length < N →
  r inp st ≠ .diverge ∧ ∀ rest st', r inp st = .ok (some rest, st') → rest.length ≤ inp.length

/-- On inputs shorter than `N`: enough fuel, and a match consumes something. -/
def Eats (N : Nat) (r : Rule K) : Prop := ∀ inp st, inp.length < N →
  r inp st ≠ .diverge ∧ ∀ rest st', r inp st = .ok (some rest, st') → rest.length < inp.length

theorem Eats.safe {N : Nat} {r : Rule K} (h : Eats N r) : Safe N r := fun inp st hl =>
  ⟨(h inp st hl).1, fun rest st' e => ((h inp st hl).2 rest st' e).le⟩

theorem Safe.mono {M N : Nat} {r : Rule K} (h : Safe N r) (hm : M ≤ N) : Safe M r :=
  fun inp st hl => h inp st (by omega)

theorem Eats.mono {M N : Nat} {r : Rule K} (h : Eats N r) (hm : M ≤ N) : Eats M r :=
  fun inp st hl => h inp st (by omega)

theorem lex_safe (N : Nat) {f : List Char → Option (List Char)}
    (h : ∀ inp rest, f inp = some rest → rest.length ≤ inp.length) : Safe (K := K) N (lex f) := by
  intro inp st _
  refine ⟨by simp [lex], fun rest st' e => ?_⟩
  simp only [lex, Outcome.ok.injEq, Prod.mk.injEq] at e
  exact h _ _ e.1

theorem lex_eats (N : Nat) {f : List Char → Option (List Char)}
    (h : ∀ inp rest, f inp = some rest → rest.length < inp.length) : Eats (K := K) N (lex f) := by
  intro inp st _
  refine ⟨by simp [lex], fun rest st' e => ?_⟩
  simp only [lex, Outcome.ok.injEq, Prod.mk.injEq] at e
  exact h _ _ e.1

/-- The general step: a rule, then something that depends on whether it matched. -/
theorem bind_cases {r : Rule K} {inp : List Char} {st : PState K} (P : Outcome (Option (List Char) × PState K) → Prop)
    (k : Option (List Char) × PState K → Outcome (Option (List Char) × PState K))
    (hd : r inp st ≠ .diverge)
    (hthrow : ∀ e, P (.throw e)) (habort : P .abort) (hub : ∀ u, P (.ub u))
    (hok : ∀ p, r inp st = .ok p → P (k p)) : P (r inp st >>= k) := by
  cases h : r inp st with
  | ok p => exact hok p h
  | throw e => exact hthrow e
  | abort => exact habort
  | ub u => exact hub u
  | diverge => exact absurd h hd

theorem seq_safe {N : Nat} {r1 r2 : Rule K} (h1 : Safe N r1) (h2 : Safe N r2) : Safe N (seq r1 r2) := by
  intro inp st hl
  unfold seq
  refine bind_cases (P := fun o => o ≠ .diverge ∧ ∀ rest st', o = .ok (some rest, st') →
    rest.length ≤ inp.length) _ (h1 inp st hl).1 (by simp) (by simp) (by simp) ?_
  rintro ⟨o, st'⟩ e
  cases o with
  | none => simp
  | some rest =>
    have hr := (h1 inp st hl).2 rest st' e
    obtain ⟨a, b⟩ := h2 rest st' (by omega)
    exact ⟨a, fun rest' st'' e' => (b rest' st'' e').trans hr⟩

/-- If the first rule consumes something, the second one sees a shorter input. -/
theorem seq_eats {N : Nat} {r1 r2 : Rule K} (h1 : Eats (N + 1) r1) (h2 : Safe N r2) :
    Eats (N + 1) (seq r1 r2) := by
  intro inp st hl
  unfold seq
  refine bind_cases (P := fun o => o ≠ .diverge ∧ ∀ rest st', o = .ok (some rest, st') →
    rest.length < inp.length) _ (h1 inp st hl).1 (by simp) (by simp) (by simp) ?_
  rintro ⟨o, st'⟩ e
  cases o with
  | none => simp
  | some rest =>
    have hr := (h1 inp st hl).2 rest st' e
    obtain ⟨a, b⟩ := h2 rest st' (by omega)
    exact ⟨a, fun rest' st'' e' => lt_of_le_of_lt (b rest' st'' e') hr⟩

theorem sor_safe {N : Nat} {r1 r2 : Rule K} (h1 : Safe N r1) (h2 : Safe N r2) : Safe N (sor r1 r2) := by
  intro inp st hl
  unfold sor
  refine bind_cases (P := fun o => o ≠ .diverge ∧ ∀ rest st', o = .ok (some rest, st') →
    rest.length ≤ inp.length) _ (h1 inp st hl).1 (by simp) (by simp) (by simp) ?_
  rintro ⟨o, st'⟩ e
  cases o with
  | none => exact h2 inp st' hl
  | some rest =>
    have hr := (h1 inp st hl).2 rest st' e
    simpa using hr

theorem sor_eats {N : Nat} {r1 r2 : Rule K} (h1 : Eats N r1) (h2 : Eats N r2) : Eats N (sor r1 r2) := by
  intro inp st hl
  unfold sor
  refine bind_cases (P := fun o => o ≠ .diverge ∧ ∀ rest st', o = .ok (some rest, st') →
    rest.length < inp.length) _ (h1 inp st hl).1 (by simp) (by simp) (by simp) ?_
  rintro ⟨o, st'⟩ e
  cases o with
  | none => exact h2 inp st' hl
  | some rest =>
    have hr := (h1 inp st hl).2 rest st' e
    simpa using hr

theorem must_safe {N : Nat} {r : Rule K} (h : Safe N r) : Safe N (must r) := by
  intro inp st hl
  unfold must
  refine bind_cases (P := fun o => o ≠ .diverge ∧ ∀ rest st', o = .ok (some rest, st') →
    rest.length ≤ inp.length) _ (h inp st hl).1 (by simp) (by simp) (by simp) ?_
  rintro ⟨o, st'⟩ e
  cases o with
  | none => simp
  | some rest =>
    have hr := (h inp st hl).2 rest st' e
    simpa using hr

theorem must_eats {N : Nat} {r : Rule K} (h : Eats N r) : Eats N (must r) := by
  intro inp st hl
  unfold must
  refine bind_cases (P := fun o => o ≠ .diverge ∧ ∀ rest st', o = .ok (some rest, st') →
    rest.length < inp.length) _ (h inp st hl).1 (by simp) (by simp) (by simp) ?_
  rintro ⟨o, st'⟩ e
  cases o with
  | none => simp
  | some rest =>
    have hr := (h inp st hl).2 rest st' e
    simpa using hr

theorem ifMust_eats {N : Nat} {c r : Rule K} (h1 : Eats (N + 1) c) (h2 : Safe N r) :
    Eats (N + 1) (ifMust c r) := seq_eats h1 (must_safe h2)

/-- The action does not loop. -/
def Ends (f : PState K → Outcome (PState K)) : Prop := ∀ st, f st ≠ .diverge

theorem act_eats {N : Nat} {r : Rule K} {f : PState K → Outcome (PState K)} (h : Eats N r) (hf : Ends f) :
    Eats N (act r f) := by
  intro inp st hl
  unfold act
  refine bind_cases (P := fun o => o ≠ .diverge ∧ ∀ rest st', o = .ok (some rest, st') →
    rest.length < inp.length) _ (h inp st hl).1 (by simp) (by simp) (by simp) ?_
  rintro ⟨o, st'⟩ e
  cases o with
  | none => simp
  | some rest =>
    have hr := (h inp st hl).2 rest st' e
    have hf' := hf st'
    cases hfs : f st' with
    | diverge => exact absurd hfs hf'
    | ok s => simpa [hfs] using hr
    | _ => simp [hfs]

theorem until_safe {N : Nat} {c r : Rule K} (hc : Safe N c) (hr : Eats N r) :
    ∀ n inp st, inp.length < N → inp.length < n →
      until_ c r n inp st ≠ .diverge ∧
      ∀ rest st', until_ c r n inp st = .ok (some rest, st') → rest.length ≤ inp.length := by
  intro n
  induction n with
  | zero => intro inp st _ h; omega
  | succ n ih =>
    intro inp st hN hn
    rw [until_]
    refine bind_cases (P := fun o => o ≠ .diverge ∧ ∀ rest st', o = .ok (some rest, st') →
      rest.length ≤ inp.length) _ (hc inp st hN).1 (by simp) (by simp) (by simp) ?_
    rintro ⟨o, st'⟩ e
    cases o with
    | some rest => have := (hc inp st hN).2 rest st' e; simpa using this
    | none =>
      refine bind_cases (P := fun o => o ≠ .diverge ∧ ∀ rest st', o = .ok (some rest, st') →
        rest.length ≤ inp.length) _ (hr inp st' hN).1 (by simp) (by simp) (by simp) ?_
      rintro ⟨o, st''⟩ e
      cases o with
      | none => simp
      | some rest =>
        have hlt := (hr inp st' hN).2 rest st'' e
        obtain ⟨a, b⟩ := ih rest st'' (by omega) (by omega)
        exact ⟨a, fun rest' s e' => (b rest' s e').trans hlt.le⟩

theorem star_safe {N : Nat} {r : Rule K} (hr : Eats N r) :
    ∀ n inp st, inp.length < N → inp.length < n →
      star r n inp st ≠ .diverge ∧
      ∀ rest st', star r n inp st = .ok (some rest, st') → rest.length ≤ inp.length := by
  intro n
  induction n with
  | zero => intro inp st _ h; omega
  | succ n ih =>
    intro inp st hN hn
    rw [star]
    refine bind_cases (P := fun o => o ≠ .diverge ∧ ∀ rest st', o = .ok (some rest, st') →
      rest.length ≤ inp.length) _ (hr inp st hN).1 (by simp) (by simp) (by simp) ?_
    rintro ⟨o, st'⟩ e
    cases o with
    | none => simp
    | some rest =>
      have hlt := (hr inp st hN).2 rest st' e
      obtain ⟨a, b⟩ := ih rest st' (by omega) (by omega)
      exact ⟨a, fun rest' s e' => (b rest' s e').trans hlt.le⟩

theorem plus_safe {N : Nat} {r : Rule K} (hr : Eats N r) : Safe N (plus r N) :=
  seq_safe hr.safe fun inp st hl => star_safe hr N inp st hl hl

/-! ## The rules of the grammar -/

section
variable [Field K] [LinearOrder K]

theorem assert_ends (nd c : Bool) : assert_ nd c ≠ .diverge := by unfold assert_; split <;> simp

theorem back_ends {α : Type} (l : List α) : back l ≠ .diverge := by unfold back; split <;> simp

theorem bind_ends {α β : Type} {x : Outcome α} {f : α → Outcome β} (hx : x ≠ .diverge)
    (hf : ∀ a, f a ≠ .diverge) : (x >>= f) ≠ .diverge := by
  cases x <;> simp_all

theorem identifier_eats (N : Nat) : Eats (K := K) N identifier := by
  intro inp st _
  unfold identifier
  cases h : Lex.ident inp with
  | none => simp
  | some p =>
    obtain ⟨text, rest⟩ := p
    refine ⟨by simp, fun rest' st' e => ?_⟩
    simp only [Outcome.ok.injEq, Prod.mk.injEq] at e
    have := Lex.ident_lt h
    have := Lex.endOfWord_le e.1
    omega

theorem ok_ends (f : PState K → PState K) : Ends (fun st => .ok (f st)) := fun st => by simp

theorem booleanLiteral_eats (N : Nat) : Eats (K := K) N booleanLiteral := by
  refine act_eats (sor_eats ?_ ?_) ?_
  · exact act_eats (lex_eats N fun _ _ h => Lex.keyword_lt (by decide) h) (ok_ends _)
  · exact act_eats (lex_eats N fun _ _ h => Lex.keyword_lt (by decide) h) (ok_ends _)
  · intro st
    simp only
    split <;> simp

theorem doubleLiteral_eats [Arith K] [Strtod K] (N : Nat) : Eats (K := K) N doubleLiteral := by
  intro inp st _
  unfold doubleLiteral
  obtain ⟨h1, h2⟩ := Lex.doubleLit_spec inp
  cases h : Lex.doubleLit inp with
  | diverge => exact absurd h h1
  | ok o =>
    cases o with
    | none => simp
    | some rest =>
      have hlt := h2 rest h
      simp only [Outcome.bind_ok]
      have : stod (K := K) (Lex.textOf inp rest) ≠ .diverge := by
        unfold stod; simp only; split <;> simp
      cases hs : stod (K := K) (Lex.textOf inp rest) with
      | diverge => exact absurd hs this
      | ok d => simpa using hlt
      | _ => simp
  | _ => simp

theorem integerLiteral_eats (N : Nat) : Eats (K := K) N integerLiteral := by
  intro inp st _
  unfold integerLiteral
  cases h : Lex.integerLit inp with
  | none => simp
  | some rest =>
    have hlt := Lex.integerLit_lt h
    simp only
    have : stol (Lex.textOf inp rest) ≠ .diverge := by
      unfold stol; simp only; split <;> simp
    cases hs : stol (Lex.textOf inp rest) with
    | diverge => exact absurd hs this
    | ok d => simpa using hlt
    | _ => simp

theorem numeral_eats [Arith K] [Strtod K] (N : Nat) : Eats (K := K) N numeral :=
  sor_eats (doubleLiteral_eats N) (integerLiteral_eats N)

theorem cmpSym_eats (N : Nat) {f : List Char → Option (List Char)} (op : ComparisonOp)
    (h : ∀ inp rest, f inp = some rest → rest.length < inp.length) : Eats (K := K) N (cmpSym f op) :=
  act_eats (lex_eats N h) (ok_ends _)

theorem comparisonSymbol_eats (N : Nat) : Eats (K := K) N comparisonSymbol :=
  sor_eats (cmpSym_eats N _ fun _ _ h => Lex.strictSym_lt h) <|
    sor_eats (cmpSym_eats N _ fun _ _ h => Lex.strictSym_lt h) <|
      sor_eats (cmpSym_eats N _ fun _ _ h => Lex.weakSym_lt h)
        (cmpSym_eats N _ fun _ _ h => Lex.weakSym_lt h)

theorem setType_ends (t : PredicateType) : Ends (K := K) (setType t) := fun st => by simp [setType]

theorem predicateForm_safe [Arith K] [Strtod K] (N : Nat) : Eats (K := K) N predicateForm := by
  cases N with
  | zero => intro inp st h; omega
  | succ N =>
    exact sor_eats (act_eats (seq_eats (identifier_eats _) (numeral_eats N).safe) (setType_ends _))
      (act_eats (seq_eats (numeral_eats _) (identifier_eats N).safe) (setType_ends _))

theorem value_ends {α : Type} (o : Option α) : value o ≠ .diverge := by cases o <;> simp [value]

theorem predicateAction_ends [Arith K] : Ends (K := K) predicateAction := by
  intro st
  unfold predicateAction
  simp only
  split
  · simp
  · refine bind_ends (back_ends _) fun _ => bind_ends (value_ends _) fun _ =>
      bind_ends (bind_ends (value_ends _) fun p => by cases p <;> simp) fun _ => ?_
    split <;> simp [value, Outcome.map']

theorem predicateTerm_eats [Arith K] [Strtod K] (N : Nat) : Eats (K := K) N predicateTerm := by
  cases N with
  | zero => intro inp st h; omega
  | succ N =>
    exact act_eats (ifMust_eats (comparisonSymbol_eats _) (predicateForm_safe N).safe) predicateAction_ends

theorem unaryAction_ends (nd one : Bool) (f : Expr K → Expr K) : Ends (unaryAction nd one f) := fun st =>
  bind_ends (assert_ends _ _) fun _ => bind_ends (back_ends _) fun _ =>
    bind_ends (assert_ends _ _) fun _ => by simp

theorem binaryAction_ends (nd : Bool) {f : Expr K → Expr K → Outcome (Expr K)}
    (hf : ∀ a b, f a b ≠ .diverge) : Ends (binaryAction nd f) := fun st =>
  bind_ends (assert_ends _ _) fun _ => bind_ends (back_ends _) fun _ => bind_ends (back_ends _) fun _ =>
    bind_ends (hf _ _) fun _ => bind_ends (assert_ends _ _) fun _ => by simp

theorem naryAction_ends (nd : Bool) {f : List (Expr K) → Outcome (Expr K)}
    (hf : ∀ l, f l ≠ .diverge) : Ends (naryAction nd f) := fun st =>
  by
    unfold naryAction
    split
    · simp
    · exact bind_ends (assert_ends _ _) fun _ => bind_ends (hf _) fun _ => by simp

theorem And_ends (l : List (Expr K)) : Expr.And l ≠ .diverge := by unfold Expr.And; split <;> simp
theorem Or_ends (l : List (Expr K)) : Expr.Or l ≠ .diverge := by unfold Expr.Or; split <;> simp

theorem andOp_ends (a b : Expr K) : Expr.andOp a b ≠ .diverge := by
  unfold Expr.andOp
  split
  · simp
  · unfold Expr.andHelper; split <;> exact And_ends _
  · exact And_ends _

theorem orOp_ends (a b : Expr K) : Expr.orOp a b ≠ .diverge := by
  unfold Expr.orOp
  split
  · simp
  · unfold Expr.orHelper; split <;> exact Or_ends _
  · exact Or_ends _

theorem kw_eats (N : Nat) {key : String} (h : key.toList ≠ []) : Eats (K := K) N (kw key) :=
  lex_eats N fun _ _ e => Lex.keyword_lt h e

theorem expression_eats [Arith K] [Strtod K] (nd : Bool) (N : Nat) {term : Rule K} (ht : Eats N term) :
    Eats N (expression nd N term) := by
  cases N with
  | zero => intro inp st h; omega
  | succ N =>
  have h2 : Safe N (seq term term) := seq_safe (ht.safe.mono (by omega)) (ht.safe.mono (by omega))
  have h1 : Safe N term := ht.safe.mono (by omega)
  have hp : Safe N (plus term (N + 1)) := by
    have := plus_safe ht
    exact this.mono (by omega)
  have hm : Safe N (seq (must term) (must term)) := seq_safe (must_safe h1) (must_safe h1)
  have un : ∀ key : String, key.toList ≠ [] → ∀ one f,
      Eats (N + 1) (act (ifMust (kw key) term) (unaryAction nd one f)) := fun key hk one f =>
    act_eats (ifMust_eats (kw_eats _ hk) h1) (unaryAction_ends nd one f)
  have bin : ∀ key : String, key.toList ≠ [] → ∀ f : Expr K → Expr K → Outcome (Expr K),
      (∀ a b, f a b ≠ .diverge) →
      Eats (N + 1) (act (ifMust (kw key) (seq term term)) (binaryAction nd f)) := fun key hk f hf =>
    act_eats (ifMust_eats (kw_eats _ hk) h2) (binaryAction_ends nd hf)
  refine sor_eats (predicateTerm_eats _) <| sor_eats (un _ (by decide) _ _) <|
    sor_eats (act_eats (ifMust_eats (kw_eats _ (by decide)) hp) (naryAction_ends nd And_ends)) <|
    sor_eats (act_eats (ifMust_eats (kw_eats _ (by decide)) hp) (naryAction_ends nd Or_ends)) <|
    sor_eats (bin _ (by decide) _ fun _ _ => orOp_ends _ _) <|
    sor_eats (bin _ (by decide) _ fun _ _ => bind_ends (andOp_ends _ _) fun _ =>
      bind_ends (andOp_ends _ _) fun _ => orOp_ends _ _) <|
    sor_eats (bin _ (by decide) _ fun _ _ => bind_ends (orOp_ends _ _) fun _ =>
      bind_ends (orOp_ends _ _) fun _ => andOp_ends _ _) <|
    sor_eats (un _ (by decide) _ _) <| sor_eats (un _ (by decide) _ _) <|
    sor_eats (act_eats (ifMust_eats (kw_eats _ (by decide)) hm)
      (binaryAction_ends nd fun _ _ => by simp)) ht

theorem termAction_ends : Ends (K := K) termAction := by
  intro st
  unfold termAction
  split
  · simp
  · split
    · refine bind_ends ?_ fun _ => by simp
      unfold lookup; split <;> simp
    · simp

theorem onNewState_eats {N : Nat} {r : Rule K} (h : Eats N r) : Eats N (onNewState r) := by
  intro inp st hl
  unfold onNewState
  refine bind_cases (P := fun o => o ≠ .diverge ∧ ∀ rest st', o = .ok (some rest, st') →
    rest.length < inp.length) _ (h inp _ hl).1 (by simp) (by simp) (by simp) ?_
  rintro ⟨o, st'⟩ e
  cases o with
  | none => simp
  | some rest =>
    have hr := (h inp _ hl).2 rest st' e
    simpa using hr

theorem term_eats [Arith K] [Strtod K] (nd : Bool) : ∀ n, Eats (K := K) n (term nd n)
  | 0 => fun inp st h => by omega
  | n + 1 => by
    have ih := term_eats nd n
    rw [term]
    refine onNewState_eats (act_eats (sor_eats ?_ (sor_eats (booleanLiteral_eats _) (identifier_eats _)))
      termAction_ends)
    refine ifMust_eats (lex_eats _ fun _ _ h => Lex.sym_lt h) ?_
    intro inp st hl
    exact until_safe (lex_safe n fun _ _ h => (Lex.sym_lt h).le) (expression_eats nd n ih) n inp st hl hl

theorem commandAction_ends (nd : Bool) (ins : Specification K → String → Expr K → Specification K × Bool) :
    Ends (commandAction nd ins) := by
  intro st
  refine bind_ends (assert_ends _ _) fun _ => bind_ends (assert_ends _ _) fun _ =>
    bind_ends (back_ends _) fun id => bind_ends (back_ends _) fun e => ?_
  simp only
  split
  · simp
  · exact bind_ends (assert_ends _ _) fun _ => by simp

theorem command_eats [Arith K] [Strtod K] (nd : Bool) (N fuel : Nat) (hf : N ≤ fuel) :
    Eats (K := K) N (must (sor (assertion nd fuel) (defineFormula nd fuel))) := by
  cases N with
  | zero => intro inp st h; omega
  | succ N =>
  have ht : Safe (K := K) N (seq (must identifier) (must (term nd fuel))) :=
    seq_safe (must_safe (identifier_eats N).safe) (must_safe ((term_eats nd fuel).safe.mono (by omega)))
  exact must_eats (sor_eats
    (act_eats (ifMust_eats (kw_eats _ (by decide)) ht) (commandAction_ends _ _))
    (act_eats (ifMust_eats (kw_eats _ (by decide)) ht) (commandAction_ends _ _)))

theorem anyCommand_eats [Arith K] [Strtod K] (nd : Bool) (N fuel : Nat) (hf : N ≤ fuel) :
    Eats (K := K) N (anyCommand nd fuel) := by
  cases N with
  | zero => intro inp st h; omega
  | succ N =>
  refine ifMust_eats (lex_eats _ fun _ _ h => Lex.sym_lt h) ?_
  intro inp st hl
  exact until_safe (lex_safe N fun _ _ h => (Lex.sym_lt h).le) (command_eats nd N fuel (by omega)) fuel inp st hl
    (by omega)

theorem specificationFile_safe [Arith K] [Strtod K] (nd : Bool) (fuel : Nat) :
    Safe (K := K) fuel (specificationFile nd fuel) := by
  refine must_safe (seq_safe ?_ ?_)
  · exact lex_safe _ fun inp rest h => by
      simp only [Option.some.injEq] at h; subst h; exact Lex.skip_le _
  · intro inp st hl
    refine until_safe (lex_safe fuel ?_) ?_ fuel inp st hl hl
    · intro inp rest h
      split at h
      · simp at h; subst h; simp
      · simp at h
    · cases fuel with
      | zero => intro inp st h; omega
      | succ N =>
        refine seq_eats (anyCommand_eats nd _ _ le_rfl) (lex_safe _ fun inp rest h => ?_)
        simp only [Option.some.injEq] at h; subst h; exact Lex.skip_le _

end
end Rule
end Verif
