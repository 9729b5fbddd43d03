import Verif.Spec.Messages
import Verif.Proofs.ParserMessages

/-! # Lemmas about the messages of parse errors: what they say is true -/

set_option linter.unusedSectionVars false
set_option linter.ambiguousOpen false

namespace Verif
open Spec Lex

/-! ## Gaps and suffixes -/

theorem gap_skip (r : List Char) : ∃ g, r = g ++ skip r ∧ Gap g (skip r) := by
  rcases skip_split r with ⟨g, h1, h2⟩ | ⟨h1, h2⟩
  · exact ⟨g, h2, .inl h1⟩
  · exact ⟨r, by simp [h1], .inr ⟨h1, h2⟩⟩

theorem skip_suffix (r : List Char) : skip r <:+ r := by
  obtain ⟨g, h, -⟩ := gap_skip r
  exact ⟨g, h.symm⟩

theorem after_word {ks : List String} {k : String} (hk : k ∈ ks) {text r : List Char} (h : k.toList ++ r <:+ text) :
    After ks text (skip r) := by
  obtain ⟨p, rfl⟩ := h
  obtain ⟨g, h1, h2⟩ := gap_skip r
  exact ⟨k, hk, p, g, by rw [← h1], h2⟩

theorem begins_word {ks : List String} {k : String} (hk : k ∈ ks) (r : List Char) : Begins ks (k.toList ++ r) (skip r) := by
  obtain ⟨g, h1, h2⟩ := gap_skip r
  exact ⟨k, hk, g, by rw [← h1], h2⟩

theorem lexed_suffix {ts : List Tok} {w w' : List Char} (h : Rule.Lexed ts w w') : w' <:+ w := by
  induction h with
  | nil => exact List.suffix_refl _
  | cons _ _ ih => exact (ih.trans (skip_suffix _)).trans (List.suffix_append _ _)

theorem lexed_ne {ts : List Tok} {w w' : List Char} (h : Rule.Lexed ts w w') (ho : ∀ t ∈ ts, TokOk t) (hne : ts ≠ []) :
    w' ≠ w := by
  cases h with
  | nil => exact absurd rfl hne
  | @cons t ts r w' h1 h2 =>
    obtain ⟨c, cs, hc, -⟩ := chars_ne t (ho t (by simp))
    have h3 := ((lexed_suffix h2).trans (skip_suffix _)).length_le
    intro e
    have := congrArg List.length e
    rw [hc] at this
    simp at this
    omega

theorem isIdFirst_iff {c : Char} : isIdFirst c = true ↔ NameStart c := by simp [isIdFirst, NameStart]

theorem isIdOther_iff {c : Char} : isIdOther c = true ↔ NameChar c := by simp [isIdOther, NameChar]

theorem noWord_of {k : String} {w : List Char} (h : keyword k w = none) : NoWord k w := by
  rintro r rfl
  by_contra hc
  have : NoOther r := fun c cs e => by
    by_contra hb
    exact hc ⟨c, cs, e, isIdOther_iff.1 (by simpa using hb)⟩
  rw [keyword_of this] at h
  cases h

/-! ## Inversion -/

section
variable {K : Type} {c r r1 r2 : RuleM K} {r' : Rule K} {inp rest s p : List Char} {st st' : PState K} {m : Msg}

theorem tells_ok (h : Tells r r') (e : r inp st = .does (.ok (.ok rest, st'))) : r' inp st = .ok (some rest, st') := by
  rw [← h inp st, e]; rfl

theorem tells_fail (h : Tells r r') (e : r inp st = .does (.ok (.error p, st'))) : r' inp st = .ok (none, st') := by
  rw [← h inp st, e]; rfl

theorem seqM_err (h : RuleM.seq r1 r2 inp st = .error m s p) : r1 inp st = .error m s p ∨
    ∃ rest st', r1 inp st = .does (.ok (.ok rest, st')) ∧ r2 rest st' = .error m s p := by
  unfold RuleM.seq at h
  rcases h1 : r1 inp st with ⟨m', s', p'⟩ | (⟨q | q, st'⟩ | _ | _ | _ | _) <;> rw [h1] at h
  case does.ok.ok => exact .inr ⟨q, st', rfl, h⟩
  case error => exact .inl h
  all_goals cases h

theorem sorM_err (h : RuleM.sor r1 r2 inp st = .error m s p) : r1 inp st = .error m s p ∨
    ∃ q st', r1 inp st = .does (.ok (.error q, st')) ∧ r2 inp st' = .error m s p := by
  unfold RuleM.sor at h
  rcases h1 : r1 inp st with ⟨m', s', p'⟩ | (⟨q | q, st'⟩ | _ | _ | _ | _) <;> rw [h1] at h
  case does.ok.error => exact .inr ⟨q, st', rfl, h⟩
  case error => exact .inl h
  all_goals cases h

theorem mustM_err {m' : Msg} (h : RuleM.must m' r inp st = .error m s p) : r inp st = .error m s p ∨
    ∃ st', r inp st = .does (.ok (.error p, st')) ∧ m = m' ∧ s = inp := by
  unfold RuleM.must at h
  rcases h1 : r inp st with ⟨m', s', p'⟩ | (⟨q | q, st'⟩ | _ | _ | _ | _) <;> rw [h1] at h
  case does.ok.error => cases h; exact .inr ⟨st', rfl, rfl, rfl⟩
  case error => exact .inl h
  all_goals cases h

theorem actM_err {f : PState K → Outcome (PState K)} (h : RuleM.act r f inp st = .error m s p) :
    r inp st = .error m s p := by
  unfold RuleM.act at h
  rcases h1 : r inp st with ⟨m', s', p'⟩ | (⟨q | q, st'⟩ | _ | _ | _ | _) <;> rw [h1] at h
  case does.ok.ok =>
    simp only [Said.bind] at h
    rcases h2 : f st' with _ | _ | _ | _ | _ <;> rw [h2] at h <;> cases h
  case error => exact h
  all_goals cases h

theorem actInM_err {f : List Char → PState K → Said (PState K)} (h : RuleM.actIn r f inp st = .error m s p) :
    r inp st = .error m s p ∨ ∃ rest st', r inp st = .does (.ok (.ok rest, st')) ∧ f inp st' = .error m s p := by
  unfold RuleM.actIn at h
  rcases h1 : r inp st with ⟨m', s', p'⟩ | (⟨q | q, st'⟩ | _ | _ | _ | _) <;> rw [h1] at h
  case does.ok.ok =>
    refine .inr ⟨q, st', rfl, ?_⟩
    simp only [Said.bind] at h
    rcases h2 : f inp st' with _ | (_ | _ | _ | _ | _) <;> rw [h2] at h <;> cases h
    rfl
  case error => exact .inl h
  all_goals cases h

theorem seqM_fail (h : RuleM.seq r1 r2 inp st = .does (.ok (.error p, st'))) :
    r1 inp st = .does (.ok (.error p, st')) ∨
    ∃ rest st1, r1 inp st = .does (.ok (.ok rest, st1)) ∧ r2 rest st1 = .does (.ok (.error p, st')) := by
  unfold RuleM.seq at h
  rcases h1 : r1 inp st with ⟨m', s', p'⟩ | (⟨q | q, st'⟩ | _ | _ | _ | _) <;> rw [h1] at h
  case does.ok.ok => exact .inr ⟨q, st', rfl, h⟩
  case does.ok.error => exact .inl h
  all_goals cases h

theorem seqM_ok (h : RuleM.seq r1 r2 inp st = .does (.ok (.ok rest, st'))) :
    ∃ mid st1, r1 inp st = .does (.ok (.ok mid, st1)) ∧ r2 mid st1 = .does (.ok (.ok rest, st')) := by
  unfold RuleM.seq at h
  rcases h1 : r1 inp st with ⟨m', s', p'⟩ | (⟨q | q, st'⟩ | _ | _ | _ | _) <;> rw [h1] at h
  case does.ok.ok => exact ⟨q, st', rfl, h⟩
  all_goals cases h

theorem sorM_fail (h : RuleM.sor r1 r2 inp st = .does (.ok (.error p, st'))) :
    ∃ q st1, r1 inp st = .does (.ok (.error q, st1)) ∧ r2 inp st1 = .does (.ok (.error p, st')) := by
  unfold RuleM.sor at h
  rcases h1 : r1 inp st with ⟨m', s', p'⟩ | (⟨q | q, st'⟩ | _ | _ | _ | _) <;> rw [h1] at h
  case does.ok.error => exact ⟨q, st', rfl, h⟩
  all_goals cases h

theorem mustM_fail {m' : Msg} (h : RuleM.must m' r inp st = .does (.ok (.error p, st'))) : False := by
  unfold RuleM.must at h
  rcases h1 : r inp st with ⟨m', s', p'⟩ | (⟨q | q, st'⟩ | _ | _ | _ | _) <;> rw [h1] at h <;> cases h

theorem mustM_ok {m' : Msg} (h : RuleM.must m' r inp st = .does (.ok (.ok rest, st'))) :
    r inp st = .does (.ok (.ok rest, st')) := by
  unfold RuleM.must at h
  rcases h1 : r inp st with ⟨m', s', p'⟩ | (⟨q | q, st'⟩ | _ | _ | _ | _) <;> rw [h1] at h
  case does.ok.ok => exact h
  all_goals cases h

theorem actM_fail {f : PState K → Outcome (PState K)} (h : RuleM.act r f inp st = .does (.ok (.error p, st'))) :
    r inp st = .does (.ok (.error p, st')) := by
  unfold RuleM.act at h
  rcases h1 : r inp st with ⟨m', s', p'⟩ | (⟨q | q, st'⟩ | _ | _ | _ | _) <;> rw [h1] at h
  case does.ok.ok =>
    simp only [Said.bind] at h
    rcases h2 : f st' with _ | _ | _ | _ | _ <;> rw [h2] at h <;> cases h
  case does.ok.error => exact h
  all_goals cases h

theorem actInM_fail {f : List Char → PState K → Said (PState K)}
    (h : RuleM.actIn r f inp st = .does (.ok (.error p, st'))) :
    p = inp ∧ ∃ q, r inp st = .does (.ok (.error q, st')) := by
  unfold RuleM.actIn at h
  rcases h1 : r inp st with ⟨m', s', p'⟩ | (⟨q | q, st'⟩ | _ | _ | _ | _) <;> rw [h1] at h
  case does.ok.ok =>
    simp only [Said.bind] at h
    rcases h2 : f inp st' with _ | (_ | _ | _ | _ | _) <;> rw [h2] at h <;> cases h
  case does.ok.error => cases h; exact ⟨rfl, q, rfl⟩
  all_goals cases h

theorem lexM_err {f : List Char → Option (List Char)} (h : RuleM.lex f inp st = .error m s p) : False := by
  unfold RuleM.lex at h
  split at h <;> cases h

theorem lexM_fail {f : List Char → Option (List Char)} (h : RuleM.lex f inp st = .does (.ok (.error p, st'))) :
    f inp = none ∧ p = inp ∧ st' = st := by
  unfold RuleM.lex at h
  split at h
  · cases h
  · cases h; exact ⟨by assumption, rfl, rfl⟩

theorem lexM_ok {f : List Char → Option (List Char)} (h : RuleM.lex f inp st = .does (.ok (.ok rest, st'))) :
    f inp = some rest ∧ st' = st := by
  unfold RuleM.lex at h
  split at h
  · cases h; exact ⟨by assumption, rfl⟩
  · cases h

/-- `until` with a condition that raises no error: an error is one of the rule's. -/
theorem untilM_err {f : List Char → Option (List Char)} {Q : List Char → PState K → Prop}
    (hQ : ∀ i st rest st', Q i st → f i = none → r i st = .does (.ok (.ok rest, st')) → Q rest st') :
    ∀ (n : Nat) {inp : List Char} {st : PState K}, Q inp st →
      RuleM.until_ (RuleM.lex f) r n inp st = .error m s p →
      ∃ i st', Q i st' ∧ f i = none ∧ r i st' = .error m s p
  | 0, _, _, _, h => by cases h
  | n + 1, inp, st, hq, h => by
    unfold RuleM.until_ at h
    rcases h1 : RuleM.lex f inp st with ⟨m', s', p'⟩ | (⟨q | q, st'⟩ | _ | _ | _ | _) <;> rw [h1] at h
    case error => exact (lexM_err h1).elim
    case does.ok.error =>
      obtain ⟨h2, rfl, rfl⟩ := lexM_fail h1
      simp only [Said.bind] at h
      rcases h3 : r q st' with ⟨m', s', p'⟩ | (⟨q' | q', st''⟩ | _ | _ | _ | _) <;> rw [h3] at h
      case error => exact ⟨q, st', hq, h2, by rw [h3]; exact h⟩
      case does.ok.ok => exact untilM_err hQ n (hQ _ _ _ _ hq h2 h3) h
      all_goals cases h
    all_goals cases h

/-- `until` fails where the rule fails. -/
theorem untilM_fail {f : List Char → Option (List Char)} {Q : List Char → PState K → Prop}
    (hQ : ∀ i st rest st', Q i st → f i = none → r i st = .does (.ok (.ok rest, st')) → Q rest st') :
    ∀ (n : Nat) {inp : List Char} {st : PState K}, Q inp st →
      RuleM.until_ (RuleM.lex f) r n inp st = .does (.ok (.error p, st')) →
      ∃ i st1, Q i st1 ∧ f i = none ∧ r i st1 = .does (.ok (.error p, st'))
  | 0, _, _, _, h => by cases h
  | n + 1, inp, st, hq, h => by
    unfold RuleM.until_ at h
    rcases h1 : RuleM.lex f inp st with ⟨m', s', p'⟩ | (⟨q | q, st'⟩ | _ | _ | _ | _) <;> rw [h1] at h
    case does.ok.error =>
      obtain ⟨h2, rfl, rfl⟩ := lexM_fail h1
      simp only [Said.bind] at h
      rcases h3 : r q st' with ⟨m', s', p'⟩ | (⟨q' | q', st''⟩ | _ | _ | _ | _) <;> rw [h3] at h
      case does.ok.ok => exact untilM_fail hQ n (hQ _ _ _ _ hq h2 h3) h
      case does.ok.error => cases h; exact ⟨q, st', hq, h2, h3⟩
      all_goals cases h
    all_goals cases h

/-- `star` with a rule: an error is one of the rule's. -/
theorem starM_err {Q : List Char → PState K → Prop}
    (hQ : ∀ i st rest st', Q i st → r i st = .does (.ok (.ok rest, st')) → Q rest st') :
    ∀ (n : Nat) {inp : List Char} {st : PState K}, Q inp st → RuleM.star r n inp st = .error m s p →
      ∃ i st', Q i st' ∧ r i st' = .error m s p
  | 0, _, _, _, h => by cases h
  | n + 1, inp, st, hq, h => by
    unfold RuleM.star at h
    rcases h3 : r inp st with ⟨m', s', p'⟩ | (⟨q' | q', st''⟩ | _ | _ | _ | _) <;> rw [h3] at h
    case error => exact ⟨inp, st, hq, by rw [h3]; exact h⟩
    case does.ok.ok => exact starM_err hQ n (hQ _ _ _ _ hq h3) h
    all_goals cases h

/-- `star` does not fail. -/
theorem starM_fail : ∀ (n : Nat) {inp : List Char} {st : PState K},
    RuleM.star r n inp st = .does (.ok (.error p, st')) → False
  | 0, _, _, h => by cases h
  | n + 1, inp, st, h => by
    unfold RuleM.star at h
    rcases h3 : r inp st with ⟨m', s', p'⟩ | (⟨q' | q', st''⟩ | _ | _ | _ | _) <;> rw [h3] at h
    case does.ok.ok => exact starM_fail n h
    all_goals cases h

end

/-! ## Numbers -/

theorem digits_last (n : Digits) : ∃ q d, n.chars = q ++ [d] ∧ d.isDigit = true := by
  have hne : n.chars ≠ [] := by simp [Digits.chars, Digits.all]
  refine ⟨n.chars.dropLast, n.chars.getLast hne, (List.dropLast_append_getLast hne).symm, ?_⟩
  obtain ⟨d, -, hd⟩ := List.mem_map.1 (List.getLast_mem hne)
  rw [← hd]
  exact digitChar_isDigit d

theorem noNumber_of {w : List Char} (h : decimalSeq w = none) : NoNumber w := by
  rintro c cs rfl
  rw [decimalSeq] at h
  split at h
  · cases h
  · rename_i hc; simpa using hc

theorem exponentM_err {r s p : List Char} {m : Msg} (h : exponentM r = .error m s p) : m = .exponent ∧
    (∃ e, r = e :: s ∧ (e = 'e' ∨ e = 'E')) ∧ (p = s ∨ s = '+' :: p ∨ s = '-' :: p) ∧ NoNumber p := by
  cases r with
  | nil => cases h
  | cons c cs =>
    rw [exponentM] at h
    split at h
    · rename_i hc
      split at h
      · cases h
      · rename_i hd
        cases h
        refine ⟨rfl, ⟨c, rfl, hc⟩, ?_, noNumber_of hd⟩
        cases s with
        | nil => exact .inl rfl
        | cons d ds =>
          simp only [optSign]
          split
          · rename_i hs
            rcases hs with rfl | rfl
            · exact .inr (.inl rfl)
            · exact .inr (.inr rfl)
          · exact .inl rfl
    · cases h

theorem doubleLitM_err {text inp s p : List Char} {m : Msg} (hi : inp <:+ text) (h : doubleLitM inp = .error m s p) :
    Sound text m s p := by
  obtain ⟨t, rfl⟩ := hi
  have key1 : doubleAlt1M inp = .error m s p → Sound (t ++ inp) m s p := by
    intro h
    unfold doubleAlt1M at h
    split at h
    · rename_i cs h1
      split at h
      · rename_i r h2
        have h3 : exponentM r = .error m s p := by
          rcases h3 : exponentM r with ⟨m', s', p'⟩ | (_ | _ | _ | _ | _) <;> rw [h3] at h <;> cases h
          rfl
        obtain ⟨rfl, ⟨e, rfl, he⟩, hp, hn⟩ := exponentM_err h3
        obtain ⟨n, rfl, -⟩ := decimalSeq_inv h1
        obtain ⟨n', rfl, -⟩ := decimalSeq_inv h2
        obtain ⟨q, d, hq, hd⟩ := digits_last n'
        exact ⟨⟨t ++ (n.chars ++ '.' :: q), d, e, by simp [hq], .inl hd, he⟩, hp, hn⟩
      · cases h
    · cases h
  have key2 : doubleAlt2M inp = .error m s p → Sound (t ++ inp) m s p := by
    intro h
    unfold doubleAlt2M at h
    split at h
    · rename_i r h1
      obtain ⟨rfl, ⟨e, hr, he⟩, hp, hn⟩ := exponentM_err h
      obtain ⟨n, rfl, -⟩ := decimalSeq_inv h1
      obtain ⟨q, d, hq, hd⟩ := digits_last n
      cases r with
      | nil => cases hr
      | cons c cs =>
        simp only [optDot] at hr
        split at hr
        · rename_i hc
          subst hc hr
          exact ⟨⟨t ++ n.chars, '.', e, by simp, .inr rfl, he⟩, hp, hn⟩
        · rw [hr]
          exact ⟨⟨t ++ q, d, e, by simp [hq], .inl hd, he⟩, hp, hn⟩
    · cases h
  unfold doubleLitM at h
  rcases h1 : doubleAlt1M inp with ⟨m', s', p'⟩ | ((_ | _) | _ | _ | _ | _) <;> rw [h1] at h
  case error => cases h; exact key1 h1
  case does.ok.none =>
    rcases h2 : doubleAlt2M inp with ⟨m', s', p'⟩ | ((_ | _) | _ | _ | _ | _) <;> rw [h2] at h <;> cases h
    exact key2 h2
  all_goals cases h

/-! ## The rules -/

/-- What is said about the rest of a text is true. -/
def Says {K : Type} (text : List Char) (r : RuleM K) : Prop :=
  ∀ inp st m s p, inp <:+ text → r inp st = .error m s p → Sound text m s p

section
variable {K : Type} [Field K] [LinearOrder K] [IsStrictOrderedRing K] [Arith K] [Strtod K] {text : List Char}

theorem lexM_says (f : List Char → Option (List Char)) : Says (K := K) text (RuleM.lex f) :=
  fun _ _ _ _ _ _ h => (lexM_err h).elim

theorem identifierM_err {inp s p : List Char} {st : PState K} {m : Msg}
    (h : RuleM.identifier inp st = .error m s p) : False := by
  unfold RuleM.identifier at h
  split at h
  · cases h
  · simp only at h
    split at h <;> cases h

theorem identifierM_fail {inp p : List Char} {st st' : PState K}
    (h : RuleM.identifier inp st = .does (.ok (.error p, st'))) : p = inp ∧ NoName p := by
  have h1 := Rule.identifier_none (tells_fail Tells.identifier h)
  have h2 : p = inp := by
    unfold RuleM.identifier at h
    split at h
    · cases h; rfl
    · rename_i text rest hi
      simp only [endOfWord_some (ident_inv hi).2.1] at h
      cases h
  subst h2
  exact ⟨rfl, fun c cs e => by rw [← isIdFirst_iff, h1 c cs e]; simp⟩

theorem numeralM_says : Says (K := K) text RuleM.numeral := by
  intro inp st m s p hi h
  rcases sorM_err h with h | ⟨_, _, -, h⟩
  · unfold RuleM.doubleLiteral at h
    rcases h1 : doubleLitM inp with ⟨m', s', p'⟩ | ((_ | rest) | _ | _ | _ | _) <;> rw [h1] at h
    case error => cases h; exact doubleLitM_err hi h1
    case does.ok.some =>
      simp only [Said.bind] at h
      rcases h2 : stod (K := K) (textOf inp rest) with _ | _ | _ | _ | _ <;> rw [h2] at h <;> cases h
    all_goals cases h
  · unfold RuleM.integerLiteral at h
    split at h
    · cases h
    · rename_i rest _
      rcases h2 : stol (textOf inp rest) with _ | _ | _ | _ | _ <;> rw [h2] at h <;> cases h

theorem numeralM_fail {inp p : List Char} {st st' : PState K}
    (h : RuleM.numeral inp st = .does (.ok (.error p, st'))) : p = inp ∧ NoNumber p := by
  obtain ⟨_, st1, -, h⟩ := sorM_fail h
  unfold RuleM.integerLiteral at h
  split at h
  · rename_i hn
    cases h
    refine ⟨rfl, noNumber_of ?_⟩
    unfold integerLit at hn
    simpa using hn
  · rename_i rest _
    rcases h2 : stol (textOf inp rest) with _ | _ | _ | _ | _ <;> rw [h2] at h <;> cases h

theorem digitChar_space (k : Fin 10) : isSpace (digitChar k) = false := by revert k; decide

/-- No name with a number after it, if there is no number after the name. -/
theorem noNameNumber_of {w : List Char}
    (h : ∀ n r, w = n ++ r → IsName (String.ofList n) → NoOther r → NoNumber (skip r)) : NoNameNumber w := by
  intro n g d r hn hg hne hd e
  have hs : Start (d :: r) := by
    intro c cs e
    cases e
    constructor
    · cases hc : isSpace d with
      | false => rfl
      | true =>
        obtain ⟨k, hk⟩ := isDigit_char hd
        rw [hk, digitChar_space k] at hc
        cases hc
    · rintro rfl; exact absurd hd (by decide)
  have ho : NoOther (g ++ d :: r) := by
    intro c cs e
    cases hg with
    | nil => exact absurd rfl hne
    | space hc _ =>
      cases e
      simp only [IsSpace, List.mem_cons, List.not_mem_nil, or_false] at hc
      rcases hc with rfl | rfl | rfl | rfl | rfl | rfl <;> decide
    | comment _ _ => cases e; decide
  have := h n.toList (g ++ d :: r) e (by simpa using hn) ho
  rw [skip_layout hg hs] at this
  rw [this d r rfl] at hd
  cases hd

theorem idOther_split {r : List Char} (ho : NoOther r) : ∀ cs : List Char, (∀ d ∈ cs, isIdOther d = true) →
    (cs ++ r).takeWhile isIdOther = cs ∧ (cs ++ r).dropWhile isIdOther = r
  | [], _ => by
    cases r with
    | nil => simp
    | cons d ds => simp [ho d ds rfl]
  | d :: ds, h => by
    have hd := h d (by simp)
    obtain ⟨i1, i2⟩ := idOther_split ho ds fun x hx => h x (by simp [hx])
    simp [hd, i1, i2]

theorem predicateFormM_fail {inp p : List Char} {st st' : PState K}
    (h : RuleM.predicateForm inp st = .does (.ok (.error p, st'))) :
    p = inp ∧ NoNumber p ∧ NoNameNumber p ∨
      (∃ (l : NumLit) (g : List Char), inp = l.chars ++ (g ++ p) ∧ Gap g p) ∧ NoName p := by
  obtain ⟨q, st1, h1, h2⟩ := sorM_fail h
  rcases seqM_fail (actM_fail h2) with h2 | ⟨rest, st2, h2, h3⟩
  · obtain ⟨rfl, hn⟩ := numeralM_fail h2
    refine .inl ⟨rfl, hn, noNameNumber_of fun n r e hnm ho => ?_⟩
    have hr : RuleM.identifier p st = .does (.ok (.ok (skip r),
        { st with s := { st.s with identifiers := st.s.identifiers ++ [String.ofList n] } })) := by
      have hi : Lex.ident p = some (n, r) := by
        subst e
        obtain ⟨c, cs, e1, e2, e3⟩ := hnm
        rw [String.toList_ofList] at e1
        subst e1
        have hc : isIdFirst c = true := by rw [isIdFirst_iff]; exact e2
        rw [List.cons_append, Lex.ident, if_pos hc]
        have e3' : ∀ d ∈ cs, isIdOther d = true := fun d hd => isIdOther_iff.2 (e3 d hd)
        have ht := idOther_split ho cs e3'
        rw [ht.1, ht.2]
      unfold RuleM.identifier
      rw [hi]
      simp only [endOfWord_some ho]
    rcases seqM_fail (actM_fail h1) with h4 | ⟨rest, st2, h4, h5⟩
    · rw [hr] at h4; cases h4
    · rw [hr] at h4
      cases h4
      obtain ⟨rfl, hk⟩ := numeralM_fail h5
      exact hk
  · obtain ⟨rfl, hn⟩ := identifierM_fail h3
    obtain ⟨l, r, rfl, -, rfl⟩ := Rule.numeral_inv (tells_ok Tells.numeral h2)
    obtain ⟨g, h4, h5⟩ := gap_skip r
    exact .inr ⟨⟨l, g, by rw [← h4]; rfl, h5⟩, hn⟩

theorem cmpSymM_err {f : List Char → Option (List Char)} {op : ComparisonOp} {inp s p : List Char} {st : PState K}
    {m : Msg} (h : RuleM.cmpSym f op inp st = .error m s p) : False := lexM_err (actM_err h)

theorem comparisonSymbolM_err {inp s p : List Char} {st : PState K} {m : Msg}
    (h : RuleM.comparisonSymbol inp st = .error m s p) : False := by
  rcases sorM_err h with h | ⟨_, _, -, h⟩
  · exact cmpSymM_err h
  rcases sorM_err h with h | ⟨_, _, -, h⟩
  · exact cmpSymM_err h
  rcases sorM_err h with h | ⟨_, _, -, h⟩ <;> exact cmpSymM_err h

theorem comparisonSymbolM_fail {inp p : List Char} {st st' : PState K}
    (h : RuleM.comparisonSymbol inp st = .does (.ok (.error p, st'))) : NoComparison inp := by
  obtain ⟨_, _, h1, h⟩ := sorM_fail h
  obtain ⟨_, _, h2, h⟩ := sorM_fail h
  obtain ⟨_, _, h3, h4⟩ := sorM_fail h
  have h1 := (lexM_fail (actM_fail h1)).1
  have h2 := (lexM_fail (actM_fail h2)).1
  have h3 := (lexM_fail (actM_fail h3)).1
  have h4 := (lexM_fail (actM_fail h4)).1
  have key : ∀ c cs, inp = c :: cs → strictSym c inp = none → weakSym c inp = none → ∃ ds, cs = c :: ds := by
    rintro c cs rfl k1 k2
    simp only [strictSym, if_true] at k1
    cases cs with
    | nil => cases k1
    | cons e es =>
      simp only at k1
      split at k1
      · rename_i he
        rcases he with rfl | rfl
        · exact ⟨es, rfl⟩
        · simp [weakSym, str] at k2
      · cases k1
  rintro c cs e (rfl | rfl)
  · exact key _ cs e h1 h3
  · exact key _ cs e h2 h4

theorem predicateTermM_says : Says (K := K) text RuleM.predicateTerm := by
  intro inp st m s p hi h
  rcases seqM_err (actM_err h) with h | ⟨rest, st1, h1, h⟩
  · exact (comparisonSymbolM_err h).elim
  obtain ⟨o, r, rfl, rfl⟩ := Rule.comparisonSymbol_inv (tells_ok Tells.comparisonSymbol h1)
  have hs : skip r <:+ text := ((skip_suffix r).trans (List.suffix_append _ _)).trans hi
  have ha : After ["<", "<=", ">", ">="] text (skip r) := by
    cases o
    · exact after_word (k := ">") (by simp) hi
    · exact after_word (k := ">=") (by simp) hi
    · exact after_word (k := "<") (by simp) hi
    · exact after_word (k := "<=") (by simp) hi
  rcases mustM_err h with h | ⟨st2, hf, rfl, rfl⟩
  · have hid : ∀ {i : List Char} {st : PState K} {r : List Char} {st' : PState K}, i <:+ text →
        RuleM.identifier i st = .does (.ok (.ok r, st')) → r <:+ text := fun {i st r st'} hi h => by
      obtain ⟨n, r', rfl, -, -, rfl⟩ := Rule.identifier_inv (tells_ok Tells.identifier h)
      exact ((skip_suffix _).trans (List.suffix_append _ _)).trans hi
    rcases sorM_err h with h | ⟨_, _, -, h⟩
    · rcases seqM_err (actM_err h) with h | ⟨rest, st1, h1, h⟩
      · exact (identifierM_err h).elim
      · exact numeralM_says _ _ _ _ _ (hid hs h1) h
    · rcases seqM_err (actM_err h) with h | ⟨rest, st1, h1, h⟩
      · exact numeralM_says _ _ _ _ _ hs h
      · exact (identifierM_err h).elim
  · exact ⟨ha, predicateFormM_fail hf⟩

/-! ## Terms -/

/-- What is needed of a rule for terms. -/
structure TermM (text : List Char) (tm : RuleM K) : Prop where
  sound : Says text tm
  fails : ∀ inp st p st', tm inp st = .does (.ok (.error p, st')) → p = inp ∧ NoTerm p
  eats : ∀ inp st rest st', tm inp st = .does (.ok (.ok rest, st')) → rest <:+ inp ∧ rest ≠ inp
  terms : ∀ inp st rest st', tm inp st = .does (.ok (.ok rest, st')) →
    st.s.terms.length < st'.s.terms.length ∧ st'.s.identifiers = st.s.identifiers
  keeps : ∀ inp st p st', tm inp st = .does (.ok (.error p, st')) → st.s.terms.length ≤ st'.s.terms.length

theorem kwM_says {m m' : Msg} {k : String} {r : RuleM K} {inp s p : List Char} {st : PState K} (hi : inp <:+ text)
    (hr : ∀ i st, After [k] text i → RuleM.must m' r i st = .error m s p → Sound text m s p)
    (h : RuleM.ifMust m' (RuleM.kw k) r inp st = .error m s p) : Sound text m s p := by
  rcases seqM_err h with h | ⟨rest, st1, h1, h⟩
  · exact (lexM_err h).elim
  obtain ⟨r0, rfl, -, rfl⟩ := keyword_inv (lexM_ok h1).1
  exact hr _ _ (after_word (by simp) hi) h

theorem after_suffix {ks : List String} {i : List Char} (h : After ks text i) : i <:+ text := by
  obtain ⟨k, -, p, g, rfl, -⟩ := h
  exact ⟨p ++ (k.toList ++ g), by simp⟩

theorem after_mono {ks ks' : List String} {i : List Char} (h : After ks text i) (hk : ∀ k ∈ ks, k ∈ ks') :
    After ks' text i := by
  obtain ⟨k, h1, h2⟩ := h
  exact ⟨k, hk k h1, h2⟩

theorem unaryM_says {tm : RuleM K} (ht : TermM text tm) {k : String} (hk : k ∈ ["not", "always", "eventually"])
    (f : PState K → Outcome (PState K)) : Says text (RuleM.act (RuleM.ifMust .term (RuleM.kw k) tm) f) := by
  intro inp st m s p hi h
  refine kwM_says hi (fun i st ha h => ?_) (actM_err h)
  rcases mustM_err h with h | ⟨st2, hf, rfl, rfl⟩
  · exact ht.sound _ _ _ _ _ (after_suffix ha) h
  · obtain ⟨rfl, hn⟩ := ht.fails _ _ _ _ hf
    refine ⟨.inl (after_mono ha fun x hx => ?_), rfl, hn⟩
    rw [List.mem_singleton.1 hx]
    simp only [List.mem_cons, List.not_mem_nil, or_false] at hk ⊢
    tauto

theorem binaryM_says {tm : RuleM K} (ht : TermM text tm) {k : String} (hk : k ∈ ["implies", "iff", "xor"])
    (f : PState K → Outcome (PState K)) :
    Says text (RuleM.act (RuleM.ifMust .binaryTail (RuleM.kw k) (RuleM.seq tm tm)) f) := by
  intro inp st m s p hi h
  refine kwM_says hi (fun i st ha h => ?_) (actM_err h)
  have hk' : After ["implies", "iff", "xor"] text i := after_mono ha fun x hx => by
    rw [List.mem_singleton.1 hx]; exact hk
  rcases mustM_err h with h | ⟨st2, hf, rfl, rfl⟩
  · rcases seqM_err h with h | ⟨rest, st1, h1, h⟩
    · exact ht.sound _ _ _ _ _ (after_suffix ha) h
    · exact ht.sound _ _ _ _ _ ((ht.eats _ _ _ _ h1).1.trans (after_suffix ha)) h
  · rcases seqM_fail hf with h | ⟨rest, st1, h1, h⟩
    · obtain ⟨rfl, hn⟩ := ht.fails _ _ _ _ h
      exact ⟨hk', List.suffix_refl _, hn⟩
    · obtain ⟨rfl, hn⟩ := ht.fails _ _ _ _ h
      exact ⟨hk', (ht.eats _ _ _ _ h1).1, hn⟩

theorem starM_terms {tm : RuleM K} (ht : TermM text tm) : ∀ (n : Nat) {inp rest : List Char} {st st' : PState K},
    RuleM.star tm n inp st = .does (.ok (.ok rest, st')) → st.s.terms.length ≤ st'.s.terms.length
  | 0, _, _, _, _, h => by cases h
  | n + 1, inp, rest, st, st', h => by
    unfold RuleM.star at h
    rcases h3 : tm inp st with ⟨m', s', p'⟩ | (⟨q' | q', st''⟩ | _ | _ | _ | _) <;> rw [h3] at h
    case does.ok.ok => exact (ht.terms _ _ _ _ h3).1.le.trans (starM_terms ht n h)
    case does.ok.error => cases h; exact ht.keeps _ _ _ _ h3
    all_goals cases h

theorem naryM_says {tm : RuleM K} (ht : TermM text tm) {k : String} (hk : k ∈ ["and", "or"]) (nd : Bool) (n : Nat)
    (f : List (Expr K) → Outcome (Expr K)) :
    Says text (RuleM.actIn (RuleM.ifMust .naryTail (RuleM.kw k) (RuleM.plus tm n)) (RuleM.naryAction nd f)) := by
  intro inp st m s p hi h
  rcases actInM_err h with h | ⟨rest, st1, h1, h⟩
  · refine kwM_says hi (fun i st ha h => ?_) h
    have hk' : After ["and", "or"] text i := after_mono ha fun x hx => by
      rw [List.mem_singleton.1 hx]; exact hk
    rcases mustM_err h with h | ⟨st2, hf, rfl, rfl⟩
    · rcases seqM_err h with h | ⟨rest, st1, h1, h⟩
      · exact ht.sound _ _ _ _ _ (after_suffix ha) h
      · obtain ⟨i, st', hi, h⟩ := starM_err (Q := fun i _ => i <:+ text)
          (fun i st rest st' hi h => (ht.eats _ _ _ _ h).1.trans hi) n
          ((ht.eats _ _ _ _ h1).1.trans (after_suffix ha)) h
        exact ht.sound _ _ _ _ _ hi h
    · rcases seqM_fail hf with h | ⟨rest, st1, h1, h⟩
      · obtain ⟨rfl, hn⟩ := ht.fails _ _ _ _ h
        exact ⟨hk', rfl, hn⟩
      · exact (starM_fail n h).elim
  · obtain ⟨mid, st2, h2, h3⟩ := seqM_ok h1
    obtain ⟨r0, rfl, -, rfl⟩ := keyword_inv (lexM_ok h2).1
    obtain ⟨mid', st3, h4, h5⟩ := seqM_ok (mustM_ok h3)
    have h6 := (ht.terms _ _ _ _ h4).1
    have h7 := starM_terms ht n h5
    unfold RuleM.naryAction at h
    split at h
    · cases h
      exact ⟨by omega, hi, rfl, skip r0, begins_word hk r0⟩
    · cases h

theorem untilM_says {tm : RuleM K} (ht : TermM text tm) (f : PState K → Outcome (PState K)) :
    Says text (RuleM.act (RuleM.seq (RuleM.kw "until") (RuleM.seq (RuleM.must .term tm) (RuleM.must .term tm))) f) := by
  intro inp st m s p hi h
  rcases seqM_err (actM_err h) with h | ⟨rest, st1, h1, h⟩
  · exact (lexM_err h).elim
  obtain ⟨r0, rfl, -, rfl⟩ := keyword_inv (lexM_ok h1).1
  have ha : After ["until"] text (skip r0) := after_word (by simp) hi
  rcases seqM_err h with h | ⟨rest, st2, h2, h⟩
  · rcases mustM_err h with h | ⟨st2, hf, rfl, rfl⟩
    · exact ht.sound _ _ _ _ _ (after_suffix ha) h
    · obtain ⟨rfl, hn⟩ := ht.fails _ _ _ _ hf
      exact ⟨.inl (after_mono ha (by simp)), rfl, hn⟩
  · have h3 := ht.eats _ _ _ _ (mustM_ok h2)
    rcases mustM_err h with h | ⟨st2, hf, rfl, rfl⟩
    · exact ht.sound _ _ _ _ _ (h3.1.trans (after_suffix ha)) h
    · obtain ⟨rfl, hn⟩ := ht.fails _ _ _ _ hf
      exact ⟨.inr (.inl ⟨_, ha, h3⟩), rfl, hn⟩

theorem expressionM_says {tm : RuleM K} (ht : TermM text tm) (nd : Bool) (n : Nat) :
    Says text (RuleM.expression nd n tm) := by
  intro inp st m s p hi h
  rcases sorM_err h with h | ⟨_, _, -, h⟩
  · exact predicateTermM_says _ _ _ _ _ hi h
  rcases sorM_err h with h | ⟨_, _, -, h⟩
  · exact unaryM_says ht (by simp) _ _ _ _ _ _ hi h
  rcases sorM_err h with h | ⟨_, _, -, h⟩
  · exact naryM_says ht (by simp) _ _ _ _ _ _ _ _ hi h
  rcases sorM_err h with h | ⟨_, _, -, h⟩
  · exact naryM_says ht (by simp) _ _ _ _ _ _ _ _ hi h
  rcases sorM_err h with h | ⟨_, _, -, h⟩
  · exact binaryM_says ht (by simp) _ _ _ _ _ _ hi h
  rcases sorM_err h with h | ⟨_, _, -, h⟩
  · exact binaryM_says ht (by simp) _ _ _ _ _ _ hi h
  rcases sorM_err h with h | ⟨_, _, -, h⟩
  · exact binaryM_says ht (by simp) _ _ _ _ _ _ hi h
  rcases sorM_err h with h | ⟨_, _, -, h⟩
  · exact unaryM_says ht (by simp) _ _ _ _ _ _ hi h
  rcases sorM_err h with h | ⟨_, _, -, h⟩
  · exact unaryM_says ht (by simp) _ _ _ _ _ _ hi h
  rcases sorM_err h with h | ⟨_, _, -, h⟩
  · exact untilM_says ht _ _ _ _ _ _ hi h
  · exact ht.sound _ _ _ _ _ hi h

theorem expressionM_fail {tm : RuleM K} (ht : TermM text tm) {nd : Bool} {n : Nat} {inp p : List Char}
    {st st' : PState K} (h : RuleM.expression nd n tm inp st = .does (.ok (.error p, st'))) :
    p = inp ∧ NoTerm p ∧ NoComparison p := by
  obtain ⟨_, _, h1, h⟩ := sorM_fail h
  iterate 9 obtain ⟨_, _, -, h⟩ := sorM_fail h
  obtain ⟨rfl, hn⟩ := ht.fails _ _ _ _ h
  refine ⟨rfl, hn, ?_⟩
  rcases seqM_fail (actM_fail h1) with h | ⟨_, _, -, h⟩
  · exact comparisonSymbolM_fail h
  · exact (mustM_fail h).elim

theorem onNewStateM_err {r : RuleM K} {inp s p : List Char} {st : PState K} {m : Msg}
    (h : RuleM.onNewState r inp st = .error m s p) : ∃ st', r inp st' = .error m s p := by
  unfold RuleM.onNewState at h
  refine ⟨{ g := st.g }, ?_⟩
  rcases h1 : r inp { g := st.g } with ⟨m', s', p'⟩ | (_ | _ | _ | _ | _) <;> rw [h1] at h <;> cases h
  rfl

theorem onNewStateM_does {r : RuleM K} {inp : List Char} {o : Except (List Char) (List Char)} {st st' : PState K}
    (h : RuleM.onNewState r inp st = .does (.ok (o, st'))) : ∃ st1, r inp { g := st.g } = .does (.ok (o, st1)) ∧
      st'.s.terms = st.s.terms ++ st1.s.terms ∧ st'.s.identifiers = st.s.identifiers := by
  unfold RuleM.onNewState at h
  rcases h1 : r inp { g := st.g } with ⟨m', s', p'⟩ | (⟨o', st1⟩ | _ | _ | _ | _) <;> rw [h1] at h <;> cases h
  exact ⟨st1, rfl, rfl, rfl⟩

theorem actM_ok {r : RuleM K} {f : PState K → Outcome (PState K)} {inp rest : List Char} {st st' : PState K}
    (h : RuleM.act r f inp st = .does (.ok (.ok rest, st'))) :
    ∃ st1, r inp st = .does (.ok (.ok rest, st1)) ∧ f st1 = .ok st' := by
  unfold RuleM.act at h
  rcases h1 : r inp st with ⟨m', s', p'⟩ | (⟨q | q, st'⟩ | _ | _ | _ | _) <;> rw [h1] at h
  case does.ok.ok =>
    simp only [Said.bind] at h
    rcases h2 : f st' with _ | _ | _ | _ | _ <;> rw [h2] at h <;> cases h
    exact ⟨st', rfl, h2⟩
  all_goals cases h

theorem termAction_terms {st st' : PState K} (h : Rule.termAction st = .ok st') : st'.s.terms ≠ [] := by
  unfold Rule.termAction at h
  split at h
  · cases h; simp
  · split at h
    · obtain ⟨e, -, h⟩ := Outcome.bind_eq_ok.1 h
      cases h; simp
    · cases h

theorem booleanLiteralM_err {inp s p : List Char} {st : PState K} {m : Msg}
    (h : RuleM.booleanLiteral inp st = .error m s p) : False := by
  rcases sorM_err (actM_err h) with h | ⟨_, _, -, h⟩ <;> exact lexM_err (actM_err h)

theorem termM_fine (nd : Bool) : ∀ n, TermM (K := K) text (RuleM.term nd n)
  | 0 => ⟨fun _ _ _ _ _ _ h => (by cases h), fun _ _ _ _ h => (by cases h), fun _ _ _ _ h => (by cases h),
      fun _ _ _ _ h => (by cases h), fun _ _ _ _ h => (by cases h)⟩
  | n + 1 => by
    have ih := termM_fine nd n
    have hexp : ∀ (i : List Char) (st : PState K) (rest : List Char) (st' : PState K),
        RuleM.expression nd n (RuleM.term nd n) i st = .does (.ok (.ok rest, st')) → rest <:+ i := by
      intro i st rest st' h
      obtain ⟨_, -, hl, -⟩ := Rule.expression_inv (Rule.term_conv nd n) (Rule.term_none nd n)
        (tells_ok (Tells.expression nd n (Tells.term nd n)) h)
      exact lexed_suffix hl
    refine ⟨?_, ?_, ?_, ?_, ?_⟩
    · intro inp st m s p hi h
      unfold RuleM.term at h
      obtain ⟨st', h⟩ := onNewStateM_err h
      rcases sorM_err (actM_err h) with h | ⟨_, _, -, h⟩
      · rcases seqM_err h with h | ⟨rest, st1, h1, h⟩
        · exact (lexM_err h).elim
        obtain ⟨r, rfl, rfl⟩ := sym_inv (lexM_ok h1).1
        have ha : After ["("] text (skip r) := after_word (k := "(") (by simp) hi
        have hQ : ∀ (i : List Char) (st : PState K) (rest : List Char) (st' : PState K), i <:+ skip r →
            sym ')' i = none → RuleM.expression nd n (RuleM.term nd n) i st = .does (.ok (.ok rest, st')) →
            rest <:+ skip r := fun i st rest st' hi _ h => (hexp i st rest st' h).trans hi
        rcases mustM_err h with h | ⟨st2, hf, rfl, rfl⟩
        · obtain ⟨i, st', hi', -, h⟩ := untilM_err (Q := fun i _ => i <:+ skip r) hQ n (List.suffix_refl _) h
          exact expressionM_says ih nd n _ _ _ _ _ (hi'.trans (after_suffix ha)) h
        · obtain ⟨i, st', hi', hc, h⟩ := untilM_fail (Q := fun i _ => i <:+ skip r) hQ n (List.suffix_refl _) hf
          obtain ⟨rfl, h1, h2⟩ := expressionM_fail ih h
          refine ⟨ha, hi', h1, ?_, h2⟩
          rintro c cs rfl rfl
          simp [sym] at hc
      · rcases sorM_err h with h | ⟨_, _, -, h⟩
        · exact (booleanLiteralM_err h).elim
        · exact (identifierM_err h).elim
    · intro inp st p st' h
      have h1 := Rule.term_none nd (n + 1) _ _ _ (tells_fail (Tells.term nd (n + 1)) h)
      unfold RuleM.term at h
      obtain ⟨st1, h, -⟩ := onNewStateM_does h
      obtain ⟨_, _, -, h⟩ := sorM_fail (actM_fail h)
      obtain ⟨_, _, -, h⟩ := sorM_fail h
      obtain ⟨rfl, hn⟩ := identifierM_fail h
      exact ⟨rfl, fun c cs e => ⟨(h1 c cs e).1, hn c cs e⟩⟩
    · intro inp st rest st' h
      obtain ⟨r, hr, hl, -⟩ := Rule.term_conv nd (n + 1) _ _ _ _ (tells_ok (Tells.term nd (n + 1)) h)
      exact ⟨lexed_suffix hl, lexed_ne hl (Rule.raw_toks_ok hr) (by cases r <;> simp [Raw.toks])⟩
    · intro inp st rest st' h
      unfold RuleM.term at h
      obtain ⟨st1, h, h1, h2⟩ := onNewStateM_does h
      obtain ⟨st2, -, h3⟩ := actM_ok h
      refine ⟨?_, h2⟩
      rw [h1, List.length_append]
      have := List.length_pos_iff.2 (termAction_terms h3)
      omega
    · intro inp st rest st' h
      unfold RuleM.term at h
      obtain ⟨st1, h, h1, h2⟩ := onNewStateM_does h
      rw [h1, List.length_append]
      omega

/-! ## Commands -/

theorem identifierM_ok {inp rest : List Char} {st st' : PState K}
    (h : RuleM.identifier inp st = .does (.ok (.ok rest, st'))) :
    ∃ n r, inp = n.toList ++ r ∧ IsName n ∧ rest = skip r ∧ st'.s.identifiers = st.s.identifiers ++ [n] := by
  unfold RuleM.identifier at h
  split at h
  · cases h
  · rename_i t r hi
    obtain ⟨h1, h2, h3⟩ := ident_inv hi
    simp only [endOfWord_some h2] at h
    cases h
    exact ⟨String.ofList t, r, by simpa using h1, h3, rfl, rfl⟩

theorem back_append {α : Type} (l : List α) (a : α) : Rule.back (l ++ [a]) = .ok a := by
  simp [Rule.back]

theorem commandActionM_err {nd : Bool} {ins : Specification K → String → Expr K → Specification K × Bool}
    {again : String → Msg} {inp s p : List Char} {st : PState K} {m : Msg} {l : List String} {id : String}
    (hid : st.s.identifiers = l ++ [id]) (h : RuleM.commandAction nd ins again inp st = .error m s p) :
    m = again id ∧ s = inp ∧ p = inp := by
  unfold RuleM.commandAction at h
  rcases h1 : assert_ nd (st.s.terms.length == 1) with _ | _ | _ | _ | _ <;> rw [h1] at h <;> try cases h
  simp only [Said.bind] at h
  rcases h2 : assert_ nd (!st.s.identifiers.isEmpty) with _ | _ | _ | _ | _ <;> rw [h2] at h <;> try cases h
  simp only [hid, back_append] at h
  rcases h3 : Rule.back st.s.terms with e | _ | _ | _ | _ <;> rw [h3] at h <;> try cases h
  simp only at h
  rcases h4 : ins st.g id e with ⟨g, _ | _⟩ <;> rw [h4] at h
  · cases h; exact ⟨rfl, rfl, rfl⟩
  · simp only at h
    rcases h5 : assert_ nd st.s.terms.dropLast.isEmpty with _ | _ | _ | _ | _ <;> rw [h5] at h <;> cases h

theorem commandM_says {k : String} (hk : k ∈ ["assert", "define-formula"]) {again : String → Msg} (nd : Bool) (n : Nat)
    (ins : Specification K → String → Expr K → Specification K × Bool)
    (hs : ∀ id s, s <:+ text → IsName id → (∃ j r, Begins [k] s j ∧ Begins [id] j r) → Sound text (again id) s s) :
    Says text (RuleM.actIn (RuleM.seq (RuleM.kw k) (RuleM.arguments nd n)) (RuleM.commandAction nd ins again)) := by
  intro inp st m s p hi h
  have ht := termM_fine (K := K) (text := text) nd n
  rcases actInM_err h with h | ⟨rest, st1, h1, h⟩
  · rcases seqM_err h with h | ⟨rest, st1, h1, h⟩
    · exact (lexM_err h).elim
    obtain ⟨r0, rfl, -, rfl⟩ := keyword_inv (lexM_ok h1).1
    have ha : After ["assert", "define-formula"] text (skip r0) := after_word hk hi
    rcases seqM_err h with h | ⟨rest, st1, h1, h⟩
    · rcases mustM_err h with h | ⟨st2, hf, rfl, rfl⟩
      · exact (identifierM_err h).elim
      · obtain ⟨rfl, hn⟩ := identifierM_fail hf
        exact ⟨ha, rfl, hn⟩
    · obtain ⟨nm, r, e, hnm, rfl, -⟩ := identifierM_ok (mustM_ok h1)
      have hb : Begins [nm] (skip r0) (skip r) := by rw [e]; exact begins_word (by simp) r
      have hsuf : skip r <:+ text := by
        refine ((skip_suffix r).trans ?_).trans (after_suffix ha)
        rw [e]; exact List.suffix_append _ _
      rcases mustM_err h with h | ⟨st2, hf, rfl, rfl⟩
      · exact ht.sound _ _ _ _ _ hsuf h
      · obtain ⟨rfl, hn⟩ := ht.fails _ _ _ _ hf
        exact ⟨.inr (.inr ⟨_, nm, ha, hnm, hb⟩), rfl, hn⟩
  · obtain ⟨mid, st2, h2, h3⟩ := seqM_ok h1
    obtain ⟨r0, rfl, -, rfl⟩ := keyword_inv (lexM_ok h2).1
    obtain ⟨mid', st3, h4, h5⟩ := seqM_ok h3
    obtain ⟨nm, r, e, hnm, rfl, hst⟩ := identifierM_ok (mustM_ok h4)
    have hst' := (ht.terms _ _ _ _ (mustM_ok h5)).2
    rw [hst] at hst'
    obtain ⟨rfl, rfl, rfl⟩ := commandActionM_err hst' h
    exact hs _ _ hi hnm ⟨_, _, begins_word (by simp) r0, by rw [e]; exact begins_word (by simp) r⟩

theorem commandM_fail {k : String} {nd : Bool} {n : Nat} {f : List Char → PState K → Said (PState K)}
    {inp p : List Char} {st st' : PState K}
    (h : RuleM.actIn (RuleM.seq (RuleM.kw k) (RuleM.arguments nd n)) f inp st = .does (.ok (.error p, st'))) :
    p = inp ∧ NoWord k inp := by
  obtain ⟨rfl, q, h⟩ := actInM_fail h
  refine ⟨rfl, ?_⟩
  rcases seqM_fail h with h | ⟨_, _, -, h⟩
  · exact noWord_of (lexM_fail h).1
  · rcases seqM_fail h with h | ⟨_, _, -, h⟩ <;> exact (mustM_fail h).elim

theorem anyCommandM_says (nd : Bool) (n : Nat) : Says (K := K) text (RuleM.anyCommand nd n) := by
  intro inp st m s p hi h
  rcases seqM_err h with h | ⟨rest, st1, h1, h⟩
  · exact (lexM_err h).elim
  obtain ⟨r, rfl, rfl⟩ := sym_inv (lexM_ok h1).1
  have ha : After ["("] text (skip r) := after_word (k := "(") (by simp) hi
  have hQ : ∀ (i : List Char) (st : PState K) (rest : List Char) (st' : PState K), i <:+ skip r →
      sym ')' i = none → RuleM.must .allowedCommands (RuleM.sor (RuleM.assertion nd n) (RuleM.defineFormula nd n)) i st =
        .does (.ok (.ok rest, st')) → rest <:+ skip r := fun i st rest st' hi _ h => by
    have hT : Tells (K := K) (RuleM.sor (RuleM.assertion nd n) (RuleM.defineFormula nd n))
        (Rule.sor (Rule.assertion nd n) (Rule.defineFormula nd n)) :=
      .sor (.actIn (.command nd n _) (Tells.commandAction nd _ _)) (.actIn (.command nd n _) (Tells.commandAction nd _ _))
    obtain ⟨c, -, hl⟩ := Rule.cmd_inv (tells_ok hT (mustM_ok h))
    exact (lexed_suffix hl).trans hi
  rcases mustM_err h with h | ⟨st2, hf, rfl, rfl⟩
  · obtain ⟨i, st', hi', hc, h⟩ := untilM_err (Q := fun i _ => i <:+ skip r) hQ n (List.suffix_refl _) h
    have hit := hi'.trans (after_suffix ha)
    rcases mustM_err h with h | ⟨st2, hf, rfl, rfl⟩
    · rcases sorM_err h with h | ⟨_, _, -, h⟩
      · exact commandM_says (text := text) (k := "assert") (again := .assertionAgain) (by simp) nd n _
          (fun id s h1 h2 h3 => ⟨h1, rfl, h2, h3⟩) _ _ _ _ _ hit h
      · exact commandM_says (text := text) (k := "define-formula") (again := .formulaAgain) (by simp) nd n _
          (fun id s h1 h2 h3 => ⟨h1, rfl, h2, h3⟩) _ _ _ _ _ hit h
    · obtain ⟨q, st1, h1, h2⟩ := sorM_fail hf
      obtain ⟨-, h1⟩ := commandM_fail h1
      obtain ⟨rfl, h2⟩ := commandM_fail h2
      refine ⟨⟨_, ha, hi'⟩, rfl, h1, h2, ?_⟩
      rintro c cs rfl rfl
      simp [sym] at hc
  · obtain ⟨i, st', hi', hc, h⟩ := untilM_fail (Q := fun i _ => i <:+ skip r) hQ n (List.suffix_refl _) hf
    exact (mustM_fail h).elim

theorem fileM_says (nd : Bool) (n : Nat) {st : PState K} {m : Msg} {s p : List Char}
    (h : RuleM.specificationFile nd n text st = .error m s p) : Sound text m s p := by
  have hQ : ∀ (i : List Char) (st : PState K) (rest : List Char) (st' : PState K), i <:+ text →
      (if i.isEmpty then some ([] : List Char) else none) = none →
      RuleM.seq (RuleM.anyCommand nd n) (RuleM.lex fun inp => some (skip inp)) i st = .does (.ok (.ok rest, st')) →
      rest <:+ text := fun i st rest st' hi _ h => by
    obtain ⟨mid, st1, h1, h2⟩ := seqM_ok h
    obtain ⟨h2, -⟩ := lexM_ok h2
    cases h2
    have hT : Tells (K := K) (RuleM.anyCommand nd n) (Rule.anyCommand nd n) :=
      .ifMust _ (.lex _) (.until_ (.lex _) (.must _ (.sor
        (.actIn (.command nd n _) (Tells.commandAction nd _ _)) (.actIn (.command nd n _) (Tells.commandAction nd _ _)))) n)
    obtain ⟨c, -, hl⟩ := Rule.group_inv (tells_ok hT h1)
    exact ((skip_suffix _).trans (lexed_suffix hl)).trans hi
  rcases mustM_err h with h | ⟨st2, hf, rfl, rfl⟩
  · rcases seqM_err h with h | ⟨rest, st1, h1, h⟩
    · exact (lexM_err h).elim
    obtain ⟨h1, -⟩ := lexM_ok h1
    cases h1
    obtain ⟨i, st', hi', hc, h⟩ := untilM_err (Q := fun i _ => i <:+ text) hQ n (skip_suffix _) h
    rcases seqM_err h with h | ⟨rest, st1, -, h⟩
    · exact anyCommandM_says nd n _ _ _ _ _ hi' h
    · exact (lexM_err h).elim
  · rcases seqM_fail hf with h | ⟨rest, st1, h1, h⟩
    · cases (lexM_fail h).1
    obtain ⟨h1, -⟩ := lexM_ok h1
    cases h1
    obtain ⟨i, st', hi', hc, h⟩ := untilM_fail (Q := fun i _ => i <:+ s) hQ n (skip_suffix _) h
    rcases seqM_fail h with h | ⟨rest, st1, -, h⟩
    · rcases seqM_fail h with h | ⟨rest, st1, -, h⟩
      · obtain ⟨h1, rfl, -⟩ := lexM_fail h
        refine ⟨rfl, hi', ?_, ?_⟩
        · rintro rfl; simp at hc
        · rintro c cs rfl rfl
          simp [sym] at h1
      · exact (mustM_fail h).elim
    · cases (lexM_fail h).1

/-- What a message says is true. -/
theorem fromStringM_says (nd : Bool) (n : Nat) {m : Msg} {s p : List Char}
    (h : fromStringM (K := K) nd n text = .error m s p) : Sound text m s p := by
  unfold fromStringM at h
  rcases h1 : RuleM.specificationFile nd n text ({} : PState K) with ⟨m', s', p'⟩ | (⟨q | q, st'⟩ | _ | _ | _ | _) <;>
    rw [h1] at h <;> cases h
  exact fileM_says nd n h1

end

end Verif
