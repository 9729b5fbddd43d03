import Verif.Spec.Ahead
import Verif.Proofs.ParserMessagesSound

/-! # Lemmas about how far the parser looks ahead: characters and words -/

set_option linter.unusedSectionVars false
set_option linter.ambiguousOpen false

namespace Verif
open Spec Lex

namespace Ahead

/-! ## Continuations -/

theorem refl (p : List Char) : SameAhead p p := .inl rfl

theorem symm {p p' : List Char} : SameAhead p p' → SameAhead p' p
  | .inl h => .inl h.symm
  | .inr ⟨w, a, b, m, m', h1, h2, h3, h4⟩ => .inr ⟨w, a, b, m', m, h1, h2, h4, h3⟩

theorem head {p p' : List Char} : SameAhead p p' → p.head? = p'.head?
  | .inl h => by rw [h]
  | .inr ⟨w, a, b, m, m', h1, h2, h3, h4⟩ => by subst h3 h4; cases w <;> rfl

open Classical in
theorem cons (c : Char) {p p' : List Char} : SameAhead p p' → SameAhead (c :: p) (c :: p')
  | .inl h => .inl (by rw [h])
  | .inr ⟨w, a, b, m, m', h1, h2, h3, h4⟩ => by
    subst h3 h4
    by_cases hc : WordChar c
    · exact .inr ⟨c :: w, a, b, m, m', by simpa using ⟨hc, h1⟩, h2, rfl, rfl⟩
    · cases w with
      | nil => exact .inr ⟨[], c, a, b :: m, b :: m', by simp, hc, rfl, rfl⟩
      | cons d w => exact .inr ⟨[], c, d, w ++ a :: b :: m, w ++ a :: b :: m', by simp, hc, rfl, rfl⟩

theorem append (c : List Char) {p p' : List Char} (h : SameAhead p p') : SameAhead (c ++ p) (c ++ p') := by
  induction c with
  | nil => exact h
  | cons d c ih => exact cons d ih

theorem cancel1 {c : Char} (hc : WordChar c) {p q : List Char} :
    SameAhead (c :: p) q → ∃ p', q = c :: p' ∧ SameAhead p p'
  | .inl h => ⟨p, h.symm, .inl rfl⟩
  | .inr ⟨[], a, b, m, m', h1, h2, h3, h4⟩ => by cases h3; exact absurd hc h2
  | .inr ⟨d :: w, a, b, m, m', h1, h2, h3, h4⟩ => by
    cases h3
    exact ⟨_, h4, .inr ⟨w, a, b, m, m', fun c hc => h1 c (by simp [hc]), h2, rfl, rfl⟩⟩

theorem cancel {c : List Char} (hc : ∀ x ∈ c, WordChar x) {p q : List Char} (h : SameAhead (c ++ p) q) :
    ∃ p', q = c ++ p' ∧ SameAhead p p' := by
  induction c generalizing q with
  | nil => exact ⟨q, rfl, h⟩
  | cons d c ih =>
    obtain ⟨q1, rfl, h1⟩ := cancel1 (hc d (by simp)) h
    obtain ⟨p', rfl, h2⟩ := ih (fun x hx => hc x (by simp [hx])) h1
    exact ⟨p', rfl, h2⟩

/-- Two characters. -/
theorem two {c : Char} (hc : ¬ WordChar c) {p q : List Char} :
    SameAhead (c :: p) q → ∃ p', q = c :: p' ∧ p.head? = p'.head?
  | .inl h => ⟨p, h.symm, rfl⟩
  | .inr ⟨[], a, b, m, m', h1, h2, h3, h4⟩ => by cases h3; exact ⟨_, h4, rfl⟩
  | .inr ⟨d :: w, a, b, m, m', h1, h2, h3, h4⟩ => by cases h3; exact absurd (h1 c (by simp)) hc

theorem wordChar_other {c : Char} (h : isIdOther c = true) : WordChar c := .inl (isIdOther_iff.1 h)

theorem wordChar_digit {c : Char} (h : c.isDigit = true) : WordChar c :=
  .inl (.inl (by simp [Char.isAlphanum, h]))

/-! ## One character ahead -/

/-- Same first character. -/
abbrev Same1 (p p' : List Char) : Prop := p.head? = p'.head?

theorem same1_append (c : List Char) {p p' : List Char} (h : Same1 p p') : Same1 (c ++ p) (c ++ p') := by
  cases c with
  | nil => exact h
  | cons d c => rfl

/-- A lexical rule: it matches or not according to what is ahead. -/
structure Lex1 (f : List Char → Option (List Char)) : Prop where
  ok : ∀ {inp rest}, f inp = some rest → ∃ c, inp = c ++ rest ∧ ∀ rest', Same1 rest rest' → f (c ++ rest') = some rest'
  fail : ∀ {inp inp'}, f inp = none → SameAhead inp inp' → f inp' = none

theorem start_of {p p' : List Char} (h : Start p) (h1 : Same1 p p') : Start p' := by
  cases p with
  | nil => cases p' with
    | nil => exact h
    | cons => simp [Same1] at h1
  | cons a l => cases p' with
    | nil => simp [Same1] at h1
    | cons b l' =>
      simp only [Same1, List.head?_cons, Option.some.injEq] at h1
      subst h1
      intro c cs e
      cases e
      exact h a l rfl

theorem skip_same (r : List Char) : ∃ g, r = g ++ skip r ∧ ∀ q, Same1 (skip r) q → skip (g ++ q) = q := by
  rcases skip_split r with ⟨g, h1, h2⟩ | ⟨h1, h2⟩
  · exact ⟨g, h2, fun q hq => skip_layout h1 (start_of (skip_starts r) hq)⟩
  · refine ⟨r, by simp [h1], fun q hq => ?_⟩
    rw [h1] at hq
    cases q with
    | nil => simpa using h1
    | cons => simp [Same1] at hq

theorem noOther_of {p p' : List Char} (h : NoOther p) (h1 : Same1 p p') : NoOther p' := by
  rintro c cs rfl
  cases p with
  | nil => simp [Same1] at h1
  | cons a l =>
    simp only [Same1, List.head?_cons, Option.some.injEq] at h1
    subst h1
    exact h a l rfl

theorem lex_skip : Lex1 (fun inp => some (skip inp)) where
  ok h := by
    cases h
    rename_i inp
    obtain ⟨g, h1, h2⟩ := skip_same inp
    exact ⟨g, h1, fun q hq => by rw [h2 q hq]⟩
  fail h := by cases h

theorem lex_sym (c : Char) : Lex1 (sym c) where
  ok h := by
    obtain ⟨r, rfl, rfl⟩ := sym_inv h
    obtain ⟨g, h1, h2⟩ := skip_same r
    refine ⟨c :: g, by rw [List.cons_append, ← h1], fun q hq => ?_⟩
    simp [sym, h2 q hq]
  fail {inp inp'} h hs := by
    have := Ahead.head hs
    cases inp with
    | nil => cases inp' with
      | nil => rfl
      | cons => simp at this
    | cons a l => cases inp' with
      | nil => rfl
      | cons b l' =>
        simp at this
        subst this
        simp only [sym] at h ⊢
        split at h
        · cases h
        · simp [*]

theorem lex_keyword (k : String) (hk : ∀ c ∈ k.toList, WordChar c) : Lex1 (keyword k) where
  ok {inp rest} h := by
    obtain ⟨r, h1, h2, h3⟩ := keyword_inv h
    subst h1 h3
    obtain ⟨g, h4, h5⟩ := skip_same r
    refine ⟨k.toList ++ g, by rw [List.append_assoc, ← h4], fun q hq => ?_⟩
    rw [List.append_assoc, keyword_of, h5 q hq]
    refine noOther_of h2 ?_
    conv_lhs => rw [h4]
    exact same1_append g hq
  fail {inp inp'} h hs := by
    by_contra hc
    obtain ⟨rest, hr⟩ := Option.ne_none_iff_exists'.1 hc
    obtain ⟨r, h1, h2, h3⟩ := keyword_inv hr
    subst h1
    obtain ⟨p, rfl, h4⟩ := cancel hk (Ahead.symm hs)
    rw [keyword_of (noOther_of h2 (Ahead.head h4))] at h
    cases h

theorem lex_strict (c : Char) (hc : ¬ WordChar c) : Lex1 (strictSym c) where
  ok {inp rest} h := by
    cases inp with
    | nil => cases h
    | cons d cs =>
      simp only [strictSym] at h
      split at h
      case isFalse => cases h
      rename_i hd
      subst hd
      cases cs with
      | nil =>
        cases h
        refine ⟨[d], rfl, fun q hq => ?_⟩
        cases q with
        | nil => simp [strictSym]
        | cons => simp [Same1] at hq
      | cons e es =>
        simp only at h
        split at h
        case isTrue => cases h
        rename_i he
        cases h
        obtain ⟨g, h4, h5⟩ := skip_same (e :: es)
        refine ⟨d :: g, by rw [List.cons_append, ← h4], fun q hq => ?_⟩
        have h6 : Same1 (e :: es) (g ++ q) := by
          conv_lhs => rw [h4]
          exact same1_append g hq
        have h7 := h5 q hq
        show strictSym d (d :: (g ++ q)) = some q
        revert h6 h7
        rcases g ++ q with _ | ⟨e', es'⟩
        · intro h; simp [Same1] at h
        · intro h6 h7
          simp only [Same1, List.head?_cons, Option.some.injEq] at h6
          subst h6
          simp [strictSym, he, h7]
  fail {inp inp'} h hs := by
    cases inp with
    | nil =>
      have := Ahead.head hs
      cases inp' with
      | nil => rfl
      | cons => simp at this
    | cons d cs =>
      by_cases hd : d = c
      · subst hd
        obtain ⟨p', rfl, h1⟩ := two hc hs
        cases cs with
        | nil => cases p' with
          | nil => exact h
          | cons => simp at h1
        | cons e es => cases p' with
          | nil => simp at h1
          | cons e' es' =>
            simp at h1
            subst h1
            simp only [strictSym] at h ⊢
            simp only [if_true] at h ⊢
            split at h
            · simp [*]
            · cases h
      · have := Ahead.head hs
        cases inp' with
        | nil => rfl
        | cons d' l' =>
          simp at this
          subst this
          simp [strictSym, hd]

theorem lex_weak (c : Char) (hc : ¬ WordChar c) : Lex1 (weakSym c) where
  ok {inp rest} h := by
    simp only [weakSym, str, Option.map_eq_some_iff] at h
    obtain ⟨r, h1, rfl⟩ := h
    split at h1
    case isFalse => cases h1
    rename_i hp
    obtain ⟨t, rfl⟩ := List.isPrefixOf_iff_prefix.1 hp
    simp at h1
    subst h1
    obtain ⟨g, h4, h5⟩ := skip_same t
    refine ⟨c :: '=' :: g, by simp [← h4], fun q hq => ?_⟩
    simp [weakSym, str, h5 q hq]
  fail {inp inp'} h hs := by
    by_contra hn
    obtain ⟨rest, hr⟩ := Option.ne_none_iff_exists'.1 hn
    simp only [weakSym, str, Option.map_eq_some_iff] at hr
    obtain ⟨r, h1, rfl⟩ := hr
    split at h1
    case isFalse => cases h1
    rename_i hp
    obtain ⟨t, rfl⟩ := List.isPrefixOf_iff_prefix.1 hp
    obtain ⟨p, rfl, h2⟩ := two (p := '=' :: t) hc (Ahead.symm hs)
    cases p with
    | nil => simp at h2
    | cons e es =>
      simp at h2
      subst h2
      simp [weakSym, str] at h

theorem lex_eof : Lex1 (fun inp => if inp.isEmpty then some [] else none) where
  ok {inp rest} h := by
    cases inp with
    | nil =>
      cases h
      refine ⟨[], rfl, fun q hq => ?_⟩
      cases q with
      | nil => rfl
      | cons => simp [Same1] at hq
    | cons => simp at h
  fail {inp inp'} h hs := by
    have := Ahead.head hs
    cases inp with
    | nil => simp at h
    | cons => cases inp' with
      | nil => simp at this
      | cons => rfl

end Ahead
end Verif
