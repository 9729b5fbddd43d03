import Verif.Proofs.MsgText
import Verif.Proofs.ParserMessagesSound
import Verif.Proofs.ParserMessagesNever
import Verif.Props.Parser

/-!
# The messages of parse errors (C110)
-/

namespace Verif
open Spec

section
variable {K : Type} [Field K] [LinearOrder K] [Arith K] [Strtod K]

/-- The model with messages is the model of the parser: the same specifications, the same exceptions. -/
theorem C110_same (nd : Bool) (fuel : Nat) (text : List Char) :
    (fromStringM (K := K) nd fuel text).forget = fromString nd fuel text := fromStringM_forget nd fuel text

/-- Every parse error has a message and a place. -/
theorem C110_always (nd : Bool) (fuel : Nat) (text : List Char)
    (h : fromString (K := K) nd fuel text = .throw .parseError) :
    ∃ m s p, fromStringM (K := K) nd fuel text = .error m s p := by
  have h2 := fromStringM_forget (K := K) nd fuel text
  rw [h] at h2
  rcases h1 : fromStringM (K := K) nd fuel text with ⟨m, s, p⟩ | o
  · exact ⟨m, s, p, rfl⟩
  · rw [h1] at h2
    simp only [Said.forget] at h2
    exact absurd (h1.trans (by rw [h2])) (fromStringM_never nd fuel text)

/-- Messages belong to parse errors only. -/
theorem C110_only (nd : Bool) (fuel : Nat) (text : List Char) {m : Msg} {s p : List Char}
    (h : fromStringM (K := K) nd fuel text = .error m s p) : fromString (K := K) nd fuel text = .throw .parseError := by
  rw [← fromStringM_forget, h]
  rfl

end

section
variable {K : Type} [Field K] [LinearOrder K] [IsStrictOrderedRing K] [Arith K] [Strtod K]

/-- What a message claims is true: at the reported place the text does not go on as the message expects, and the place
is behind the words that make the parser expect it. -/
theorem C110_sound (nd : Bool) (fuel : Nat) (text : List Char) {m : Msg} {s p : List Char}
    (h : fromStringM (K := K) nd fuel text = .error m s p) : Sound text m s p := fromStringM_says nd fuel h

/-- Two of the messages never appear: the one about whitespace, and the one about an unclosed command. -/
theorem C110_dead (nd : Bool) (fuel : Nat) (text : List Char) {m : Msg} {s p : List Char}
    (h : fromStringM (K := K) nd fuel text = .error m s p) : m ≠ .skip ∧ m ≠ .anyCommandTail := by
  have h := fromStringM_says nd fuel h
  constructor <;> rintro rfl <;> exact h

/-- The reported number of terms of a conjunction or disjunction is always one. -/
theorem C110_few (nd : Bool) (fuel : Nat) (text : List Char) {n : Nat} {s p : List Char}
    (h : fromStringM (K := K) nd fuel text = .error (.tooFew n) s p) : n = 1 := (fromStringM_says nd fuel h).1

/-- The reported place is a place of the text. -/
theorem C110_inside (nd : Bool) (fuel : Nat) (text : List Char) {m : Msg} {s p : List Char}
    (h : fromStringM (K := K) nd fuel text = .error m s p) : p <:+ s ∧ s <:+ text := by
  have h := fromStringM_says nd fuel h
  have ha : ∀ {ks : List String} {rest : List Char}, After ks text rest → rest <:+ text := by
    rintro ks rest ⟨k, -, q, g, rfl, -⟩
    exact ⟨q ++ (k.toList ++ g), by simp⟩
  have hb : ∀ {ks : List String} {w rest : List Char}, Begins ks w rest → rest <:+ w := by
    rintro ks w rest ⟨k, -, g, rfl, -⟩
    exact ⟨k.toList ++ g, by simp⟩
  cases m with
  | skip => exact h.elim
  | anyCommandTail => exact h.elim
  | identifier => obtain ⟨h1, rfl, -⟩ := h; exact ⟨List.suffix_refl _, ha h1⟩
  | exponent =>
    obtain ⟨⟨q, d, e, rfl, -⟩, h2, -⟩ := h
    refine ⟨?_, ⟨q ++ [d, e], by simp⟩⟩
    rcases h2 with rfl | rfl | rfl
    · exact List.suffix_refl _
    · exact List.suffix_cons _ _
    · exact List.suffix_cons _ _
  | predicateForm =>
    obtain ⟨h1, h2⟩ := h
    refine ⟨?_, ha h1⟩
    rcases h2 with ⟨rfl, -⟩ | ⟨⟨l, g, rfl, -⟩, -⟩
    · exact List.suffix_refl _
    · exact ⟨l.chars ++ g, by simp⟩
  | naryTail => obtain ⟨h1, rfl, -⟩ := h; exact ⟨List.suffix_refl _, ha h1⟩
  | binaryTail => obtain ⟨h1, h2, -⟩ := h; exact ⟨h2, ha h1⟩
  | termTail => obtain ⟨h1, h2, -⟩ := h; exact ⟨h2, ha h1⟩
  | term =>
    obtain ⟨h1, rfl, -⟩ := h
    refine ⟨List.suffix_refl _, ?_⟩
    rcases h1 with h1 | ⟨j, h1, h2, -⟩ | ⟨j, n, h1, -, h2⟩
    · exact ha h1
    · exact h2.trans (ha h1)
    · exact (hb h2).trans (ha h1)
  | allowedCommands => obtain ⟨⟨j, h1, h2⟩, rfl, -⟩ := h; exact ⟨List.suffix_refl _, h2.trans (ha h1)⟩
  | statementList => obtain ⟨rfl, h2, -⟩ := h; exact ⟨h2, List.suffix_refl _⟩
  | tooFew n => obtain ⟨-, h1, rfl, -⟩ := h; exact ⟨List.suffix_refl _, h1⟩
  | assertionAgain id => obtain ⟨h1, rfl, -⟩ := h; exact ⟨List.suffix_refl _, h1⟩
  | formulaAgain id => obtain ⟨h1, rfl, -⟩ := h; exact ⟨List.suffix_refl _, h1⟩

end

/-! ## The texts of the messages -/

/-- Is it this message, at this place? -/
def saysAt {α : Type} (m : Msg) (s p : String) : Said α → Bool
  | .error m' s' p' => m' = m && s' = s.toList && p' = p.toList
  | _ => false

theorem saysAt_eq {α : Type} {m : Msg} {s p : String} {o : Said α} (h : saysAt m s p o = true) :
    o = .error m s.toList p.toList := by
  rcases o with ⟨m', s', p'⟩ | _
  · simp only [saysAt, Bool.and_eq_true, decide_eq_true_eq] at h
    obtain ⟨⟨rfl, rfl⟩, rfl⟩ := h
    rfl
  · cases h

/-- Every other message does appear. -/
theorem C110_live (nd : Bool) :
    fromStringM (K := ℚ) nd 40 "(assert 1 p)".toList = .error .identifier "1 p)".toList "1 p)".toList ∧
    fromStringM (K := ℚ) nd 40 "(assert a (< x 1e-))".toList = .error .exponent "-))".toList "))".toList ∧
    fromStringM (K := ℚ) nd 40 "(assert a (< x))".toList = .error .predicateForm "x))".toList "x))".toList ∧
    fromStringM (K := ℚ) nd 40 "(assert a (< 1 2))".toList = .error .predicateForm "1 2))".toList "2))".toList ∧
    fromStringM (K := ℚ) nd 40 "(assert a (and ))".toList = .error .naryTail "))".toList "))".toList ∧
    fromStringM (K := ℚ) nd 40 "(assert a (iff true))".toList = .error .binaryTail "true))".toList "))".toList ∧
    fromStringM (K := ℚ) nd 40 "(assert a (not true".toList = .error .termTail "not true".toList [] ∧
    fromStringM (K := ℚ) nd 40 "(assert a )".toList = .error .term ")".toList ")".toList ∧
    fromStringM (K := ℚ) nd 40 "(check a true)".toList =
      .error .allowedCommands "check a true)".toList "check a true)".toList ∧
    fromStringM (K := ℚ) nd 40 "assert".toList = .error .statementList "assert".toList "assert".toList ∧
    fromStringM (K := ℚ) nd 40 "(assert a (or true))".toList =
      .error (.tooFew 1) "or true))".toList "or true))".toList ∧
    fromStringM (K := ℚ) nd 40 "(assert a true)(assert a false)".toList =
      .error (.assertionAgain "a") "assert a false)".toList "assert a false)".toList ∧
    fromStringM (K := ℚ) nd 40 "(define-formula a true define-formula a false)".toList =
      .error (.formulaAgain "a") "define-formula a false)".toList "define-formula a false)".toList := by
  cases nd <;> exact ⟨saysAt_eq (by decide +kernel), saysAt_eq (by decide +kernel), saysAt_eq (by decide +kernel),
    saysAt_eq (by decide +kernel), saysAt_eq (by decide +kernel), saysAt_eq (by decide +kernel),
    saysAt_eq (p := "") (by decide +kernel), saysAt_eq (by decide +kernel), saysAt_eq (by decide +kernel),
    saysAt_eq (by decide +kernel), saysAt_eq (by decide +kernel), saysAt_eq (by decide +kernel),
    saysAt_eq (by decide +kernel)⟩

/-- Was the text accepted? -/
def accepts {α : Type} : Said α → Bool
  | .does (.ok _) => true
  | _ => false

/-- What error_messages.hpp:55-57 is for: an assertion without its closing parenthesis is reported as an unclosed
command. -/
def UnclosedIsReported : Prop := ∀ (nd : Bool) (fuel : Nat) (name formula : List Char) (m : Msg) (s p : List Char),
  accepts (fromStringM (K := ℚ) nd fuel ("(assert ".toList ++ name ++ ' ' :: formula ++ [')'])) = true →
  fromStringM (K := ℚ) nd fuel ("(assert ".toList ++ name ++ ' ' :: formula) = .error m s p → m = .anyCommandTail

/-- It is not: the message says that the command is unknown. -/
theorem C110_unclosed_false : ¬ UnclosedIsReported := fun h => by
  have h1 : fromStringM (K := ℚ) true 40 "(assert a true".toList = .error .allowedCommands [] [] :=
    saysAt_eq (s := "") (p := "") (by decide +kernel)
  cases h true 40 "a".toList "true".toList _ _ _ (by decide +kernel) h1

/-- **C110, the texts.**  Different messages have different texts: the text of an error tells the rule that failed, the
number of operands and the identifier. -/
theorem C110_texts (m m' : Msg) (h : m.text = m'.text) : m = m' := by
  have hn : m.number = m'.number := by
    have h1 := m.head
    have h2 := m'.head
    rw [← h] at h2
    obtain ⟨l1, e1⟩ := List.getElem?_eq_some_iff.1 h1
    obtain ⟨l2, e2⟩ := List.getElem?_eq_some_iff.1 h2
    exact (List.Nodup.getElem_inj_iff heads_nodup).1 (e1.trans e2.symm)
  cases m <;> cases m' <;> first | rfl | (simp only [Msg.number, reduceCtorEq, Nat.reduceEqDiff] at hn) | skip
  · rename_i a b
    have h := (String.append_right_inj _).1 h
    have e : ∀ n : Nat, (toString n).toList = Nat.toDigits 10 n := fun n => Nat.toList_repr
    have h := congrArg (fun s : String => Nat.ofDigitChars 10 s.toList 0) h
    simp only [e, Nat.ofDigitChars_toDigits (show 1 < 10 by decide) (Nat.le_refl 10)] at h
    rw [h]
  · rw [(String.append_right_inj _).1 ((String.append_left_inj _).1 h)]
  · rw [(String.append_right_inj _).1 ((String.append_left_inj _).1 h)]

/-! ## Examples -/

example : (Msg.tooFew 1).text = "expected at least 2 terms, got 1" := by decide +kernel

example : Sound "(assert a (iff true))".toList .binaryTail "true))".toList "))".toList :=
  C110_sound (K := ℚ) true 40 _ (C110_live true).2.2.2.2.2.1

example : fromString (K := ℚ) true 40 "(assert a (iff true))".toList = .throw .parseError :=
  C110_only true 40 _ (C110_live true).2.2.2.2.2.1

example : ∃ m s p, fromStringM (K := ℚ) true 40 "(assert a (iff true))".toList = .error m s p :=
  C110_always true 40 _ (C110_only true 40 _ (C110_live true).2.2.2.2.2.1)

/-- A message that is not true of the text. -/
example : ¬ Sound "(assert a (iff true))".toList .naryTail "true))".toList "true))".toList := fun h => by
  have := h.2.2 't' "rue))".toList rfl
  exact this.2 (.inl rfl)

end Verif
