import Verif.Model.Position
import Verif.Proofs.AheadGrammar
import Verif.Props.ParserMessages

/-!
# Where a parse error is reported, and that it is final (C118)
-/

namespace Verif
open Spec

instance (c : Char) : Decidable (WordChar c) := by unfold WordChar NameChar; infer_instance

/-! ## Lines and columns -/

/-- The reported position: `before` is the text before the place, and it consists of complete lines and the first
part of one. -/
theorem C118_position (before place : List Char) : ∃ lines part, before = lines ++ part ∧
    (lines = [] ∨ ∃ l, lines = l ++ ['\n']) ∧ '\n' ∉ part ∧
    posOf (before ++ place) place = ⟨before.count '\n' + 1, part.length + 1, before.length⟩ := by
  have h : (before ++ place).take ((before ++ place).length - place.length) = before := by simp
  rw [posOf, h]
  clear h
  induction before using List.reverseRecOn with
  | nil => exact ⟨[], [], rfl, .inl rfl, by simp, rfl⟩
  | append_singleton b c ih =>
    obtain ⟨lines, part, h1, h2, h3, h4⟩ := ih
    rw [List.foldl_append, h4]
    by_cases hc : c = '\n'
    · subst hc
      exact ⟨b ++ ['\n'], [], by simp, .inr ⟨b, rfl⟩, by simp, by simp [Pos.bump]⟩
    · refine ⟨lines, part ++ [c], by simp [h1], h2, by simpa [h3] using fun h => hc h.symm, ?_⟩
      simp [Pos.bump, hc]

/-- Line and column determine the place. -/
theorem C118_unique (text p q : List Char) (hp : p <:+ text) (hq : q <:+ text)
    (hl : (posOf text p).line = (posOf text q).line) (hc : (posOf text p).column = (posOf text q).column) : p = q := by
  obtain ⟨a, rfl⟩ := hp
  obtain ⟨b, hb⟩ := hq
  obtain ⟨la, pa, h1, h2, h3, h4⟩ := C118_position a p
  obtain ⟨lb, pb, h5, h6, h7, h8⟩ := C118_position b q
  rw [← hb, h8, hb, h4] at hl
  rw [← hb, h8, hb, h4] at hc
  simp only [Nat.add_right_cancel_iff] at hl hc
  -- One of the two texts before the places begins with the other.
  have key : ∀ (a b : List Char) (la pa lb pb d : List Char), a = la ++ pa → b = lb ++ pb →
      (lb = [] ∨ ∃ l, lb = l ++ ['\n']) → '\n' ∉ pb → '\n' ∉ pa → a.count '\n' = b.count '\n' → pa.length = pb.length →
      (la = [] ∨ ∃ l, la = l ++ ['\n']) → b = a ++ d → d = [] := by
    intro a b la pa lb pb d ha hb hlb hpb hpa hcount hlen hla hd
    have hd0 : '\n' ∉ d := by
      have : d.count '\n' = 0 := by
        rw [hd, List.count_append] at hcount
        omega
      exact List.count_eq_zero.1 this
    have : lb ++ pb = la ++ (pa ++ d) := by rw [← hb, hd, ha, List.append_assoc]
    have hpd : '\n' ∉ pa ++ d := by simp [hpa, hd0]
    -- the last line of both is the same
    have h9 : lb = la ∧ pb = pa ++ d := by
      rcases List.append_eq_append_iff.1 this with ⟨x, h10, h11⟩ | ⟨x, h10, h11⟩
      · rcases hla with rfl | ⟨l, rfl⟩
        · have : lb = [] ∧ x = [] := by simpa using h10.symm
          obtain ⟨rfl, rfl⟩ := this
          exact ⟨rfl, by simpa using h11⟩
        · rcases List.eq_nil_or_concat x with rfl | ⟨x', c, rfl⟩
          · simp at h10 h11; exact ⟨h10.symm, h11⟩
          · rw [List.concat_eq_append, ← List.append_assoc] at h10
            have := (List.append_inj' h10 rfl).2
            simp at this
            subst this
            exact absurd (h11 ▸ (by simp : '\n' ∈ (x'.concat '\n') ++ (pa ++ d))) hpb
      · rcases hlb with rfl | ⟨l, rfl⟩
        · have : la = [] ∧ x = [] := by simpa using h10.symm
          obtain ⟨rfl, rfl⟩ := this
          exact ⟨rfl, by simpa using h11.symm⟩
        · rcases List.eq_nil_or_concat x with rfl | ⟨x', c, rfl⟩
          · simp at h10 h11; exact ⟨h10, h11.symm⟩
          · rw [List.concat_eq_append, ← List.append_assoc] at h10
            have := (List.append_inj' h10 rfl).2
            simp at this
            subst this
            exact absurd (h11 ▸ (by simp : '\n' ∈ (x'.concat '\n') ++ pb)) hpd
    have := congrArg List.length h9.2
    rw [List.length_append] at this
    exact List.length_eq_zero_iff.1 (by omega)
  rcases List.append_eq_append_iff.1 hb with ⟨x, h10, h11⟩ | ⟨x, h10, h11⟩
  · have := key b a lb pb la pa x h5 h1 h2 h3 h7 hl.symm hc.symm h6 h10
    subst this
    simpa using h11.symm
  · have := key a b la pa lb pb x h1 h5 h6 h7 h3 hl hc h2 h10
    subst this
    simpa using h11

/-! ## Errors are final -/

section
variable {K : Type} [Field K] [LinearOrder K] [Arith K] [Strtod K]

/-- An error of the grammar is decided by the text up to the next word and two more characters: every other text that
is the same up to there is rejected too, with the same message at the same line and column.  (After a comparison symbol
"the next word" may be the one after a name.) -/
theorem C118_final (nd : Bool) (fuel : Nat) (text : List Char) {m : Msg} {s p : List Char} (hm : OfGrammar m)
    (h : fromStringM (K := K) nd fuel text = .error m s p) :
    ∃ c x e, text = c ++ (x ++ e) ∧ p = x ++ e ∧ ReadOn m x e ∧ ∀ e', SameAhead e e' →
      fromString (K := K) nd fuel (c ++ (x ++ e')) = .throw .parseError ∧
      (∃ s', fromStringM (K := K) nd fuel (c ++ (x ++ e')) = .error m s' (x ++ e')) ∧
      posOf (c ++ (x ++ e')) (x ++ e') = posOf text p ∧
      whatText (c ++ (x ++ e')) m (x ++ e') = whatText text m p := by
  obtain ⟨c, d, x, e, rfl, rfl, rfl, h1, h2⟩ := Ahead.from_local h hm
  refine ⟨c ++ d, x, e, by simp, rfl, h1, fun e' he => ?_⟩
  have h3 := h2 e' he
  rw [List.append_assoc]
  have h4 : posOf (c ++ (d ++ (x ++ e'))) (x ++ e') = posOf (c ++ (d ++ (x ++ e))) (x ++ e) := by
    rw [posOf, posOf]
    congr 1
    rw [← List.append_assoc c d, ← List.append_assoc c d]
    simp [-List.append_assoc]
  exact ⟨C110_only nd fuel _ h3, ⟨_, h3⟩, h4, by rw [whatText, h4, whatText]⟩

/-- In particular, if at least two characters follow the next word, nothing that is appended to the text makes it
acceptable or changes the message, the line or the column. -/
theorem C118_append (nd : Bool) (fuel : Nat) (text more : List Char) {m : Msg} {s p : List Char} (hm : OfGrammar m)
    (hn : m ≠ .predicateForm) (h : fromStringM (K := K) nd fuel text = .error m s p)
    (w : List Char) (a b : Char) (l : List Char) (hp : p = w ++ a :: b :: l) (hw : ∀ c ∈ w, WordChar c)
    (ha : ¬ WordChar a) : fromStringM (K := K) nd fuel (text ++ more) = .error m (s ++ more) (p ++ more) ∧
      whatText (text ++ more) m (p ++ more) = whatText text m p := by
  obtain ⟨c, d, x, e, rfl, rfl, rfl, h1, h2⟩ := Ahead.from_local h hm
  rcases h1 with rfl | ⟨h1, -⟩
  case inr => exact absurd h1 hn
  simp only [List.nil_append] at hp h2 ⊢
  have h3 := h2 (e ++ more) (.inr ⟨w, a, b, l, l ++ more, hw, ha, hp, by simp [hp]⟩)
  refine ⟨by simpa using h3, ?_⟩
  have h4 : posOf (c ++ (d ++ e) ++ more) (e ++ more) = posOf (c ++ (d ++ e)) e := by
    rw [posOf, posOf]
    congr 1
    rw [List.append_assoc, List.append_assoc, ← List.append_assoc c d, ← List.append_assoc c d]
    simp [-List.append_assoc]
  rw [whatText, h4, whatText]

end

/-! ## The exceptions are needed -/

/-- Without `ReadOn`: an error is decided by what is ahead of the reported place. -/
def FinalAtPlace (Q : Msg → Prop) : Prop := ∀ (nd : Bool) (fuel : Nat) (c s p p' : List Char) (m : Msg), Q m →
  fromStringM (K := ℚ) nd fuel (c ++ p) = .error m s p → SameAhead p p' →
  accepts (fromStringM (K := ℚ) nd fuel (c ++ p')) = false

/-- After a comparison symbol and a name the parser has to read on: the error is reported at the name, but it is the
next word that is wrong. -/
theorem C118_name : ¬ FinalAtPlace OfGrammar := fun h => by
  have h1 := h true 40 "(assert a (< ".toList "x  y))".toList "x  y))".toList "x  1))".toList .predicateForm trivial
    (saysAt_eq (by decide +kernel)) (.inr ⟨['x'], ' ', ' ', "y))".toList, "1))".toList, by decide, by decide, rfl, rfl⟩)
  exact absurd h1 (by decide +kernel)

/-- The errors of the actions are about a whole expression or command, and are reported where it begins. -/
theorem C118_action : ¬ FinalAtPlace fun m => m ≠ .predicateForm := fun h => by
  have h1 := h true 40 "(assert a (".toList "or true))".toList "or true))".toList "or true true))".toList (.tooFew 1)
    (by decide) (saysAt_eq (by decide +kernel))
    (.inr ⟨"or".toList, ' ', 't', "rue))".toList, "rue true))".toList, by decide, by decide, rfl, rfl⟩)
  exact absurd h1 (by decide +kernel)

/-! ## Examples -/

/-- The second line lacks a name. -/
example : fromStringM (K := ℚ) true 40 "(assert a true)\n(assert 1 p)".toList = .error .identifier "1 p)".toList "1 p)".toList ∧
    posOf "(assert a true)\n(assert 1 p)".toList "1 p)".toList = ⟨2, 9, 24⟩ ∧
    whatText "(assert a true)\n(assert 1 p)".toList .identifier "1 p)".toList =
      "from_content:2:9: expected an identifier" :=
  ⟨saysAt_eq (by decide +kernel), by decide +kernel, by decide +kernel⟩

/-- Nothing repairs it. -/
example (more : List Char) : fromString (K := ℚ) true 40 ("(assert 1 p)".toList ++ more) = .throw .parseError :=
  C110_only _ _ _ (C118_append true 40 _ more (by trivial) (by decide) (C110_live true).1 ['1'] ' ' 'p' [')'] rfl
    (by decide) (by decide)).1

example : ∃ c x e, "(assert a (iff true))".toList = c ++ (x ++ e) ∧ "))".toList = x ++ e ∧ ReadOn .binaryTail x e ∧
    ∀ e', SameAhead e e' → fromString (K := ℚ) true 40 (c ++ (x ++ e')) = .throw .parseError := by
  obtain ⟨c, x, e, h1, h2, h3, h4⟩ := C118_final (K := ℚ) (m := .binaryTail) true 40 _ trivial (C110_live true).2.2.2.2.2.1
  exact ⟨c, x, e, h1, h2, h3, fun e' he => (h4 e' he).1⟩

/-- Line 2, column 1 is one place. -/
example (p : List Char) (hp : p <:+ "a\nbc".toList) (hl : (posOf "a\nbc".toList p).line = 2)
    (hc : (posOf "a\nbc".toList p).column = 1) : p = "bc".toList :=
  C118_unique _ _ _ hp ⟨"a\n".toList, rfl⟩ hl hc

example : ∃ lines part, "a\nb".toList = lines ++ part ∧ (lines = [] ∨ ∃ l, lines = l ++ ['\n']) ∧ '\n' ∉ part ∧
    posOf ("a\nb".toList ++ "c".toList) "c".toList = ⟨2, part.length + 1, 3⟩ := C118_position _ _

end Verif
