import Verif.Spec.Squeeze
import Verif.Proofs.Lexing
import Verif.Proofs.ParserTotal
import Verif.Proofs.Equiv

/-!
# The parser does not see superfluous layout
-/

set_option linter.unusedSectionVars false

namespace Verif
namespace Lex
open Spec

/-- Neither layout nor a parenthesis. -/
def Solid (c : Char) : Prop := ¬ IsSpace c ∧ c ≠ ';' ∧ c ≠ '(' ∧ c ≠ ')'

/-- The text from the middle of a word on, without superfluous layout. -/
abbrev sq (w : List Char) : List Char := squeeze false false w

theorem sq_solid {c : Char} (h : Solid c) (cs : List Char) : sq (c :: cs) = c :: sq cs := by
  obtain ⟨h1, h2, h3, h4⟩ := h
  simp [sq, squeeze, h1, h2, h3, h4]

theorem squeeze_start (p s : Bool) {w : List Char} (h : Start w) (hs : s = true → p = true) :
    squeeze p s w = sq w := by
  cases w with
  | nil => rfl
  | cons c cs =>
    obtain ⟨h1, h2⟩ := h c cs rfl
    have h1 : ¬ IsSpace c := by rw [← isSpace_iff]; simp [h1]
    have h3 : ¬ (s = true ∧ p = false) := by rintro ⟨a, b⟩; simp [hs a] at b
    unfold sq
    simp only [squeeze, h1, h2, h3, if_false]
    simp

/-- Skipping layout first. -/
theorem skip_squeeze_aux (n : Nat) : ∀ (w : List Char), w.length ≤ n →
    (∀ p s, skip (squeeze p s w) = sq (skip w)) ∧ (∀ p, skip (squeezeComment p w) = sq (skipComment w)) := by
  induction n with
  | zero =>
    intro w hw
    cases w with
    | nil => simp [squeeze, squeezeComment, skip, skipComment, sq]
    | cons c cs => simp at hw
  | succ n ih =>
    intro w hw
    cases w with
    | nil => simp [squeeze, squeezeComment, skip, skipComment, sq]
    | cons c cs =>
      obtain ⟨i1, i2⟩ := ih cs (by simpa using hw)
      constructor
      · intro p s
        by_cases h1 : IsSpace c
        · have : isSpace c = true := (isSpace_iff c).2 h1
          rw [squeeze, if_pos h1, i1, skip, if_pos this]
        · have h1' : isSpace c = false := by rw [← isSpace_iff] at h1; simpa using h1
          by_cases h2 : c = ';'
          · subst h2
            rw [squeeze, if_neg h1, if_pos rfl, i2, skip, if_neg (by simp [h1']), if_pos rfl]
          · have e : skip (c :: cs) = c :: cs := by simp [skip, h1', h2]
            rw [e]
            have hsp : isSpace ' ' = true := by decide
            by_cases h3 : c = '(' ∨ c = ')'
            · simp only [squeeze, sq, h1, h2, h3, if_false, if_true, skip, h1', Bool.false_eq_true]
            · simp only [squeeze, sq, h1, h2, h3, if_false]
              split <;> simp [skip, h1', h2, hsp]
      · intro p
        rw [squeezeComment, skipComment]
        split
        · exact i1 _ _
        · exact i2 _

theorem skip_squeeze (p s : Bool) (w : List Char) : skip (squeeze p s w) = sq (skip w) :=
  (skip_squeeze_aux w.length w le_rfl).1 p s

theorem skip_sq (w : List Char) : skip (sq w) = sq (skip w) := skip_squeeze false false w

theorem skip_isStart_aux (n : Nat) : ∀ (w : List Char), w.length ≤ n → Start (skip w) ∧ Start (skipComment w) := by
  induction n with
  | zero =>
    intro w hw
    cases w with
    | nil => simp [skip, skipComment, Start]
    | cons c cs => simp at hw
  | succ n ih =>
    intro w hw
    cases w with
    | nil => simp [skip, skipComment, Start]
    | cons c cs =>
      obtain ⟨i1, i2⟩ := ih cs (by simpa using hw)
      constructor
      · rw [skip]
        split
        · exact i1
        · split
          · exact i2
          · rename_i h1 h2
            intro d ds e; cases e; exact ⟨by simpa using h1, h2⟩
      · rw [skipComment]
        split
        · exact i1
        · exact i2

theorem skip_isStart (w : List Char) : Start (skip w) := (skip_isStart_aux w.length w le_rfl).1

/-- What a text that begins with layout becomes. -/
def Gap (w : List Char) : Prop := ∀ c cs, w = c :: cs → c = ' ' ∨ c = '(' ∨ c = ')'

theorem squeeze_gap_aux (n : Nat) : ∀ (w : List Char), w.length ≤ n →
    Gap (squeeze false true w) ∧ Gap (squeezeComment false w) := by
  induction n with
  | zero =>
    intro w hw
    cases w with
    | nil => simp [squeeze, squeezeComment, Gap]
    | cons c cs => simp at hw
  | succ n ih =>
    intro w hw
    cases w with
    | nil => simp [squeeze, squeezeComment, Gap]
    | cons c cs =>
      obtain ⟨i1, i2⟩ := ih cs (by simpa using hw)
      constructor
      · rw [squeeze]
        split
        · exact i1
        · split
          · exact i2
          · split
            · rename_i h; intro d ds e; cases e; exact .inr h
            · rw [if_pos (by simp)]
              intro d ds e; cases e; exact .inl rfl
      · rw [squeezeComment]
        split
        · exact i1
        · exact i2

/-- How a text begins, before and after. -/
theorem sq_cases (w : List Char) :
    (w = [] ∧ sq w = []) ∨ (∃ c cs, w = c :: cs ∧ Solid c ∧ sq w = c :: sq cs) ∨
      (Gap w ∨ ∃ c cs, w = c :: cs ∧ (isSpace c = true ∨ c = ';')) ∧ Gap (sq w) := by
  cases w with
  | nil => left; simp [sq, squeeze]
  | cons c cs =>
    right
    by_cases h1 : IsSpace c
    · right
      refine ⟨.inr ⟨c, cs, rfl, .inl ((isSpace_iff c).2 h1)⟩, ?_⟩
      rw [sq, squeeze, if_pos h1]
      exact (squeeze_gap_aux cs.length cs le_rfl).1
    · by_cases h2 : c = ';'
      · right
        refine ⟨.inr ⟨c, cs, rfl, .inr h2⟩, ?_⟩
        rw [sq, squeeze, if_neg h1, if_pos h2]
        exact (squeeze_gap_aux cs.length cs le_rfl).2
      · by_cases h3 : c = '(' ∨ c = ')'
        · right
          refine ⟨.inl ?_, ?_⟩
          · intro d ds e; cases e; exact .inr h3
          · rw [sq, squeeze, if_neg h1, if_neg h2, if_pos h3]
            intro d ds e; cases e; exact .inr h3
        · left
          push Not at h3
          exact ⟨c, cs, rfl, ⟨h1, h2, h3.1, h3.2⟩, sq_solid ⟨h1, h2, h3.1, h3.2⟩ cs⟩

/-- A text that ends or begins with a character that is not solid. -/
def Hole (w : List Char) : Prop := ∀ c cs, w = c :: cs → ¬ Solid c

theorem Gap.hole {w : List Char} (h : Gap w) : Hole w := by
  intro c cs e hs
  rcases h c cs e with rfl | rfl | rfl
  · exact hs.1 (by decide)
  · exact hs.2.2.1 rfl
  · exact hs.2.2.2 rfl

theorem sq_cases' (w : List Char) :
    (∃ c cs, w = c :: cs ∧ Solid c ∧ sq w = c :: sq cs) ∨ Hole w ∧ Hole (sq w) := by
  rcases sq_cases w with ⟨rfl, h⟩ | h | ⟨h | ⟨c, cs, rfl, h⟩, h'⟩
  · right; rw [h]; constructor <;> intro c cs e <;> cases e
  · exact .inl h
  · exact .inr ⟨h.hole, h'.hole⟩
  · refine .inr ⟨?_, h'.hole⟩
    intro d ds e hs
    cases e
    rcases h with h | h
    · exact hs.1 ((isSpace_iff _).1 h)
    · exact hs.2.1 h

theorem solid_of_other {c : Char} (h : isIdOther c = true) : Solid c := by
  have := isIdOther_not_stop h
  refine ⟨?_, ?_, ?_, ?_⟩
  · intro hs
    rw [← isSpace_iff] at hs
    simp [stopChar, hs] at this
  all_goals (rintro rfl; revert this; decide)

theorem solid_of_digit {c : Char} (h : c.isDigit = true) : Solid c := solid_of_other (isDigit_other h)

section whiles
variable {p : Char → Bool} (hp : ∀ c, p c = true → Solid c)
include hp

theorem takeWhile_hole {w : List Char} (h : Hole w) : w.takeWhile p = [] := by
  cases w with
  | nil => rfl
  | cons c cs =>
    have : p c = false := by by_contra hc; exact h c cs rfl (hp c (by simpa using hc))
    simp [List.takeWhile, this]

theorem dropWhile_hole {w : List Char} (h : Hole w) : w.dropWhile p = w := by
  cases w with
  | nil => rfl
  | cons c cs =>
    have : p c = false := by by_contra hc; exact h c cs rfl (hp c (by simpa using hc))
    simp [List.dropWhile, this]

theorem takeWhile_sq (w : List Char) : (sq w).takeWhile p = w.takeWhile p := by
  induction w with
  | nil => rfl
  | cons c cs ih =>
    rcases sq_cases' (c :: cs) with ⟨d, ds, e, hd, hs⟩ | ⟨h1, h2⟩
    · cases e
      rw [hs, List.takeWhile_cons, List.takeWhile_cons, ih]
    · rw [takeWhile_hole hp h1, takeWhile_hole hp h2]

theorem dropWhile_sq (w : List Char) : (sq w).dropWhile p = sq (w.dropWhile p) := by
  induction w with
  | nil => rfl
  | cons c cs ih =>
    rcases sq_cases' (c :: cs) with ⟨d, ds, e, hd, hs⟩ | ⟨h1, h2⟩
    · cases e
      rw [hs, List.dropWhile_cons, List.dropWhile_cons, ih]
      split
      · rfl
      · rw [hs]
    · rw [dropWhile_hole hp h1, dropWhile_hole hp h2]

end whiles

theorem str_sq {key : List Char} (hk : ∀ c ∈ key, Solid c) (w : List Char) :
    str key (sq w) = (str key w).map sq := by
  induction key generalizing w with
  | nil => simp [str]
  | cons k ks ih =>
    rcases sq_cases' w with ⟨c, cs, rfl, hc, hs⟩ | ⟨h1, h2⟩
    · have := ih (fun d hd => hk d (List.mem_cons_of_mem _ hd)) cs
      rw [hs]
      unfold str at this ⊢
      simp only [List.isPrefixOf, List.length_cons, List.drop_succ_cons]
      by_cases hkc : k = c
      · subst hkc
        simpa using this
      · have : (k == c) = false := by simpa using hkc
        simp [this]
    · have hk0 := hk k (by simp)
      have aux : ∀ {v : List Char}, Hole v → str (k :: ks) v = none := by
        intro v hv
        unfold str
        cases v with
        | nil => simp
        | cons c cs =>
          have : (k == c) = false := by
            rw [beq_eq_false_iff_ne]
            rintro rfl
            exact hv _ _ rfl hk0
          simp [List.isPrefixOf, this]
      rw [aux h1, aux h2]; rfl

theorem endOfWord_sq (w : List Char) : endOfWord (sq w) = (endOfWord w).map sq := by
  rcases sq_cases' w with ⟨c, cs, rfl, hc, hs⟩ | ⟨h1, h2⟩
  · have e := skip_sq (c :: cs)
    rw [hs] at e ⊢
    rw [endOfWord, endOfWord]
    split
    · rfl
    · rw [e]; rfl
  · have aux : ∀ {v : List Char}, Hole v → endOfWord v = some (skip v) := by
      intro v hv
      cases v with
      | nil => rfl
      | cons c cs =>
        have : isIdOther c = false := by by_contra hc; exact hv c cs rfl (solid_of_other (by simpa using hc))
        simp [endOfWord, this]
    rw [aux h1, aux h2, skip_squeeze]; rfl

theorem keyword_sq {key : String} (hk : ∀ c ∈ key.toList, Solid c) (w : List Char) :
    keyword key (sq w) = (keyword key w).map sq := by
  unfold keyword
  rw [str_sq hk]
  cases str key.toList w with
  | none => rfl
  | some r => simpa using endOfWord_sq r

theorem weakSym_sq {c : Char} (hc : Solid c) (w : List Char) : weakSym c (sq w) = (weakSym c w).map sq := by
  unfold weakSym
  have he : Solid '=' := by refine ⟨?_, ?_, ?_, ?_⟩ <;> decide
  rw [str_sq (by intro d hd; simp only [List.mem_cons, List.not_mem_nil, or_false] at hd; rcases hd with rfl | rfl <;> assumption)]
  cases str [c, '='] w with
  | none => rfl
  | some r => simpa using skip_squeeze false false r

theorem strictSym_hole {c : Char} (hc : Solid c) {w : List Char} (h : Hole w) : strictSym c w = none := by
  cases w with
  | nil => rfl
  | cons d ds =>
    have : d ≠ c := by rintro rfl; exact h _ _ rfl hc
    simp [strictSym, this]

theorem strictSym_next_hole {c : Char} (hc : Solid c) {w : List Char} (h : Hole w) :
    strictSym c (c :: w) = some (skip w) := by
  have he : Solid '=' := by refine ⟨?_, ?_, ?_, ?_⟩ <;> decide
  cases w with
  | nil => simp [strictSym, skip]
  | cons d ds =>
    have h1 : d ≠ c := by rintro rfl; exact h _ _ rfl hc
    have h2 : d ≠ '=' := by rintro rfl; exact h _ _ rfl he
    simp [strictSym, h1, h2]

theorem strictSym_sq {c : Char} (hc : Solid c) (w : List Char) : strictSym c (sq w) = (strictSym c w).map sq := by
  rcases sq_cases' w with ⟨d, ds, rfl, hd, hs⟩ | ⟨h1, h2⟩
  · rw [hs]
    by_cases hdc : d = c
    · subst hdc
      rcases sq_cases' ds with ⟨e, es, rfl, he, hs'⟩ | ⟨h1, h2⟩
      · have hk := skip_sq (e :: es)
        rw [hs'] at hk ⊢
        simp only [strictSym, if_true]
        split
        · rfl
        · rw [hk]; rfl
      · rw [strictSym_next_hole hd h1, strictSym_next_hole hd h2, skip_squeeze]; rfl
    · simp [strictSym, hdc]
  · rw [strictSym_hole hc h1, strictSym_hole hc h2]; rfl

/-- Parentheses, at the beginning of a token. -/
theorem sym_sq {c : Char} (hc : c = '(' ∨ c = ')') {w : List Char} (h : Start w) :
    sym c (sq w) = (sym c w).map sq := by
  cases w with
  | nil => rfl
  | cons d ds =>
    obtain ⟨h1, h2⟩ := h d ds rfl
    have h1 : ¬ IsSpace d := by rw [← isSpace_iff]; simp [h1]
    by_cases h3 : d = '(' ∨ d = ')'
    · rw [sq, squeeze, if_neg h1, if_neg h2, if_pos h3, sym, sym]
      split
      · rw [skip_squeeze]; rfl
      · rfl
    · push Not at h3
      rw [sq_solid ⟨h1, h2, h3.1, h3.2⟩, sym, sym]
      have : d ≠ c := by rcases hc with rfl | rfl; exacts [h3.1, h3.2]
      simp [this]

theorem ident_sq (w : List Char) : ident (sq w) = (ident w).map (fun p => (p.1, sq p.2)) := by
  rcases sq_cases' w with ⟨d, ds, rfl, hd, hs⟩ | ⟨h1, h2⟩
  · rw [hs, ident, ident, takeWhile_sq (fun _ => solid_of_other), dropWhile_sq (fun _ => solid_of_other)]
    split <;> rfl
  · have aux : ∀ {v : List Char}, Hole v → ident v = none := by
      intro v hv
      cases v with
      | nil => rfl
      | cons c cs =>
        have : isIdFirst c = false := by
          by_contra hc; exact hv c cs rfl (solid_of_other (isIdFirst_other (by simpa using hc)))
        simp [ident, this]
    rw [aux h1, aux h2]; rfl

/-! Numerals -/

theorem decimalSeq_sq (w : List Char) : decimalSeq (sq w) = (decimalSeq w).map sq := by
  rcases sq_cases' w with ⟨d, ds, rfl, hd, hs⟩ | ⟨h1, h2⟩
  · rw [hs, decimalSeq, decimalSeq, dropWhile_sq (fun _ => solid_of_digit)]
    split <;> rfl
  · have aux : ∀ {v : List Char}, Hole v → decimalSeq v = none := by
      intro v hv
      cases v with
      | nil => rfl
      | cons c cs =>
        have : c.isDigit = false := by
          by_contra hc; exact hv c cs rfl (solid_of_digit (by simpa using hc))
        simp [decimalSeq, this]
    rw [aux h1, aux h2]; rfl

theorem solid_lit {c : Char} (h : c ∈ ['.', 'e', 'E', '+', '-', '<', '>', '=']) : Solid c := by
  simp only [List.mem_cons, List.not_mem_nil, or_false] at h
  rcases h with rfl | rfl | rfl | rfl | rfl | rfl | rfl | rfl <;> (refine ⟨?_, ?_, ?_, ?_⟩ <;> decide)

theorem optSign_sq (w : List Char) : optSign (sq w) = sq (optSign w) := by
  rcases sq_cases' w with ⟨d, ds, rfl, hd, hs⟩ | ⟨h1, h2⟩
  · rw [hs, optSign, optSign]
    split
    · rfl
    · rw [hs]
  · have aux : ∀ {v : List Char}, Hole v → optSign v = v := by
      intro v hv
      cases v with
      | nil => rfl
      | cons c cs =>
        have : ¬ (c = '+' ∨ c = '-') := by
          rintro (rfl | rfl) <;> exact hv _ _ rfl (solid_lit (by decide))
        simp [optSign, this]
    rw [aux h1, aux h2]

theorem optDot_sq (w : List Char) : optDot (sq w) = sq (optDot w) := by
  rcases sq_cases' w with ⟨d, ds, rfl, hd, hs⟩ | ⟨h1, h2⟩
  · rw [hs, optDot, optDot]
    split
    · rfl
    · rw [hs]
  · have aux : ∀ {v : List Char}, Hole v → optDot v = v := by
      intro v hv
      cases v with
      | nil => rfl
      | cons c cs =>
        have : ¬ c = '.' := by
          rintro rfl; exact hv _ _ rfl (solid_lit (by decide))
        simp [optDot, this]
    rw [aux h1, aux h2]

theorem exponent_sq (w : List Char) : exponent (sq w) = (exponent w).map' (Option.map sq) := by
  rcases sq_cases' w with ⟨d, ds, rfl, hd, hs⟩ | ⟨h1, h2⟩
  · rw [hs, exponent, exponent, optSign_sq, decimalSeq_sq]
    split
    · cases decimalSeq (optSign ds) <;> rfl
    · rfl
  · have aux : ∀ {v : List Char}, Hole v → exponent v = .ok none := by
      intro v hv
      cases v with
      | nil => rfl
      | cons c cs =>
        have : ¬ (c = 'e' ∨ c = 'E') := by
          rintro (rfl | rfl) <;> exact hv _ _ rfl (solid_lit (by decide))
        simp [exponent, this]
    rw [aux h1, aux h2]; rfl

/-- `doubleAlt1` after the first digits and the point. -/
theorem doubleAlt1_dot {w cs : List Char} (h : decimalSeq w = some ('.' :: cs)) :
    doubleAlt1 w = (match decimalSeq cs with
        | some r => do
          match ← exponent r with
          | some r' => return some r'
          | none => return some r
        | none => return none : Outcome (Option (List Char))) := by
  unfold doubleAlt1; rw [h]; rfl

theorem doubleAlt1_none {w : List Char} (h : decimalSeq w = none) : doubleAlt1 w = .ok none := by
  unfold doubleAlt1; rw [h]; rfl

theorem doubleAlt1_noDot {w r : List Char} (h : decimalSeq w = some r) (hr : NoDot r) : doubleAlt1 w = .ok none := by
  unfold doubleAlt1; rw [h]
  split <;> rename_i he
  · cases he; exact absurd rfl (hr _)
  · rfl

theorem Hole.noDot {w : List Char} (h : Hole w) : NoDot w := by
  rintro cs rfl; exact h _ _ rfl (solid_lit (by decide))

theorem doubleAlt1_sq (w : List Char) : doubleAlt1 (sq w) = (doubleAlt1 w).map' (Option.map sq) := by
  cases h : decimalSeq w with
  | none =>
    have h' : decimalSeq (sq w) = none := by rw [decimalSeq_sq, h]; rfl
    rw [doubleAlt1_none h, doubleAlt1_none h']; rfl
  | some r =>
    have h' : decimalSeq (sq w) = some (sq r) := by rw [decimalSeq_sq, h]; rfl
    rcases sq_cases' r with ⟨d, ds, rfl, hd, hs⟩ | ⟨h1, h2⟩
    · by_cases hdot : d = '.'
      · subst hdot
        rw [hs] at h'
        rw [doubleAlt1_dot h, doubleAlt1_dot h', decimalSeq_sq]
        cases decimalSeq ds with
        | none => rfl
        | some r =>
          simp only [Option.map_some]
          rw [exponent_sq]
          cases exponent r with
          | ok o => cases o <;> rfl
          | _ => rfl
      · have n1 : NoDot (d :: ds) := by intro cs e; cases e; exact hdot rfl
        have n2 : NoDot (sq (d :: ds)) := by rw [hs]; intro cs e; cases e; exact hdot rfl
        rw [doubleAlt1_noDot h n1, doubleAlt1_noDot h' n2]; rfl
    · rw [doubleAlt1_noDot h h1.noDot, doubleAlt1_noDot h' h2.noDot]; rfl

theorem doubleAlt2_sq (w : List Char) : doubleAlt2 (sq w) = (doubleAlt2 w).map' (Option.map sq) := by
  unfold doubleAlt2
  rw [decimalSeq_sq]
  cases decimalSeq w with
  | none => rfl
  | some r => simp only [Option.map_some]; rw [optDot_sq, exponent_sq]

/-! The literal that was read -/

/-- `r` comes after some solid characters of `w`. -/
def After (w r : List Char) : Prop := ∃ a, (∀ c ∈ a, Solid c) ∧ w = a ++ r

theorem After.refl (w : List Char) : After w w := ⟨[], by simp, rfl⟩

theorem After.trans {a b c : List Char} (h : After a b) (h' : After b c) : After a c := by
  obtain ⟨x, hx, rfl⟩ := h
  obtain ⟨y, hy, rfl⟩ := h'
  refine ⟨x ++ y, ?_, by simp⟩
  intro d hd
  rcases List.mem_append.1 hd with h | h
  exacts [hx d h, hy d h]

theorem After.cons {c : Char} (hc : Solid c) (w : List Char) : After (c :: w) w := ⟨[c], by simpa using hc, rfl⟩

theorem decimalSeq_after {w r : List Char} (h : decimalSeq w = some r) : After w r := by
  cases w with
  | nil => simp [decimalSeq] at h
  | cons c cs =>
    rw [decimalSeq] at h
    split at h
    · rename_i hc
      cases h
      refine (After.cons (solid_of_digit hc) cs).trans ⟨cs.takeWhile Char.isDigit, ?_, ?_⟩
      · intro d hd; exact solid_of_digit (by have := List.all_takeWhile (p := Char.isDigit) (l := cs); rw [List.all_eq_true] at this; exact this d hd)
      · exact (List.takeWhile_append_dropWhile).symm
    · cases h

theorem optSign_after (w : List Char) : After w (optSign w) := by
  cases w with
  | nil => exact .refl _
  | cons c cs =>
    rw [optSign]; split
    · rename_i hc; exact .cons (solid_lit (by rcases hc with rfl | rfl <;> decide)) cs
    · exact .refl _

theorem optDot_after (w : List Char) : After w (optDot w) := by
  cases w with
  | nil => exact .refl _
  | cons c cs =>
    rw [optDot]; split
    · rename_i hc; exact .cons (solid_lit (by rw [hc]; decide)) cs
    · exact .refl _

theorem exponent_after {w r : List Char} (h : exponent w = .ok (some r)) : After w r := by
  cases w with
  | nil => simp [exponent] at h
  | cons c cs =>
    rw [exponent] at h
    split at h
    · rename_i hc
      split at h
      · rename_i rest hr
        cases h
        exact (After.cons (solid_lit (by rcases hc with rfl | rfl <;> decide)) cs).trans
          ((optSign_after cs).trans (decimalSeq_after hr))
      · cases h
    · cases h

theorem doubleAlt1_after {w r : List Char} (h : doubleAlt1 w = .ok (some r)) : After w r := by
  unfold doubleAlt1 at h
  split at h
  · rename_i cs h1
    have a1 := (decimalSeq_after h1).trans (After.cons (solid_lit (by decide)) cs)
    split at h
    · rename_i r' h2
      have a2 := a1.trans (decimalSeq_after h2)
      obtain ⟨o, h3, h4⟩ := Outcome.bind_eq_ok.1 h
      cases o with
      | none => cases h4; exact a2
      | some r'' => cases h4; exact a2.trans (exponent_after h3)
    · cases h
  · cases h

theorem doubleAlt2_after {w r : List Char} (h : doubleAlt2 w = .ok (some r)) : After w r := by
  unfold doubleAlt2 at h
  split at h
  · rename_i r' h1
    exact (decimalSeq_after h1).trans ((optDot_after r').trans (exponent_after h))
  · cases h

theorem sq_append {a : List Char} (ha : ∀ c ∈ a, Solid c) (r : List Char) : sq (a ++ r) = a ++ sq r := by
  induction a with
  | nil => rfl
  | cons c cs ih =>
    rw [List.cons_append, sq_solid (ha c (by simp)), ih (fun d hd => ha d (by simp [hd]))]; rfl

theorem skip_prefix (r : List Char) : Hole (r.take (r.length - (skip r).length)) := by
  cases r with
  | nil => intro c cs e; simp at e
  | cons c cs =>
    intro d ds e hd
    have : skip (c :: cs) = c :: cs ∨ (isSpace c = true ∨ c = ';') := by
      rw [skip]
      split
      · rename_i h; exact .inr (.inl h)
      · split
        · rename_i h; exact .inr (.inr h)
        · exact .inl rfl
    rcases this with h | h
    · rw [h] at e; simp at e
    · have hdc : d = c := by
        cases hn : ((c :: cs).length - (skip (c :: cs)).length) with
        | zero => rw [hn] at e; simp at e
        | succ n => rw [hn] at e; simp at e; exact e.1.symm
      subst hdc
      rcases h with h | h
      · exact hd.1 ((isSpace_iff _).1 h)
      · exact hd.2.1 h

/-- Both texts of a literal: the literal, then something else. -/
theorem textOf_sq {w r : List Char} (h : After w r) :
    ∃ a s s', textOf w (skip r) = a ++ s ∧ textOf (sq w) (sq (skip r)) = a ++ s' ∧ Hole s ∧ Hole s' := by
  obtain ⟨a, ha, rfl⟩ := h
  refine ⟨a, _, _, textOf_skip a r, ?_, skip_prefix r, skip_prefix (sq r)⟩
  rw [sq_append ha, ← skip_squeeze false false r, textOf_skip]

theorem takeWhile_append_hole {p : Char → Bool} (hp : ∀ c, p c = true → Solid c) (a : List Char) {s : List Char}
    (hs : Hole s) : (a ++ s).takeWhile p = a.takeWhile p := by
  induction a with
  | nil => simpa using takeWhile_hole hp hs
  | cons c cs ih => simp only [List.cons_append, List.takeWhile_cons, ih]

theorem dropWhile_append_hole {p : Char → Bool} (hp : ∀ c, p c = true → Solid c) (a : List Char) {s : List Char}
    (hs : Hole s) : (a ++ s).dropWhile p = a.dropWhile p ++ s := by
  induction a with
  | nil => simpa using dropWhile_hole hp hs
  | cons c cs ih =>
    simp only [List.cons_append, List.dropWhile_cons, ih]
    split <;> simp

theorem fracOf_append (a : List Char) {s : List Char} (hs : Hole s) :
    fracOf (a ++ s) = ((fracOf a).1, (fracOf a).2 ++ s) := by
  by_cases h : ∃ r, a = '.' :: r
  · obtain ⟨r, rfl⟩ := h
    simp only [List.cons_append, fracOf]
    rw [takeWhile_append_hole (fun _ => solid_of_digit) r hs, dropWhile_append_hole (fun _ => solid_of_digit) r hs]
  · have aux : ∀ {v : List Char}, NoDot v → fracOf v = ([], v) := by
      intro v hv
      rw [fracOf.eq_def]; split
      · rename_i r; exact absurd rfl (hv r)
      · rfl
    have h1 : NoDot a := fun cs e => h ⟨cs, e⟩
    have h2 : NoDot (a ++ s) := by
      intro cs e
      cases a with
      | nil => exact hs.noDot cs e
      | cons c cs' => cases e; exact h ⟨_, rfl⟩
    rw [aux h1, aux h2]

theorem expOf_append (a : List Char) {s : List Char} (hs : Hole s) : expOf (a ++ s) = expOf a := by
  have hole_exp : ∀ {v : List Char}, Hole v → expOf v = (false, 0) := by
    intro v hv
    cases v with
    | nil => rfl
    | cons c cs =>
      have : ¬ (c = 'e' ∨ c = 'E') := by
        rintro (rfl | rfl) <;> exact hv _ _ rfl (solid_lit (by decide))
      simp [expOf, this]
  have key : ∀ (c : Char) (cs : List Char), expOf (c :: cs) = if c = 'e' ∨ c = 'E' then
      (cs.head? == some '-', natOf ((optSign cs).takeWhile Char.isDigit)) else (false, 0) := by
    intro c cs
    rw [expOf.eq_def]
    simp only
    congr 1
    cases cs with
    | nil => rfl
    | cons d ds =>
      by_cases h1 : d = '-'
      · subst h1; rfl
      · by_cases h2 : d = '+'
        · subst h2; rfl
        · have : (some d == some '-') = false := by simpa using h1
          simp only [List.head?_cons, optSign, h1, h2, or_self, if_false, this]
          split
          · rename_i e; cases e; exact absurd rfl h1
          · rename_i e; cases e; exact absurd rfl h2
          · rfl
  cases a with
  | nil => rw [List.nil_append, hole_exp hs]; rfl
  | cons c cs =>
    rw [List.cons_append, key, key]
    congr 1
    cases cs with
    | nil =>
      have h1 : optSign s = s := by
        cases s with
        | nil => rfl
        | cons d ds =>
          have : ¬ (d = '+' ∨ d = '-') := by
            rintro (rfl | rfl) <;> exact hs _ _ rfl (solid_lit (by decide))
          simp [optSign, this]
      have h2 : (s.head? == some '-') = false := by
        cases s with
        | nil => rfl
        | cons d ds =>
          rw [List.head?_cons, beq_eq_false_iff_ne]
          intro e; cases e; exact hs _ _ rfl (solid_lit (by decide))
      rw [List.nil_append, h1, h2, takeWhile_hole (fun _ => solid_of_digit) hs]; rfl
    | cons d ds =>
      have h1 : optSign (d :: ds ++ s) = optSign (d :: ds) ++ s := by
        simp only [List.cons_append, optSign]; split <;> simp
      rw [h1]
      rw [takeWhile_append_hole (fun _ => solid_of_digit) _ hs]
      rfl

end Lex

open Verif.Lex Spec

theorem decimalValue_append {K : Type} [Field K] (a : List Char) {s : List Char} (hs : Hole s) :
    (decimalValue (a ++ s) : K) = decimalValue a := by
  unfold decimalValue
  simp only [takeWhile_append_hole (fun _ => solid_of_digit) a hs,
    dropWhile_append_hole (fun _ => solid_of_digit) a hs, fracOf_append _ hs, expOf_append _ hs]

theorem stod_sq {K : Type} [Field K] [Arith K] [Strtod K] {w r : List Char} (h : After w r) :
    (stod (textOf (sq w) (sq (skip r))) : Outcome (D K)) = stod (textOf w (skip r)) := by
  obtain ⟨a, s, s', h1, h2, h3, h4⟩ := textOf_sq h
  rw [h1, h2]
  unfold stod
  rw [decimalValue_append a h3, decimalValue_append a h4]

theorem stol_sq {w r : List Char} (h : After w r) :
    stol (textOf (sq w) (sq (skip r))) = stol (textOf w (skip r)) := by
  obtain ⟨a, s, s', h1, h2, h3, h4⟩ := textOf_sq h
  rw [h1, h2]
  unfold stol
  rw [takeWhile_append_hole (fun _ => solid_of_digit) a h3, takeWhile_append_hole (fun _ => solid_of_digit) a h4]

namespace Rule
variable {K : Type}

/-- The rule does not see superfluous layout, if it starts with a token, and then it ends before a token. -/
def Blind (r : Rule K) : Prop := ∀ inp st, Start inp →
  r (sq inp) st = (r inp st).map' (fun p => (p.1.map sq, p.2)) ∧
    ∀ rest st', r inp st = .ok (some rest, st') → Start rest

theorem Blind.seq {r1 r2 : Rule K} (h1 : Blind r1) (h2 : Blind r2) : Blind (seq r1 r2) := by
  intro inp st hi
  obtain ⟨a1, a2⟩ := h1 inp st hi
  unfold Rule.seq
  rw [a1]
  cases e : r1 inp st with
  | ok p =>
    obtain ⟨o, st'⟩ := p
    cases o with
    | none => exact ⟨rfl, fun _ _ h => by cases h⟩
    | some rest => exact h2 rest st' (a2 _ _ e)
  | _ => exact ⟨rfl, fun _ _ h => by cases h⟩

theorem Blind.sor {r1 r2 : Rule K} (h1 : Blind r1) (h2 : Blind r2) : Blind (sor r1 r2) := by
  intro inp st hi
  obtain ⟨a1, a2⟩ := h1 inp st hi
  unfold Rule.sor
  rw [a1]
  cases e : r1 inp st with
  | ok p =>
    obtain ⟨o, st'⟩ := p
    cases o with
    | none => exact h2 inp st' hi
    | some rest => exact ⟨rfl, fun _ _ h => by cases h; exact a2 _ _ e⟩
  | _ => exact ⟨rfl, fun _ _ h => by cases h⟩

theorem Blind.must {r : Rule K} (h1 : Blind r) : Blind (must r) := by
  intro inp st hi
  obtain ⟨a1, a2⟩ := h1 inp st hi
  unfold Rule.must
  rw [a1]
  cases e : r inp st with
  | ok p =>
    obtain ⟨o, st'⟩ := p
    cases o with
    | none => exact ⟨rfl, fun _ _ h => by cases h⟩
    | some rest => exact ⟨rfl, fun _ _ h => by cases h; exact a2 _ _ e⟩
  | _ => exact ⟨rfl, fun _ _ h => by cases h⟩

theorem Blind.ifMust {r1 r2 : Rule K} (h1 : Blind r1) (h2 : Blind r2) : Blind (ifMust r1 r2) := h1.seq h2.must

theorem Blind.act {r : Rule K} (f : PState K → Outcome (PState K)) (h1 : Blind r) : Blind (act r f) := by
  intro inp st hi
  obtain ⟨a1, a2⟩ := h1 inp st hi
  unfold Rule.act
  rw [a1]
  cases e : r inp st with
  | ok p =>
    obtain ⟨o, st'⟩ := p
    cases o with
    | none => exact ⟨rfl, fun _ _ h => by cases h⟩
    | some rest =>
      simp only [Outcome.map'_ok, Outcome.bind_ok, Option.map_some]
      cases f st' with
      | ok s => exact ⟨rfl, fun _ _ h => by cases h; exact a2 _ _ e⟩
      | _ => exact ⟨rfl, fun _ _ h => by cases h⟩
  | _ => exact ⟨rfl, fun _ _ h => by cases h⟩

theorem Blind.until_ {c r : Rule K} (hc : Blind c) (hr : Blind r) : ∀ n, Blind (until_ c r n) := by
  intro n
  induction n with
  | zero => intro inp st _; exact ⟨rfl, fun _ _ h => by cases h⟩
  | succ n ih =>
    intro inp st hi
    obtain ⟨a1, a2⟩ := hc inp st hi
    simp only [Rule.until_]
    rw [a1]
    cases e : c inp st with
    | ok p =>
      obtain ⟨o, st'⟩ := p
      cases o with
      | some rest => exact ⟨rfl, fun _ _ h => by cases h; exact a2 _ _ e⟩
      | none =>
        obtain ⟨b1, b2⟩ := hr inp st' hi
        simp only [Outcome.map'_ok, Outcome.bind_ok, Option.map_none]
        rw [b1]
        cases e' : r inp st' with
        | ok p =>
          obtain ⟨o, st''⟩ := p
          cases o with
          | none => exact ⟨rfl, fun _ _ h => by cases h⟩
          | some rest => exact ih rest st'' (b2 _ _ e')
        | _ => exact ⟨rfl, fun _ _ h => by cases h⟩
    | _ => exact ⟨rfl, fun _ _ h => by cases h⟩

theorem Blind.star {r : Rule K} (hr : Blind r) : ∀ n, Blind (star r n) := by
  intro n
  induction n with
  | zero => intro inp st _; exact ⟨rfl, fun _ _ h => by cases h⟩
  | succ n ih =>
    intro inp st hi
    obtain ⟨b1, b2⟩ := hr inp st hi
    simp only [Rule.star]
    rw [b1]
    cases e' : r inp st with
    | ok p =>
      obtain ⟨o, st''⟩ := p
      cases o with
      | none => exact ⟨rfl, fun _ _ h => by cases h; exact hi⟩
      | some rest => exact ih rest st'' (b2 _ _ e')
    | _ => exact ⟨rfl, fun _ _ h => by cases h⟩

theorem Blind.plus {r : Rule K} (hr : Blind r) (n : Nat) : Blind (plus r n) := hr.seq (hr.star n)

theorem Blind.onNewState {r : Rule K} (hr : Blind r) : Blind (onNewState r) := by
  intro inp st hi
  obtain ⟨b1, b2⟩ := hr inp { g := st.g } hi
  unfold Rule.onNewState
  rw [b1]
  cases e' : r inp { g := st.g } with
  | ok p =>
    obtain ⟨o, st''⟩ := p
    exact ⟨rfl, fun _ _ h => by cases h; exact b2 _ _ e'⟩
  | _ => exact ⟨rfl, fun _ _ h => by cases h⟩

theorem blind_lex {f : List Char → Option (List Char)} (h1 : ∀ w, Start w → f (sq w) = (f w).map sq)
    (h2 : ∀ w r, f w = some r → Start r) : Blind (K := K) (lex f) := by
  intro inp st hi
  refine ⟨by simp [lex, h1 inp hi], fun rest st' h => ?_⟩
  simp only [lex, Outcome.ok.injEq, Prod.mk.injEq] at h
  exact h2 _ _ h.1

theorem endOfWord_start {w r : List Char} (h : endOfWord w = some r) : Start r := by
  cases w with
  | nil => cases h; intro c cs e; cases e
  | cons c cs =>
    rw [endOfWord] at h
    split at h
    · cases h
    · cases h; exact skip_isStart _

theorem blind_kw {key : String} (hk : ∀ c ∈ key.toList, Solid c) : Blind (K := K) (lex (keyword key)) := by
  refine blind_lex (fun w _ => keyword_sq hk w) (fun w r h => ?_)
  obtain ⟨x, -, hx⟩ := Option.bind_eq_some_iff.1 h
  exact endOfWord_start hx

theorem blind_paren {c : Char} (hc : c = '(' ∨ c = ')') : Blind (K := K) (lex (sym c)) := by
  refine blind_lex (fun w h => sym_sq hc h) (fun w r h => ?_)
  cases w with
  | nil => cases h
  | cons d ds =>
    rw [sym] at h
    split at h
    · cases h; exact skip_isStart _
    · cases h

theorem blind_strict {c : Char} (hc : Solid c) : Blind (K := K) (lex (strictSym c)) := by
  refine blind_lex (fun w h => strictSym_sq hc w) (fun w r h => ?_)
  cases w with
  | nil => cases h
  | cons d ds =>
    rw [strictSym.eq_def] at h
    simp only at h
    split at h
    · split at h
      · cases h; intro c cs e; cases e
      · split at h
        · cases h
        · cases h; exact skip_isStart _
    · cases h

theorem blind_weak {c : Char} (hc : Solid c) : Blind (K := K) (lex (weakSym c)) := by
  refine blind_lex (fun w h => weakSym_sq hc w) (fun w r h => ?_)
  obtain ⟨x, -, rfl⟩ := Option.map_eq_some_iff.1 h
  exact skip_isStart _

section
variable [Field K] [LinearOrder K]

theorem blind_identifier : Blind (K := K) identifier := by
  intro inp st hi
  unfold identifier
  rw [ident_sq]
  cases ident inp with
  | none => exact ⟨rfl, fun _ _ h => by cases h⟩
  | some p =>
    obtain ⟨text, rest⟩ := p
    simp only [Option.map_some]
    refine ⟨by rw [endOfWord_sq]; rfl, fun r st' h => ?_⟩
    simp only [Outcome.ok.injEq, Prod.mk.injEq] at h
    exact endOfWord_start h.1

theorem blind_boolean : Blind (K := K) booleanLiteral :=
  .act _ (.sor (.act _ (blind_kw (by intro c hc; simp at hc; rcases hc with rfl | rfl | rfl | rfl <;> exact solid_of_other (by decide))))
    (.act _ (blind_kw (by intro c hc; simp at hc; rcases hc with rfl | rfl | rfl | rfl | rfl <;> exact solid_of_other (by decide)))))

variable [Arith K] [Strtod K]

theorem blind_double : Blind (K := K) doubleLiteral := by
  intro inp st hi
  unfold doubleLiteral doubleLit
  rw [doubleAlt1_sq]
  cases e : doubleAlt1 inp with
  | ok o =>
    cases o with
    | some r =>
      simp only [Outcome.map'_ok, Outcome.bind_ok, Option.map_some, Outcome.pure_eq_ok]
      rw [skip_squeeze, stod_sq (doubleAlt1_after e)]
      cases stod (K := K) (textOf inp (skip r)) with
      | ok d => exact ⟨rfl, fun _ _ h => by cases h; exact skip_isStart _⟩
      | _ => exact ⟨rfl, fun _ _ h => by cases h⟩
    | none =>
      simp only [Outcome.map'_ok, Outcome.bind_ok, Option.map_none]
      rw [doubleAlt2_sq]
      cases e : doubleAlt2 inp with
      | ok o =>
        cases o with
        | some r =>
          simp only [Outcome.map'_ok, Outcome.bind_ok, Option.map_some, Outcome.pure_eq_ok]
          rw [skip_squeeze, stod_sq (doubleAlt2_after e)]
          cases stod (K := K) (textOf inp (skip r)) with
          | ok d => exact ⟨rfl, fun _ _ h => by cases h; exact skip_isStart _⟩
          | _ => exact ⟨rfl, fun _ _ h => by cases h⟩
        | none => exact ⟨rfl, fun _ _ h => by cases h⟩
      | _ => exact ⟨rfl, fun _ _ h => by cases h⟩
  | _ => exact ⟨rfl, fun _ _ h => by cases h⟩

theorem blind_integer : Blind (K := K) integerLiteral := by
  intro inp st hi
  unfold integerLiteral integerLit
  rw [decimalSeq_sq]
  cases e : decimalSeq inp with
  | none => exact ⟨rfl, fun _ _ h => by cases h⟩
  | some r =>
    simp only [Option.map_some]
    rw [skip_squeeze, stol_sq (decimalSeq_after e)]
    cases stol (textOf inp (skip r)) with
    | ok d => exact ⟨rfl, fun _ _ h => by cases h; exact skip_isStart _⟩
    | _ => exact ⟨rfl, fun _ _ h => by cases h⟩

theorem blind_numeral : Blind (K := K) numeral := blind_double.sor blind_integer

theorem blind_predicate : Blind (K := K) predicateTerm := by
  have lt : Solid '<' := solid_lit (by decide)
  have gt : Solid '>' := solid_lit (by decide)
  exact .act _ (.ifMust (.sor (.act _ (blind_strict lt)) (.sor (.act _ (blind_strict gt))
    (.sor (.act _ (blind_weak lt)) (.act _ (blind_weak gt)))))
    (.sor (.act _ (blind_identifier.seq blind_numeral)) (.act _ (blind_numeral.seq blind_identifier))))

/-- The characters of the keywords. -/
theorem solid_key {key : String} (h : key ∈ ["not", "and", "or", "implies", "iff", "xor", "always", "eventually",
    "until", "assert", "define-formula"]) : ∀ c ∈ key.toList, Solid c := by
  have : ∀ c ∈ key.toList, isIdOther c = true ∨ c = '-' := by
    simp only [List.mem_cons, List.not_mem_nil, or_false] at h
    rcases h with rfl | rfl | rfl | rfl | rfl | rfl | rfl | rfl | rfl | rfl | rfl <;> decide
  intro c hc
  rcases this c hc with h | rfl
  · exact solid_of_other h
  · exact solid_lit (by decide)

theorem blind_key {key : String} (h : key ∈ ["not", "and", "or", "implies", "iff", "xor", "always", "eventually",
    "until", "assert", "define-formula"]) : Blind (K := K) (kw key) := blind_kw (solid_key h)

theorem blind_expression (nd : Bool) (n : Nat) {t : Rule K} (ht : Blind t) : Blind (expression nd n t) := by
  have h2 := ht.seq ht
  have hp := ht.plus n
  have hm := ht.must.seq ht.must
  exact blind_predicate.sor <| .sor (.act _ (.ifMust (blind_key (by decide)) ht)) <|
    .sor (.act _ (.ifMust (blind_key (by decide)) hp)) <| .sor (.act _ (.ifMust (blind_key (by decide)) hp)) <|
    .sor (.act _ (.ifMust (blind_key (by decide)) h2)) <| .sor (.act _ (.ifMust (blind_key (by decide)) h2)) <|
    .sor (.act _ (.ifMust (blind_key (by decide)) h2)) <| .sor (.act _ (.ifMust (blind_key (by decide)) ht)) <|
    .sor (.act _ (.ifMust (blind_key (by decide)) ht)) <| .sor (.act _ (.ifMust (blind_key (by decide)) hm)) ht

theorem blind_term (nd : Bool) : ∀ n, Blind (K := K) (term nd n) := by
  intro n
  induction n with
  | zero => intro inp st _; exact ⟨rfl, fun _ _ h => by cases h⟩
  | succ n ih =>
    rw [term]
    exact .onNewState (.act _ (.sor (.ifMust (blind_paren (.inl rfl))
      (.until_ (blind_paren (.inr rfl)) (blind_expression nd n ih) n)) (blind_boolean.sor blind_identifier)))

theorem blind_anyCommand (nd : Bool) (n : Nat) : Blind (K := K) (anyCommand nd n) := by
  have ht := (blind_identifier (K := K)).must.seq (blind_term (K := K) nd n).must
  exact .ifMust (blind_paren (.inl rfl)) (.until_ (blind_paren (.inr rfl)) (.must (.sor
    (.act _ (.ifMust (blind_key (by decide)) ht)) (.act _ (.ifMust (blind_key (by decide)) ht)))) n)

theorem blind_eof : Blind (K := K) eof := by
  refine blind_lex (fun w h => ?_) (fun w r h => ?_)
  · cases w with
    | nil => rfl
    | cons c cs =>
      obtain ⟨h1, h2⟩ := h c cs rfl
      have h1 : ¬ IsSpace c := by rw [← isSpace_iff]; simp [h1]
      by_cases h3 : c = '(' ∨ c = ')'
      · have : sq (c :: cs) = c :: squeeze true false cs := by
          change squeeze false false (c :: cs) = _; rw [squeeze, if_neg h1, if_neg h2, if_pos h3]
        rw [this]; rfl
      · push Not at h3
        rw [sq_solid ⟨h1, h2, h3.1, h3.2⟩]; rfl
  · split at h
    · cases h; intro c cs e; cases e
    · cases h

theorem blind_skip : Blind (K := K) (lex fun inp => some (skip inp)) :=
  blind_lex (fun w _ => by simp [skip_squeeze]) (fun w r h => by cases h; exact skip_isStart _)

end
end Rule

open Rule

theorem fromString_squeeze {K : Type} [Field K] [LinearOrder K] [Arith K] [Strtod K] (nd : Bool) (fuel : Nat)
    (p s : Bool) (w : List Char) : fromString (K := K) nd fuel (squeeze p s w) = fromString nd fuel w := by
  have hb := (Blind.until_ (K := K) blind_eof ((blind_anyCommand nd fuel).seq blind_skip) fuel)
    (skip w) {} (skip_isStart w)
  have h : specificationFile (K := K) nd fuel (squeeze p s w) {} =
      (specificationFile (K := K) nd fuel w {}).map' (fun p => (p.1.map sq, p.2)) := by
    unfold specificationFile Rule.must Rule.seq
    simp only [lex, Outcome.bind_ok, skip_squeeze]
    unfold Rule.seq at hb
    simp only [lex] at hb
    rw [hb.1]
    generalize Rule.until_ _ _ fuel (skip w) ({} : PState K) = x
    cases x with
    | ok p => obtain ⟨o, st⟩ := p; cases o <;> rfl
    | _ => rfl
  unfold fromString
  rw [h]
  cases specificationFile (K := K) nd fuel w {} with
  | ok p => obtain ⟨o, st⟩ := p; cases o <;> rfl
  | _ => rfl

/-! ## Texts in two parts -/

/-- `squeeze` goes through a text from left to right. -/
theorem squeeze_append (a : List Char) : (∀ p s, inComment false a = false →
      ∃ out p' s', ∀ b, squeeze p s (a ++ b) = out ++ squeeze p' s' b) ∧
    (∀ p, inComment true a = false → ∃ out p' s', ∀ b, squeezeComment p (a ++ b) = out ++ squeeze p' s' b) := by
  induction a with
  | nil => exact ⟨fun p s _ => ⟨[], p, s, fun b => rfl⟩, fun p h => by simp [inComment] at h⟩
  | cons c cs ih =>
    obtain ⟨i1, i2⟩ := ih
    constructor
    · intro p s h
      rw [inComment] at h
      by_cases h1 : IsSpace c
      · have hc : c ≠ ';' := by rintro rfl; revert h1; decide
        have h : inComment false cs = false := by simpa [beq_eq_false_iff_ne.2 hc] using h
        obtain ⟨out, p', s', hb⟩ := i1 p true h
        exact ⟨out, p', s', fun b => by rw [List.cons_append, squeeze, if_pos h1, hb]⟩
      · by_cases h2 : c = ';'
        · have h : inComment true cs = false := by simpa [h2] using h
          obtain ⟨out, p', s', hb⟩ := i2 p h
          exact ⟨out, p', s', fun b => by rw [List.cons_append, squeeze, if_neg h1, if_pos h2, hb]⟩
        · have h : inComment false cs = false := by simpa [beq_eq_false_iff_ne.2 h2] using h
          by_cases h3 : c = '(' ∨ c = ')'
          · obtain ⟨out, p', s', hb⟩ := i1 true false h
            exact ⟨c :: out, p', s', fun b => by
              rw [List.cons_append, squeeze, if_neg h1, if_neg h2, if_pos h3, hb]; rfl⟩
          · obtain ⟨out, p', s', hb⟩ := i1 false false h
            by_cases h4 : s = true ∧ p = false
            · exact ⟨' ' :: c :: out, p', s', fun b => by
                rw [List.cons_append, squeeze, if_neg h1, if_neg h2, if_neg h3, if_pos h4, hb]; rfl⟩
            · exact ⟨c :: out, p', s', fun b => by
                rw [List.cons_append, squeeze, if_neg h1, if_neg h2, if_neg h3, if_neg h4, hb]; rfl⟩
    · intro p h
      rw [inComment] at h
      by_cases h1 : c = '\n'
      · have h : inComment false cs = false := by simpa [h1] using h
        obtain ⟨out, p', s', hb⟩ := i1 p true h
        exact ⟨out, p', s', fun b => by rw [List.cons_append, squeezeComment, if_pos h1, hb]⟩
      · have h : inComment true cs = false := by simpa [bne, beq_eq_false_iff_ne.2 h1] using h
        obtain ⟨out, p', s', hb⟩ := i2 p h
        exact ⟨out, p', s', fun b => by rw [List.cons_append, squeezeComment, if_neg h1, hb]⟩

theorem squeezeComment_body (p : Bool) {body : List Char} (h : '\n' ∉ body) (b : List Char) :
    squeezeComment p (body ++ '\n' :: b) = squeeze p true b := by
  induction body with
  | nil => simp [squeezeComment]
  | cons c cs ih =>
    have hc : c ≠ '\n' := by rintro rfl; simp at h
    rw [List.cons_append, squeezeComment, if_neg hc, ih (by simp at h; exact h.2)]

/-- Layout leaves nothing but the fact that it was there. -/
theorem squeeze_layout {g : List Char} (hg : Layout g) (hne : g ≠ []) (p s : Bool) (b : List Char) :
    squeeze p s (g ++ b) = squeeze p true b := by
  induction hg generalizing s with
  | nil => exact absurd rfl hne
  | @space c w hc hw ih =>
    rw [List.cons_append, squeeze, if_pos hc]
    by_cases h : w = []
    · subst h; rfl
    · exact ih h true
  | @comment body w hb hw ih =>
    have h1 : ¬ IsSpace ';' := by decide
    rw [List.cons_append, squeeze, if_neg h1, if_pos rfl, List.append_assoc, List.cons_append,
      squeezeComment_body p hb]
    by_cases h : w = []
    · subst h; rfl
    · exact ih h true

theorem squeeze_true (s s' : Bool) (w : List Char) : squeeze true s w = squeeze true s' w := by
  cases w with
  | nil => rfl
  | cons c cs => simp [squeeze]

end Verif
