import Verif.Spec.Syntax
import Verif.Proofs.ParserTotal
import Mathlib.Data.List.Induction
import Mathlib.Tactic.Ring
import Mathlib.Tactic.FieldSimp

/-!
# The lexical rules on texts of tokens
-/

set_option linter.unusedSectionVars false

namespace Verif
open Spec

namespace Lex

/-- Characters that can follow a word. -/
def stopChar (c : Char) : Bool :=
  isSpace c || c == ';' || c == '(' || c == ')' || c == '<' || c == '>'

/-- The text ends or goes on with a character that can follow a word. -/
def Stop (r : List Char) : Prop := ∀ c cs, r = c :: cs → stopChar c = true

/-- The text ends or does not begin with layout. -/
def Start (w : List Char) : Prop := ∀ c cs, w = c :: cs → isSpace c = false ∧ c ≠ ';'

theorem isSpace_iff (c : Char) : isSpace c = true ↔ IsSpace c := by
  simp [isSpace, IsSpace, or_assoc]

theorem stopChar_iff (c : Char) : stopChar c = true ↔
    c ∈ [' ', '\n', '\r', '\t', '\x0b', '\x0c', ';', '(', ')', '<', '>'] := by
  simp [stopChar, isSpace, or_assoc]

theorem skip_start {w : List Char} (h : Start w) : skip w = w := by
  cases w with
  | nil => rfl
  | cons c cs =>
    obtain ⟨h1, h2⟩ := h c cs rfl
    rw [skip]; simp [h1, h2]

theorem skipComment_body {body w : List Char} (h : '\n' ∉ body) :
    skipComment (body ++ '\n' :: w) = skip w := by
  induction body with
  | nil => simp [skipComment]
  | cons c cs ih =>
    simp only [List.mem_cons, not_or] at h
    rw [List.cons_append, skipComment, if_neg (fun e => h.1 e.symm), ih h.2]

theorem skipComment_open {body : List Char} (h : '\n' ∉ body) : skipComment body = [] := by
  induction body with
  | nil => simp [skipComment]
  | cons c cs ih =>
    simp only [List.mem_cons, not_or] at h
    rw [skipComment, if_neg (fun e => h.1 e.symm), ih h.2]

theorem isSpace_semicolon : isSpace ';' = false := by decide

theorem skip_layout_append {g w : List Char} (hg : Layout g) : skip (g ++ w) = skip w := by
  induction hg with
  | nil => rfl
  | space hc _ ih =>
    rw [List.cons_append, skip, if_pos ((isSpace_iff _).2 hc), ih]
  | comment hb _ ih =>
    rw [List.cons_append, skip, if_neg (by simp [isSpace_semicolon]), if_pos rfl, List.append_assoc,
      List.cons_append, skipComment_body hb, ih]

theorem skip_layout {g w : List Char} (hg : Layout g) (hw : Start w) : skip (g ++ w) = w := by
  rw [skip_layout_append hg, skip_start hw]

theorem skip_final {g : List Char} (hg : FinalLayout g) : skip g = [] := by
  cases hg with
  | closed h => simpa [skip] using skip_layout_append (w := []) h
  | «open» h hb =>
    rw [skip_layout_append h, skip, if_neg (by simp [isSpace_semicolon]), if_pos rfl, skipComment_open hb]

theorem layout_stop {g : List Char} (hg : Layout g) : Stop g := by
  intro c cs e
  rw [stopChar_iff]
  cases hg with
  | nil => cases e
  | space hc _ =>
    cases e
    simp only [IsSpace] at hc
    simp at hc ⊢
    tauto
  | comment _ _ => cases e; simp

theorem final_stop {g : List Char} (hg : FinalLayout g) : Stop g := by
  cases hg with
  | closed h => exact layout_stop h
  | @«open» w body h hb =>
    intro c cs e
    cases w with
    | nil => cases e; rfl
    | cons d ds =>
      cases e
      exact layout_stop h _ _ rfl

theorem Stop.append {g w : List Char} (hg : Stop g) (hw : g = [] → Stop w) : Stop (g ++ w) := by
  cases g with
  | nil => exact hw rfl
  | cons c cs => intro d ds e; cases e; exact hg _ _ rfl

theorem Stop.take {r : List Char} (h : Stop r) (k : Nat) : Stop (r.take k) := by
  intro c cs e
  cases r with
  | nil => simp at e
  | cons d ds =>
    cases k with
    | zero => simp at e
    | succ k => simp only [List.take_succ_cons, List.cons.injEq] at e; rw [← e.1]; exact h _ _ rfl

/-! ## Words -/

theorem isIdOther_not_stop {c : Char} (h : isIdOther c = true) : stopChar c = false := by
  by_contra hs
  rw [Bool.not_eq_false, stopChar_iff] at hs
  simp only [List.mem_cons, List.not_mem_nil, or_false] at hs
  rcases hs with rfl | rfl | rfl | rfl | rfl | rfl | rfl | rfl | rfl | rfl | rfl <;> revert h <;> decide

theorem isIdFirst_other {c : Char} (h : isIdFirst c = true) : isIdOther c = true := by
  simp only [isIdFirst, Bool.or_eq_true] at h
  simp only [isIdOther, Char.isAlphanum, Bool.or_eq_true]
  tauto

theorem isDigit_other {c : Char} (h : c.isDigit = true) : isIdOther c = true := by
  simp only [isIdOther, Char.isAlphanum, Bool.or_eq_true]
  tauto

theorem Stop.not_other {r : List Char} (h : Stop r) {c : Char} {cs : List Char} (e : r = c :: cs) :
    isIdOther c = false := by
  have := h c cs e
  by_contra hc
  rw [Bool.not_eq_false] at hc
  rw [isIdOther_not_stop hc] at this
  cases this

theorem name_first {s : String} (h : IsName s) :
    ∃ c cs, s.toList = c :: cs ∧ isIdFirst c = true ∧ ∀ d ∈ cs, isIdOther d = true := by
  obtain ⟨c, cs, h1, h2, h3⟩ := h
  refine ⟨c, cs, h1, ?_, fun d hd => ?_⟩
  · simpa [isIdFirst] using h2
  · simpa [isIdOther] using h3 d hd

theorem name_all {s : String} (h : IsName s) : ∀ d ∈ s.toList, isIdOther d = true := by
  obtain ⟨c, cs, h1, h2, h3⟩ := name_first h
  intro d hd
  rw [h1] at hd
  rcases List.mem_cons.1 hd with rfl | hd
  · exact isIdFirst_other h2
  · exact h3 d hd

theorem endOfWord_stop {r : List Char} (h : Stop r) : endOfWord r = some (skip r) := by
  cases r with
  | nil => simp [endOfWord, skip]
  | cons c cs => rw [endOfWord, h.not_other rfl]; rfl

theorem keyword_eq {key : String} {r : List Char} (h : Stop r) :
    keyword key (key.toList ++ r) = some (skip r) := by
  unfold keyword str
  rw [if_pos (by rw [List.isPrefixOf_iff_prefix]; exact List.prefix_append _ _)]
  simp [endOfWord_stop h]

/-- A keyword does not match another name. -/
theorem keyword_ne {key s : String} {r : List Char} (hs : ∀ d ∈ s.toList, isIdOther d = true)
    (hk : ∀ d ∈ key.toList, stopChar d = false) (hne : s ≠ key) (h : Stop r) :
    keyword key (s.toList ++ r) = none := by
  unfold keyword str
  split
  · rename_i hp
    rw [List.isPrefixOf_iff_prefix] at hp
    simp only [Option.bind_some]
    rcases le_total key.toList.length s.toList.length with hl | hl
    · have hp' := List.prefix_of_prefix_length_le hp (List.prefix_append s.toList r) hl
      obtain ⟨u, hu⟩ := hp'
      rw [← hu, List.append_assoc, List.drop_left]
      cases u with
      | nil =>
        rw [List.append_nil] at hu
        exact absurd (String.toList_inj.1 hu.symm) hne
      | cons c cs =>
        rw [List.cons_append, endOfWord, hs c (by rw [← hu]; simp)]
        rfl
    · have hp' := List.prefix_of_prefix_length_le (List.prefix_append s.toList r) hp hl
      obtain ⟨v, hv⟩ := hp'
      rw [← hv] at hp
      rw [List.prefix_append_right_inj] at hp
      obtain ⟨t, ht⟩ := hp
      cases v with
      | nil =>
        rw [List.append_nil] at hv
        exact absurd (String.toList_inj.1 hv) hne
      | cons c cs =>
        have h1 := h c (cs ++ t) (by rw [← ht]; rfl)
        rw [hk c (by rw [← hv]; simp)] at h1
        cases h1
  · rfl

/-- A keyword does not match a text that begins with another character. -/
theorem keyword_cons_ne {key : String} {k : Char} {ks : List Char} (hk : key.toList = k :: ks) {c : Char}
    {w : List Char} (h : c ≠ k) : keyword key (c :: w) = none := by
  unfold keyword str
  rw [hk]
  simp [List.isPrefixOf, Ne.symm h]

theorem takeWhile_append_stop {p : Char → Bool} {a r : List Char} (ha : ∀ d ∈ a, p d = true)
    (hr : ∀ c cs, r = c :: cs → p c = false) : (a ++ r).takeWhile p = a := by
  induction a with
  | nil =>
    cases r with
    | nil => rfl
    | cons c cs => simp [hr c cs rfl]
  | cons c cs ih =>
    rw [List.cons_append, List.takeWhile_cons, ha c (by simp)]
    simp [ih fun d hd => ha d (by simp [hd])]

theorem dropWhile_append_stop {p : Char → Bool} {a r : List Char} (ha : ∀ d ∈ a, p d = true)
    (hr : ∀ c cs, r = c :: cs → p c = false) : (a ++ r).dropWhile p = r := by
  induction a with
  | nil =>
    cases r with
    | nil => rfl
    | cons c cs => simp [hr c cs rfl]
  | cons c cs ih =>
    rw [List.cons_append, List.dropWhile_cons, ha c (by simp)]
    simp [ih fun d hd => ha d (by simp [hd])]

theorem ident_name {s : String} (hs : IsName s) {r : List Char} (h : Stop r) :
    ident (s.toList ++ r) = some (s.toList, r) := by
  obtain ⟨c, cs, h1, h2, h3⟩ := name_first hs
  rw [h1, List.cons_append, ident, if_pos h2,
    takeWhile_append_stop h3 (fun c cs e => h.not_other e),
    dropWhile_append_stop h3 (fun c cs e => h.not_other e)]

/-! ## Numerals -/

theorem digitChar_isDigit (d : Fin 10) : (digitChar d).isDigit = true := by
  revert d; decide

theorem digitVal_digitChar (d : Fin 10) : digitVal (digitChar d) = d := by
  revert d; decide

theorem chars_digit (n : Digits) : ∀ c ∈ n.chars, c.isDigit = true := by
  intro c hc
  obtain ⟨d, -, rfl⟩ := List.mem_map.1 hc
  exact digitChar_isDigit d

theorem chars_cons (n : Digits) : n.chars = digitChar n.first :: n.rest.map digitChar := rfl

/-- Not followed by a digit. -/
def NoDigit (r : List Char) : Prop := ∀ c cs, r = c :: cs → c.isDigit = false

theorem Stop.noDigit {r : List Char} (h : Stop r) : NoDigit r := by
  intro c cs e
  have := h.not_other e
  by_contra hc
  rw [Bool.not_eq_false] at hc
  rw [isDigit_other hc] at this
  cases this

theorem noDigit_cons {c : Char} {r : List Char} (h : c.isDigit = false) : NoDigit (c :: r) := by
  intro d ds e; cases e; exact h

/-- Not followed by a point. -/
def NoDot (r : List Char) : Prop := ∀ cs, r ≠ '.' :: cs

/-- Not followed by the letter of an exponent. -/
def NoExp (r : List Char) : Prop := ∀ c cs, r = c :: cs → c ≠ 'e' ∧ c ≠ 'E'

/-- What can follow the numeral `l`. -/
structure NumStop (l : NumLit) (r : List Char) : Prop where
  noDigit : NoDigit r
  noDot : NoDot r
  noExp : l.hasExp = false → NoExp r

theorem Stop.noExp {r : List Char} (h : Stop r) : NoExp r := by
  intro c cs e
  have := h c cs e
  constructor <;> rintro rfl <;> revert this <;> decide

theorem Stop.no_dot {r : List Char} (h : Stop r) : NoDot r := by
  rintro cs rfl
  exact absurd (h _ _ rfl) (by decide)

theorem Stop.num {r : List Char} (h : Stop r) (l : NumLit) : NumStop l r := ⟨h.noDigit, h.no_dot, fun _ => h.noExp⟩

theorem numStop_nil (l : NumLit) : NumStop l [] :=
  ⟨fun _ _ e => by simp at e, fun _ e => by simp at e, fun _ _ _ e => by simp at e⟩

theorem NumStop.take {l : NumLit} {r : List Char} (h : NumStop l r) (k : Nat) : NumStop l (r.take k) := by
  cases r with
  | nil => simpa using h
  | cons d ds =>
    cases k with
    | zero => exact numStop_nil l
    | succ k =>
      rw [List.take_succ_cons]
      refine ⟨?_, ?_, ?_⟩
      · intro c cs e; cases e; exact h.noDigit _ _ rfl
      · intro cs e; cases e; exact h.noDot _ rfl
      · intro hl c cs e; cases e; exact h.noExp hl _ _ rfl

theorem decimalSeq_chars (n : Digits) {r : List Char} (h : NoDigit r) : decimalSeq (n.chars ++ r) = some r := by
  rw [chars_cons, List.cons_append, decimalSeq, if_pos (digitChar_isDigit _)]
  rw [dropWhile_append_stop _ h]
  intro c hc
  obtain ⟨d, -, rfl⟩ := List.mem_map.1 hc
  exact digitChar_isDigit d

theorem optSign_digits (n : Digits) (r : List Char) : optSign (n.chars ++ r) = n.chars ++ r := by
  rw [chars_cons, List.cons_append, optSign, if_neg]
  have : ∀ d : Fin 10, ¬(digitChar d = '+' ∨ digitChar d = '-') := by decide
  exact this _

theorem exp_letter (e : ExpLit) : (if e.upper then 'E' else 'e') = 'e' ∨ (if e.upper then 'E' else 'e') = 'E' := by
  cases e.upper <;> simp

theorem exponent_chars (e : ExpLit) {r : List Char} (h : NoDigit r) :
    exponent (e.chars ++ r) = .ok (some r) := by
  unfold ExpLit.chars
  rw [List.cons_append, exponent, if_pos (exp_letter e)]
  have : decimalSeq (optSign (ExpLit.signChars e.sign ++ e.digits.chars ++ r)) = some r := by
    rcases e.sign with _ | _ | _ <;> unfold ExpLit.signChars
    · rw [List.nil_append, optSign_digits, decimalSeq_chars _ h]
    · rw [List.append_assoc, List.singleton_append, optSign, if_pos (by simp), decimalSeq_chars _ h]
    · rw [List.append_assoc, List.singleton_append, optSign, if_pos (by simp), decimalSeq_chars _ h]
  rw [this]

theorem exponent_stop {r : List Char} (h : NoExp r) : exponent r = .ok none := by
  cases r with
  | nil => rfl
  | cons c cs =>
    rw [exponent, if_neg]
    have := h _ _ rfl
    tauto

theorem optDot_stop {r : List Char} (h : NoDot r) : optDot r = r := by
  cases r with
  | nil => rfl
  | cons c cs =>
    rw [optDot, if_neg]
    rintro rfl
    exact h _ rfl

theorem doubleAlt1_int (n : Digits) {r : List Char} (h : NoDigit r) (hd : ∀ cs, r ≠ '.' :: cs) :
    doubleAlt1 (n.chars ++ r) = .ok none := by
  unfold doubleAlt1
  rw [decimalSeq_chars n h]
  split
  · rename_i cs e
    simp only [Option.some.injEq] at e
    exact absurd e (hd cs)
  · rfl

theorem doubleLit_int (n : Digits) {r : List Char} (h : NumStop (.int n) r) : doubleLit (n.chars ++ r) = .ok none := by
  unfold doubleLit
  rw [doubleAlt1_int n h.noDigit h.noDot, Outcome.bind_ok]
  simp only
  unfold doubleAlt2
  rw [decimalSeq_chars n h.noDigit]
  simp only
  rw [optDot_stop h.noDot, exponent_stop (h.noExp rfl)]
  rfl

theorem exp_noDigit (e : ExpLit) (r : List Char) : NoDigit (e.chars ++ r) := by
  unfold ExpLit.chars
  rw [List.cons_append]
  refine noDigit_cons ?_
  cases e.upper <;> decide

theorem exp_noDot (e : ExpLit) (r : List Char) : ∀ cs, e.chars ++ r ≠ '.' :: cs := by
  unfold ExpLit.chars
  intro cs h
  rw [List.cons_append] at h
  simp only [List.cons.injEq] at h
  cases hu : e.upper <;> simp [hu] at h

theorem doubleLit_dec (i f : Digits) (e : Option ExpLit) {r : List Char} (h : NumStop (.dec i f e) r) :
    doubleLit (NumLit.chars (.dec i f e) ++ r) = .ok (some (skip r)) := by
  unfold doubleLit doubleAlt1 NumLit.chars
  rw [List.append_assoc, List.cons_append, decimalSeq_chars i (noDigit_cons (by decide))]
  cases e with
  | none =>
    simp only [List.append_nil]
    rw [decimalSeq_chars f h.noDigit]
    simp only [exponent_stop (h.noExp rfl), Outcome.bind_ok, Outcome.pure_eq_ok]
  | some e =>
    simp only [List.append_assoc]
    rw [decimalSeq_chars f (exp_noDigit e r)]
    simp only [exponent_chars e h.noDigit, Outcome.bind_ok, Outcome.pure_eq_ok]

theorem doubleLit_sci (i : Digits) (dot : Bool) (e : ExpLit) {r : List Char} (h : NumStop (.sci i dot e) r) :
    doubleLit (NumLit.chars (.sci i dot e) ++ r) = .ok (some (skip r)) := by
  unfold doubleLit NumLit.chars
  cases dot with
  | false =>
    simp only [Bool.false_eq_true, if_false, List.nil_append, List.append_assoc]
    rw [doubleAlt1_int i (exp_noDigit e r) (exp_noDot e r), Outcome.bind_ok]
    simp only
    unfold doubleAlt2
    rw [decimalSeq_chars i (exp_noDigit e r)]
    simp only
    have : optDot (e.chars ++ r) = e.chars ++ r := by
      have h1 := exp_noDot e r
      cases hc : e.chars ++ r with
      | nil => rfl
      | cons c cs =>
        rw [optDot, if_neg]
        rintro rfl
        exact h1 cs hc
    rw [this, exponent_chars e h.noDigit]
    rfl
  | true =>
    simp only [if_true, List.append_assoc, List.cons_append, List.nil_append]
    have h1 : doubleAlt1 (i.chars ++ '.' :: (e.chars ++ r)) = .ok none := by
      unfold doubleAlt1
      rw [decimalSeq_chars i (noDigit_cons (by decide))]
      have : decimalSeq (e.chars ++ r) = none := by
        have h2 := exp_noDigit e r
        cases hc : e.chars ++ r with
        | nil => rfl
        | cons c cs => rw [decimalSeq, h2 c cs hc]; rfl
      simp only [this, Outcome.pure_eq_ok]
    rw [h1, Outcome.bind_ok]
    simp only
    unfold doubleAlt2
    rw [decimalSeq_chars i (noDigit_cons (by decide))]
    simp only
    rw [optDot, if_pos rfl, exponent_chars e h.noDigit]
    rfl

theorem integerLit_int (n : Digits) {r : List Char} (h : NumStop (.int n) r) : integerLit (n.chars ++ r) = some (skip r) := by
  unfold integerLit
  rw [decimalSeq_chars n h.noDigit]; rfl

theorem textOf_skip (a r : List Char) :
    textOf (a ++ r) (skip r) = a ++ r.take (r.length - (skip r).length) := by
  unfold textOf
  have := skip_le r
  rw [List.take_append]
  rw [List.take_of_length_le (by simp; omega)]
  congr 2
  simp; omega

/-! ### Values -/

theorem natOf_acc (l : List Char) (a : Nat) :
    l.foldl (fun n c => 10 * n + digitVal c) a = a * 10 ^ l.length + natOf l := by
  unfold natOf
  induction l generalizing a with
  | nil => simp
  | cons c cs ih =>
    simp only [List.foldl_cons, List.length_cons]
    rw [ih, ih (10 * 0 + digitVal c)]
    ring

theorem natOf_append (a b : List Char) : natOf (a ++ b) = natOf a * 10 ^ b.length + natOf b := by
  conv_lhs => unfold natOf
  rw [List.foldl_append, natOf_acc]
  rfl

theorem natOf_map (l : List (Fin 10)) :
    natOf (l.map digitChar) = Nat.ofDigits 10 (l.reverse.map Fin.val) := by
  induction l using List.reverseRecOn with
  | nil => rfl
  | append_singleton l d ih =>
    rw [List.map_append, natOf_append, ih, List.reverse_append]
    simp only [List.map_cons, List.map_nil, List.length_singleton, List.reverse_singleton,
      List.singleton_append]
    rw [Nat.ofDigits_cons]
    simp [natOf, digitVal_digitChar]
    ring

theorem natOf_chars (n : Digits) : natOf n.chars = n.val := natOf_map _

theorem chars_length (n : Digits) : n.chars.length = n.all.length := by simp [Digits.chars]

theorem takeWhile_digits (n : Digits) {r : List Char} (h : NoDigit r) :
    (n.chars ++ r).takeWhile Char.isDigit = n.chars := takeWhile_append_stop (chars_digit n) h

theorem dropWhile_digits (n : Digits) {r : List Char} (h : NoDigit r) :
    (n.chars ++ r).dropWhile Char.isDigit = r := dropWhile_append_stop (chars_digit n) h

theorem expOf_stop {r : List Char} (h : NoExp r) : expOf r = (false, 0) := by
  cases r with
  | nil => rfl
  | cons c cs =>
    rw [expOf.eq_def]
    simp only
    rw [if_neg]
    have := h _ _ rfl
    tauto

theorem expOf_chars (e : ExpLit) {r : List Char} (h : NoDigit r) :
    expOf (e.chars ++ r) = (e.sign == some true, e.digits.val) := by
  unfold ExpLit.chars
  rw [List.cons_append, expOf.eq_def]
  simp only
  rw [if_pos (exp_letter e)]
  rcases e.sign with _ | _ | _ <;> unfold ExpLit.signChars
  · simp only [List.nil_append]
    rw [chars_cons, List.cons_append]
    have : ∀ d : Fin 10, digitChar d ≠ '+' ∧ digitChar d ≠ '-' := by decide
    split
    · rename_i e'; simp only [List.cons.injEq] at e'; exact absurd e'.1 (this _).2
    · rename_i e'; simp only [List.cons.injEq] at e'; exact absurd e'.1 (this _).1
    · rw [← List.cons_append, ← chars_cons, takeWhile_digits _ h, natOf_chars]; rfl
  · simp only [List.cons_append, List.nil_append]
    rw [takeWhile_digits _ h, natOf_chars]; rfl
  · simp only [List.cons_append, List.nil_append]
    rw [takeWhile_digits _ h, natOf_chars]; rfl

end Lex

section
open _root_.Verif.Lex
variable {K : Type} [Field K] [LinearOrder K] [IsStrictOrderedRing K]

theorem stol_int (n : Digits) {r : List Char} (h : NumStop (.int n) r) :
    stol (n.chars ++ r) = if n.val < 2 ^ 63 then .ok n.val else .throw .outOfRange := by
  unfold stol
  rw [takeWhile_digits n h.noDigit, natOf_chars]
  simp only
  split <;> split <;> first | rfl | omega

theorem ten_ne : (10 : K) ≠ 0 := by norm_num

theorem decimalValue_dec (i f : Digits) (e : Option ExpLit) {r : List Char} (h : NumStop (.dec i f e) r) :
    decimalValue (NumLit.chars (.dec i f e) ++ r) = (NumLit.val (.dec i f e) : K) := by
  have ht : (10 : K) ^ f.all.length ≠ 0 := pow_ne_zero _ ten_ne
  have hm : ((natOf (i.chars ++ f.chars) : K)) / (10 : K) ^ f.chars.length
      = (i.val : K) + (f.val : K) / (10 : K) ^ f.all.length := by
    rw [natOf_append, natOf_chars, natOf_chars, chars_length]
    push_cast
    field_simp
  unfold decimalValue NumLit.chars
  simp only [List.append_assoc, List.cons_append]
  rw [takeWhile_digits i (noDigit_cons (by decide)), dropWhile_digits i (noDigit_cons (by decide))]
  simp only [fracOf]
  cases e with
  | none =>
    simp only [List.nil_append]
    rw [takeWhile_digits f h.noDigit, dropWhile_digits f h.noDigit, expOf_stop (h.noExp rfl)]
    simp only
    rw [hm]
    simp [NumLit.val]
  | some e =>
    simp only
    rw [takeWhile_digits f (exp_noDigit e r), dropWhile_digits f (exp_noDigit e r), expOf_chars e h.noDigit]
    simp only
    rw [hm]
    unfold NumLit.val ExpLit.val
    by_cases hs : e.sign = some true
    · simp [hs, div_eq_mul_inv]
    · simp [hs]

theorem decimalValue_sci (i : Digits) (dot : Bool) (e : ExpLit) {r : List Char} (h : NumStop (.sci i dot e) r) :
    decimalValue (NumLit.chars (.sci i dot e) ++ r) = (NumLit.val (.sci i dot e) : K) := by
  have fin : (if e.sign == some true then (i.val : K) / (10 : K) ^ e.digits.val
      else (i.val : K) * (10 : K) ^ e.digits.val) = (NumLit.val (.sci i dot e) : K) := by
    unfold NumLit.val ExpLit.val
    by_cases hs : e.sign = some true
    · simp [hs, div_eq_mul_inv]
    · simp [hs]
  unfold decimalValue NumLit.chars
  cases dot with
  | false =>
    simp only [Bool.false_eq_true, if_false, List.nil_append, List.append_assoc]
    rw [takeWhile_digits i (exp_noDigit e r), dropWhile_digits i (exp_noDigit e r)]
    have hd := exp_noDot e r
    have hm : fracOf (e.chars ++ r) = ([], e.chars ++ r) := by
      rw [fracOf.eq_def]
      split
      · rename_i cs hc; exact absurd hc (hd cs)
      · rfl
    rw [hm]
    simp only
    rw [expOf_chars e h.noDigit]
    simp only [List.append_nil, List.length_nil, pow_zero, div_one, natOf_chars]
    exact fin
  | true =>
    simp only [if_true, List.append_assoc, List.cons_append, List.nil_append]
    rw [takeWhile_digits i (noDigit_cons (by decide)), dropWhile_digits i (noDigit_cons (by decide))]
    simp only [fracOf]
    have h1 : (e.chars ++ r).takeWhile Char.isDigit = [] :=
      takeWhile_append_stop (a := []) (by simp) (exp_noDigit e r)
    have h2 : (e.chars ++ r).dropWhile Char.isDigit = e.chars ++ r :=
      dropWhile_append_stop (a := []) (by simp) (exp_noDigit e r)
    rw [h1, h2, expOf_chars e h.noDigit]
    simp only [List.append_nil, List.length_nil, pow_zero, div_one, natOf_chars]
    exact fin

end
end Verif
