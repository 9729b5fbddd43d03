import Verif.Proofs.ParserRaw

/-!
# What the parser accepts is a text of the accepted language
-/

set_option linter.unusedSectionVars false

namespace Verif
open Spec
open _root_.Verif.Lex

/-! ## Tokens at the beginning of a text -/

namespace Lex

/-- Not followed by a letter, digit or underscore. -/
def NoOther (r : List Char) : Prop := ∀ c cs, r = c :: cs → isIdOther c = false

mutual
theorem skip_starts : ∀ r : List Char, Start (skip r)
  | [] => by rw [skip]; intro c cs e; cases e
  | c :: cs => by
    rw [skip]
    split
    · exact skip_starts cs
    · split
      · exact skipComment_starts cs
      · rename_i h1 h2
        intro d ds e
        cases e
        exact ⟨by simpa using h1, h2⟩
theorem skipComment_starts : ∀ r : List Char, Start (skipComment r)
  | [] => by rw [skipComment]; intro c cs e; cases e
  | c :: cs => by
    rw [skipComment]
    split
    · exact skip_starts cs
    · exact skipComment_starts cs
end

theorem skip_skip (r : List Char) : skip (skip r) = skip r := skip_start (skip_starts r)

mutual
/-- What is skipped is layout. -/
theorem skip_split : ∀ r : List Char,
    (∃ g, Layout g ∧ r = g ++ skip r) ∨ (skip r = [] ∧ FinalLayout r)
  | [] => .inl ⟨[], .nil, by rw [skip]; rfl⟩
  | c :: cs => by
    rw [skip]
    split
    · rename_i h
      rcases skip_split cs with ⟨g, h1, h2⟩ | ⟨h1, h2⟩
      · exact .inl ⟨c :: g, .space ((isSpace_iff c).1 h) h1, by rw [List.cons_append, ← h2]⟩
      · refine .inr ⟨h1, ?_⟩
        cases h2 with
        | closed h2 => exact .closed (.space ((isSpace_iff c).1 h) h2)
        | @«open» w body h2 hb =>
          exact .open (w := c :: w) (.space ((isSpace_iff c).1 h) h2) hb
    · split
      · rename_i h
        subst h
        rcases skipComment_split cs with ⟨b, g, hb, hg, he⟩ | ⟨h1, h2⟩
        · exact .inl ⟨';' :: (b ++ '\n' :: g), .comment hb hg, by simp only [List.cons_append, List.append_assoc]; rw [← he]⟩
        · exact .inr ⟨h1, h2⟩
      · exact .inl ⟨[], .nil, rfl⟩
theorem skipComment_split : ∀ r : List Char,
    (∃ b g, '\n' ∉ b ∧ Layout g ∧ r = b ++ '\n' :: (g ++ skipComment r)) ∨
      (skipComment r = [] ∧ FinalLayout (';' :: r))
  | [] => .inr ⟨by rw [skipComment], .open (w := []) .nil (by simp)⟩
  | c :: cs => by
    rw [skipComment]
    split
    · rename_i h
      subst h
      rcases skip_split cs with ⟨g, h1, h2⟩ | ⟨h1, h2⟩
      · exact .inl ⟨[], g, by simp, h1, by rw [List.nil_append, ← h2]⟩
      · refine .inr ⟨h1, ?_⟩
        cases h2 with
        | closed h2 => exact .closed (.comment (body := []) (by simp) h2)
        | @«open» w body h2 hb =>
          exact .open (w := ';' :: '\n' :: w) (.comment (body := []) (by simp) h2) hb
    · rename_i h
      rcases skipComment_split cs with ⟨b, g, hb, hg, he⟩ | ⟨h1, h2⟩
      · exact .inl ⟨c :: b, g, by simp [hb, Ne.symm h], hg, by rw [List.cons_append, ← he]⟩
      · refine .inr ⟨h1, ?_⟩
        generalize hv : ';' :: cs = v at h2
        cases h2 with
        | closed h2 =>
          cases h2 with
          | nil => cases hv
          | space hc _ => cases hv; exact absurd hc (by simp [IsSpace])
          | @comment body w hb hw =>
            cases hv
            exact .closed (.comment (body := c :: body) (by simp [hb, Ne.symm h]) hw)
        | @«open» w body h2 hb =>
          cases h2 with
          | nil =>
            cases hv
            exact .open (w := []) .nil (by simp [hb, Ne.symm h])
          | space hc _ => cases hv; exact absurd hc (by simp [IsSpace])
          | @comment body' w' hb' hw' =>
            simp only [List.cons_append, List.cons.injEq, true_and] at hv
            subst hv
            have := FinalLayout.open (w := ';' :: (c :: body' ++ '\n' :: w'))
              (.comment (by simp [hb', Ne.symm h]) hw') hb
            simpa using this
end

/-! ## Inversion of the lexical rules -/

theorem sym_inv {c : Char} {w w' : List Char} (h : sym c w = some w') : ∃ r, w = c :: r ∧ w' = skip r := by
  cases w with
  | nil => cases h
  | cons d ds =>
    rw [sym] at h
    split at h
    · rename_i e; subst e; cases h; exact ⟨ds, rfl, rfl⟩
    · cases h

theorem str_inv {s w w' : List Char} (h : str s w = some w') : w = s ++ w' := by
  unfold str at h
  split at h
  · rename_i hp
    rw [List.isPrefixOf_iff_prefix] at hp
    obtain ⟨t, rfl⟩ := hp
    cases h
    simp
  · cases h

theorem endOfWord_inv {r w' : List Char} (h : endOfWord r = some w') : NoOther r ∧ w' = skip r := by
  cases r with
  | nil => rw [endOfWord] at h; cases h; exact ⟨fun c cs e => by simp at e, by rw [skip]⟩
  | cons c cs =>
    rw [endOfWord] at h
    split at h
    · cases h
    · rename_i hc
      cases h
      exact ⟨fun d ds e => by cases e; simpa using hc, rfl⟩

theorem endOfWord_some {r : List Char} (h : NoOther r) : endOfWord r = some (skip r) := by
  cases r with
  | nil => simp [endOfWord, skip]
  | cons c cs => rw [endOfWord, h c cs rfl]; rfl

theorem keyword_inv {k : String} {w w' : List Char} (h : keyword k w = some w') :
    ∃ r, w = k.toList ++ r ∧ NoOther r ∧ w' = skip r := by
  unfold keyword at h
  cases hs : str k.toList w with
  | none => rw [hs] at h; cases h
  | some r =>
    rw [hs] at h
    obtain ⟨h1, h2⟩ := endOfWord_inv h
    exact ⟨r, str_inv hs, h1, h2⟩

theorem keyword_of {k : String} {r : List Char} (h : NoOther r) : keyword k (k.toList ++ r) = some (skip r) := by
  unfold keyword str
  rw [if_pos (by rw [List.isPrefixOf_iff_prefix]; exact List.prefix_append _ _)]
  simp [endOfWord_some h]

theorem dropWhile_head {p : Char → Bool} : ∀ (l : List Char) (c : Char) (cs : List Char), l.dropWhile p = c :: cs →
    p c = false
  | [], _, _, h => by simp at h
  | d :: l, c, cs, h => by
    rw [List.dropWhile_cons] at h
    split at h
    · exact dropWhile_head l c cs h
    · rename_i hp; cases h; simpa using hp

theorem mem_takeWhile {p : Char → Bool} : ∀ (l : List Char), ∀ d ∈ l.takeWhile p, p d = true
  | [], d, h => by simp at h
  | c :: l, d, h => by
    rw [List.takeWhile_cons] at h
    split at h
    · rename_i hc
      rcases List.mem_cons.1 h with rfl | h
      · exact hc
      · exact mem_takeWhile l d h
    · simp at h

theorem ident_inv {w text r : List Char} (h : ident w = some (text, r)) :
    w = text ++ r ∧ NoOther r ∧ IsName (String.ofList text) := by
  cases w with
  | nil => cases h
  | cons c cs =>
    rw [ident] at h
    split at h
    · rename_i hc
      cases h
      refine ⟨by simp, fun d ds e => dropWhile_head _ _ _ e, c, cs.takeWhile isIdOther, by simp, ?_, fun d hd => ?_⟩
      · simpa [isIdFirst] using hc
      · simpa [isIdOther] using mem_takeWhile cs d hd
    · cases h

theorem isDigit_char {c : Char} (h : c.isDigit = true) : ∃ d : Fin 10, c = digitChar d := by
  simp only [Char.isDigit, Bool.and_eq_true, decide_eq_true_eq, ge_iff_le, UInt32.le_iff_toNat_le] at h
  have h1 : 48 ≤ c.toNat := h.1
  have h2 : c.toNat ≤ 57 := h.2
  refine ⟨⟨c.toNat - 48, by omega⟩, ?_⟩
  unfold digitChar
  simp only
  rw [show 48 + (c.toNat - 48) = c.toNat by omega, Char.ofNat_toNat]

theorem digits_of : ∀ l : List Char, (∀ c ∈ l, c.isDigit = true) → ∃ ds : List (Fin 10), l = ds.map digitChar
  | [], _ => ⟨[], rfl⟩
  | c :: l, h => by
    obtain ⟨d, rfl⟩ := isDigit_char (h c (by simp))
    obtain ⟨ds, rfl⟩ := digits_of l fun x hx => h x (by simp [hx])
    exact ⟨d :: ds, rfl⟩

theorem decimalSeq_inv {w r : List Char} (h : decimalSeq w = some r) :
    ∃ n : Digits, w = n.chars ++ r ∧ NoDigit r := by
  cases w with
  | nil => cases h
  | cons c cs =>
    rw [decimalSeq] at h
    split at h
    · rename_i hc
      cases h
      obtain ⟨d, rfl⟩ := isDigit_char hc
      obtain ⟨ds, hds⟩ := digits_of (cs.takeWhile Char.isDigit) fun x hx => mem_takeWhile cs x hx
      refine ⟨⟨d, ds⟩, ?_, fun x xs e => dropWhile_head _ _ _ e⟩
      rw [chars_cons, List.cons_append]
      simp only
      rw [← hds]
      simp
    · cases h

theorem exponent_inv {w r : List Char} (h : exponent w = .ok (some r)) :
    ∃ e : ExpLit, w = e.chars ++ r ∧ NoDigit r := by
  cases w with
  | nil => cases h
  | cons c cs =>
    rw [exponent] at h
    split at h
    · rename_i hc
      cases hd : decimalSeq (optSign cs) with
      | none => rw [hd] at h; cases h
      | some r' =>
        rw [hd] at h
        cases h
        obtain ⟨n, h1, h2⟩ := decimalSeq_inv hd
        have hcu : ∃ u : Bool, c = if u then 'E' else 'e' := by
          rcases hc with rfl | rfl
          · exact ⟨false, rfl⟩
          · exact ⟨true, rfl⟩
        obtain ⟨u, rfl⟩ := hcu
        have hsg : ∃ s : Option Bool, cs = ExpLit.signChars s ++ (n.chars ++ r) := by
          cases cs with
          | nil => rw [optSign, chars_cons] at h1; simp at h1
          | cons a as =>
            rw [optSign] at h1
            split at h1
            · rename_i ha
              rcases ha with rfl | rfl
              · exact ⟨some false, by rw [h1]; rfl⟩
              · exact ⟨some true, by rw [h1]; rfl⟩
            · exact ⟨none, by rw [h1]; rfl⟩
        obtain ⟨s, rfl⟩ := hsg
        exact ⟨⟨u, s, n⟩, by simp [ExpLit.chars], h2⟩
    · cases h

theorem exponent_none {w : List Char} (h : exponent w = .ok none) : NoExp w := by
  cases w with
  | nil => intro c cs e; cases e
  | cons c cs =>
    rw [exponent] at h
    split at h
    · split at h <;> cases h
    · rename_i hc
      intro d ds e
      cases e
      tauto

/-- What is known about the text after a numeral. -/
structure NumEnd (l : NumLit) (r : List Char) : Prop where
  noDigit : NoDigit r
  noExp : l.hasExp = false → NoExp r

theorem doubleAlt1_inv {w r : List Char} (h : doubleAlt1 w = .ok (some r)) :
    ∃ l : NumLit, w = l.chars ++ r ∧ NumEnd l r := by
  unfold doubleAlt1 at h
  split at h
  · rename_i cs hcs
    obtain ⟨i, rfl, -⟩ := decimalSeq_inv hcs
    split at h
    · rename_i r' hr'
      obtain ⟨f, rfl, hnd⟩ := decimalSeq_inv hr'
      obtain ⟨o, ho, h⟩ := Outcome.bind_eq_ok.1 h
      cases o with
      | some r'' =>
        cases h
        obtain ⟨e, rfl, hnd'⟩ := exponent_inv ho
        exact ⟨.dec i f (some e), by simp [NumLit.chars], hnd', by simp [NumLit.hasExp]⟩
      | none =>
        cases h
        exact ⟨.dec i f none, by simp [NumLit.chars], hnd, fun _ => exponent_none ho⟩
    · cases h
  · cases h

theorem doubleAlt2_inv {w r : List Char} (h : doubleAlt2 w = .ok (some r)) :
    ∃ l : NumLit, w = l.chars ++ r ∧ NumEnd l r := by
  unfold doubleAlt2 at h
  split at h
  · rename_i r' hr'
    obtain ⟨i, rfl, -⟩ := decimalSeq_inv hr'
    obtain ⟨e, he, hnd⟩ := exponent_inv h
    cases r' with
    | nil => rw [optDot] at he; simp [ExpLit.chars] at he
    | cons c cs =>
      rw [optDot] at he
      split at he
      · rename_i hc
        subst hc
        exact ⟨.sci i true e, by simp [NumLit.chars, he], hnd, by simp [NumLit.hasExp]⟩
      · exact ⟨.sci i false e, by simp [NumLit.chars, he], hnd, by simp [NumLit.hasExp]⟩
  · cases h

theorem doubleLit_inv {w w' : List Char} (h : doubleLit w = .ok (some w')) :
    ∃ (l : NumLit) (r : List Char), w = l.chars ++ r ∧ NumEnd l r ∧ w' = skip r := by
  unfold doubleLit at h
  obtain ⟨o, ho, h⟩ := Outcome.bind_eq_ok.1 h
  cases o with
  | some r =>
    cases h
    obtain ⟨l, h1, h2⟩ := doubleAlt1_inv ho
    exact ⟨l, r, h1, h2, rfl⟩
  | none =>
    obtain ⟨o, ho, h⟩ := Outcome.bind_eq_ok.1 h
    cases o with
    | some r =>
      cases h
      obtain ⟨l, h1, h2⟩ := doubleAlt2_inv ho
      exact ⟨l, r, h1, h2, rfl⟩
    | none => cases h

theorem doubleLit_none {n : Digits} {r : List Char} (hr : NoDigit r) (h : doubleLit (n.chars ++ r) = .ok none) :
    NoExp r := by
  unfold doubleLit at h
  obtain ⟨o, ho, h⟩ := Outcome.bind_eq_ok.1 h
  cases o with
  | some r => cases h
  | none =>
    obtain ⟨o, ho, h⟩ := Outcome.bind_eq_ok.1 h
    cases o with
    | some r => cases h
    | none =>
      unfold doubleAlt2 at ho
      rw [decimalSeq_chars n hr] at ho
      simp only at ho
      have := exponent_none ho
      cases r with
      | nil => intro c cs e; cases e
      | cons c cs =>
        rw [optDot] at this
        split at this
        · rename_i hc
          subst hc
          intro d ds e
          cases e
          decide
        · exact this

end Lex

namespace Rule
variable {K : Type}

/-! ## Inversion of the combinators -/

section
variable {r1 r2 r : Rule K} {w w' : List Char} {st st' : PState K}

theorem lex_inv {f : List Char → Option (List Char)} {o : Option (List Char)} (h : lex f w st = .ok (o, st')) :
    f w = o ∧ st' = st := by
  unfold lex at h; cases h; exact ⟨rfl, rfl⟩

theorem seq_inv (h : seq r1 r2 w st = .ok (some w', st')) :
    ∃ w1 st1, r1 w st = .ok (some w1, st1) ∧ r2 w1 st1 = .ok (some w', st') := by
  unfold seq at h
  obtain ⟨⟨o, st1⟩, h1, h2⟩ := Outcome.bind_eq_ok.1 h
  cases o with
  | none => cases h2
  | some w1 => exact ⟨w1, st1, h1, h2⟩

theorem sor_inv (h : sor r1 r2 w st = .ok (some w', st')) :
    r1 w st = .ok (some w', st') ∨ ∃ st1, r1 w st = .ok (none, st1) ∧ r2 w st1 = .ok (some w', st') := by
  unfold sor at h
  obtain ⟨⟨o, st1⟩, h1, h2⟩ := Outcome.bind_eq_ok.1 h
  cases o with
  | none => exact .inr ⟨st1, h1, h2⟩
  | some w1 => cases h2; exact .inl h1

theorem sor_none (h : sor r1 r2 w st = .ok (none, st')) :
    ∃ st1, r1 w st = .ok (none, st1) ∧ r2 w st1 = .ok (none, st') := by
  unfold sor at h
  obtain ⟨⟨o, st1⟩, h1, h2⟩ := Outcome.bind_eq_ok.1 h
  cases o with
  | none => exact ⟨st1, h1, h2⟩
  | some w1 => cases h2

theorem must_inv (h : must r w st = .ok (some w', st')) : r w st = .ok (some w', st') := by
  unfold must at h
  obtain ⟨⟨o, st1⟩, h1, h2⟩ := Outcome.bind_eq_ok.1 h
  cases o with
  | none => cases h2
  | some w1 => cases h2; exact h1

theorem must_none (h : must r w st = .ok (none, st')) : False := by
  unfold must at h
  obtain ⟨⟨o, st1⟩, h1, h2⟩ := Outcome.bind_eq_ok.1 h
  cases o <;> cases h2

theorem ifMust_inv (h : ifMust r1 r2 w st = .ok (some w', st')) :
    ∃ w1 st1, r1 w st = .ok (some w1, st1) ∧ r2 w1 st1 = .ok (some w', st') := by
  obtain ⟨w1, st1, h1, h2⟩ := seq_inv h
  exact ⟨w1, st1, h1, must_inv h2⟩

theorem ifMust_none (h : ifMust r1 r2 w st = .ok (none, st')) : ∃ st1, r1 w st = .ok (none, st1) := by
  unfold ifMust seq at h
  obtain ⟨⟨o, st1⟩, h1, h2⟩ := Outcome.bind_eq_ok.1 h
  cases o with
  | none => exact ⟨st1, h1⟩
  | some w1 => exact (must_none h2).elim

theorem act_inv {f : PState K → Outcome (PState K)} (h : act r f w st = .ok (some w', st')) :
    ∃ st1, r w st = .ok (some w', st1) ∧ f st1 = .ok st' := by
  unfold act at h
  obtain ⟨⟨o, st1⟩, h1, h2⟩ := Outcome.bind_eq_ok.1 h
  cases o with
  | none => cases h2
  | some w1 =>
    obtain ⟨st2, h2, h3⟩ := Outcome.bind_eq_ok.1 h2
    cases h3
    exact ⟨st1, h1, h2⟩

theorem act_none {f : PState K → Outcome (PState K)} (h : act r f w st = .ok (none, st')) :
    r w st = .ok (none, st') := by
  unfold act at h
  obtain ⟨⟨o, st1⟩, h1, h2⟩ := Outcome.bind_eq_ok.1 h
  cases o with
  | none => cases h2; exact h1
  | some w1 =>
    obtain ⟨st2, h2, h3⟩ := Outcome.bind_eq_ok.1 h2
    cases h3

/-- A keyword that was not found. -/
theorem kw_none {k : String} {f : PState K → Outcome (PState K)} (h : act (ifMust (kw k) r) f w st = .ok (none, st')) :
    keyword k w = none := by
  obtain ⟨st1, h1⟩ := ifMust_none (act_none h)
  exact (lex_inv h1).1

/-- A keyword that was found. -/
theorem kw_inv {k : String} {f : PState K → Outcome (PState K)}
    (h : act (ifMust (kw k) r) f w st = .ok (some w', st')) :
    ∃ r0 st1, w = k.toList ++ r0 ∧ NoOther r0 ∧ r (skip r0) st = .ok (some w', st1) := by
  obtain ⟨st1, h1, -⟩ := act_inv h
  obtain ⟨w1, st2, h2, h3⟩ := ifMust_inv h1
  obtain ⟨h4, rfl⟩ := lex_inv h2
  obtain ⟨r0, h5, h6, rfl⟩ := keyword_inv h4
  exact ⟨r0, st1, h5, h6, h3⟩

end

/-! ## Texts read by rules -/

/-- What is known about the text after a token. -/
def TokEnd : Tok → List Char → Prop
  | .word _, r => NoOther r
  | .num l, r => NumEnd l r
  | .op _, r => OpStop r
  | _, _ => True

/-- `w` consists of the tokens, each with its layout, and `w'`. -/
inductive Lexed : List Tok → List Char → List Char → Prop
  | nil {w : List Char} : Lexed [] w w
  | cons {t : Tok} {ts : List Tok} {r w' : List Char} : TokEnd t r → Lexed ts (skip r) w' →
      Lexed (t :: ts) (t.chars ++ r) w'

theorem Lexed.append {ts ts' : List Tok} {w w' w'' : List Char} (h : Lexed ts w w') (h' : Lexed ts' w' w'') :
    Lexed (ts ++ ts') w w'' := by
  induction h with
  | nil => exact h'
  | cons h1 _ ih => exact .cons h1 (ih h')

theorem Lexed.one {t : Tok} {r : List Char} (h : TokEnd t r) : Lexed [t] (t.chars ++ r) (skip r) := .cons h .nil

theorem lexed_txt : ∀ {ts : List Tok} {w : List Char}, Lexed ts w [] → (∀ t ∈ ts, TokOk t) → Txt ts w
  | [], _, h, _ => by cases h; exact .nil
  | [t], _, h, ho => by
    cases h with
    | @cons _ _ r _ h1 h2 =>
      generalize hs : skip r = s at h2
      cases h2
      refine .last ?_
      rcases skip_split r with ⟨g, hg, he⟩ | ⟨-, hf⟩
      · rw [hs, List.append_nil] at he
        rw [he]; exact .closed hg
      · exact hf
  | t :: t' :: ts, _, h, ho => by
    cases h with
    | @cons _ _ r _ h1 h2 =>
      have ih := lexed_txt h2 fun x hx => ho x (by simp at hx ⊢; tauto)
      obtain ⟨c, cs, hc, -⟩ := chars_ne t' (ho t' (by simp))
      generalize hs : skip r = s at h2
      cases h2 with
      | @cons _ _ r' _ h3 h4 =>
        rcases skip_split r with ⟨g, hg, he⟩ | ⟨he, -⟩
        · rw [he]
          refine .cons hg (fun hg0 => ?_) ih
          subst hg0
          rw [List.nil_append, hs] at he
          subst he
          have hok := ho t' (by simp)
          cases t <;> cases t' <;> try rfl
          · -- word, word
            rename_i s s'
            obtain ⟨d, ds, e1, e2⟩ := hok
            have := h1 d (ds ++ r') (by rw [Tok.chars, e1]; rfl)
            rw [isIdFirst_other e2] at this; cases this
          · rename_i s l
            obtain ⟨d, hd⟩ := head_num hc
            have := h1 c (cs ++ r') (by rw [hc]; rfl)
            rw [hd, isDigit_other (digitChar_isDigit d)] at this; cases this
          · rename_i o o'
            have := h1 c (cs ++ r') (by rw [hc]; rfl)
            cases o' <;> cases hc <;> simp at this
          · rename_i l s
            obtain ⟨d, ds, e1, e2⟩ := hok
            cases hl : l.hasExp with
            | true => simp [Tok.apart, hl]
            | false =>
              have := h1.noExp hl d (ds ++ r') (by rw [Tok.chars, e1]; rfl)
              simp [Tok.apart, startsExp, e1, this]
          · rename_i l l'
            obtain ⟨d, hd⟩ := head_num hc
            have := h1.noDigit c (cs ++ r') (by rw [hc]; rfl)
            rw [hd, digitChar_isDigit d] at this; cases this
        · rw [hs, hc] at he; simp at he

section
variable {K : Type} [Field K] [LinearOrder K] [IsStrictOrderedRing K] [Arith K] [Strtod K]

/-! ## Inversion of the rules -/

theorem identifier_inv {w w' : List Char} {st st' : PState K} (h : identifier w st = .ok (some w', st')) :
    ∃ n r, w = (Tok.word n).chars ++ r ∧ NoOther r ∧ IsName n ∧ w' = skip r := by
  unfold identifier at h
  cases hi : Lex.ident w with
  | none => rw [hi] at h; cases h
  | some p =>
    obtain ⟨text, r⟩ := p
    rw [hi] at h
    obtain ⟨h1, h2, h3⟩ := ident_inv hi
    simp only [endOfWord_some h2, Outcome.ok.injEq, Prod.mk.injEq, Option.some.injEq] at h
    exact ⟨String.ofList text, r, by simpa [Tok.chars] using h1, h2, h3, h.1.symm⟩

theorem identifier_none {w : List Char} {st st' : PState K} (h : identifier w st = .ok (none, st')) :
    ∀ c cs, w = c :: cs → isIdFirst c = false := by
  intro c cs e
  subst e
  cases hc : isIdFirst c with
  | false => rfl
  | true =>
    unfold identifier at h
    have hi : Lex.ident (c :: cs) = some (c :: cs.takeWhile isIdOther, cs.dropWhile isIdOther) := by
      rw [Lex.ident, if_pos hc]
    rw [hi] at h
    simp only [endOfWord_some (ident_inv hi).2.1] at h
    cases h

theorem numeral_inv {w w' : List Char} {st st' : PState K} (h : numeral w st = .ok (some w', st')) :
    ∃ l r, w = (Tok.num l).chars ++ r ∧ NumEnd l r ∧ w' = skip r := by
  rcases sor_inv h with h | ⟨st1, h1, h2⟩
  · unfold doubleLiteral at h
    obtain ⟨o, ho, h⟩ := Outcome.bind_eq_ok.1 h
    cases o with
    | none => cases h
    | some rest =>
      obtain ⟨d, -, h⟩ := Outcome.bind_eq_ok.1 h
      cases h
      exact doubleLit_inv ho
  · have hn : doubleLit w = .ok none := by
      unfold doubleLiteral at h1
      obtain ⟨o, ho, h⟩ := Outcome.bind_eq_ok.1 h1
      cases o with
      | none => exact ho
      | some rest =>
        obtain ⟨d, -, h⟩ := Outcome.bind_eq_ok.1 h
        cases h
    unfold integerLiteral at h2
    cases hi : integerLit w with
    | none => rw [hi] at h2; cases h2
    | some rest =>
      rw [hi] at h2
      obtain ⟨d, -, h⟩ := Outcome.bind_eq_ok.1 h2
      cases h
      unfold integerLit at hi
      obtain ⟨r, hr, rfl⟩ := Option.map_eq_some_iff.1 hi
      obtain ⟨n, rfl, hnd⟩ := decimalSeq_inv hr
      exact ⟨.int n, r, rfl, ⟨hnd, fun _ => doubleLit_none hnd hn⟩, rfl⟩

theorem cmpSym_inv {f : List Char → Option (List Char)} {o : ComparisonOp} {w w' : List Char} {st st' : PState K}
    (h : cmpSym f o w st = .ok (some w', st')) : f w = some w' := by
  obtain ⟨st1, h1, -⟩ := act_inv h
  exact (lex_inv h1).1

theorem strictSym_inv {c : Char} {w w' : List Char} (h : strictSym c w = some w') :
    ∃ r, w = c :: r ∧ w' = skip r := by
  cases w with
  | nil => cases h
  | cons d ds =>
    simp only [strictSym] at h
    split at h
    · rename_i hd
      subst hd
      refine ⟨ds, rfl, ?_⟩
      cases ds with
      | nil => cases h; rw [skip]
      | cons e es =>
        simp only at h
        split at h
        · cases h
        · cases h; rfl
    · cases h

theorem weakSym_inv {c : Char} {w w' : List Char} (h : weakSym c w = some w') :
    ∃ r, w = c :: '=' :: r ∧ w' = skip r := by
  unfold weakSym at h
  obtain ⟨r, hr, rfl⟩ := Option.map_eq_some_iff.1 h
  exact ⟨r, str_inv hr, rfl⟩

theorem comparisonSymbol_inv {w w' : List Char} {st st' : PState K}
    (h : comparisonSymbol w st = .ok (some w', st')) : ∃ o r, w = (Tok.op o).chars ++ r ∧ w' = skip r := by
  rcases sor_inv h with h | ⟨_, -, h⟩
  · obtain ⟨r, h1, h2⟩ := strictSym_inv (cmpSym_inv h)
    exact ⟨.LT, r, h1, h2⟩
  rcases sor_inv h with h | ⟨_, -, h⟩
  · obtain ⟨r, h1, h2⟩ := strictSym_inv (cmpSym_inv h)
    exact ⟨.GT, r, h1, h2⟩
  rcases sor_inv h with h | ⟨_, -, h⟩
  · obtain ⟨r, h1, h2⟩ := weakSym_inv (cmpSym_inv h)
    exact ⟨.LE, r, h1, h2⟩
  · obtain ⟨r, h1, h2⟩ := weakSym_inv (cmpSym_inv h)
    exact ⟨.GE, r, h1, h2⟩

/-- The reversed form is never accepted. -/
theorem predicateAction_type {st st' : PState K} (h : predicateAction st = .ok st') :
    st.s.predicateType ≠ some .TWO := by
  intro ht
  unfold predicateAction at h
  simp only [ht, if_true] at h
  split at h
  · cases h
  obtain ⟨_, -, h⟩ := Outcome.bind_eq_ok.1 h
  obtain ⟨_, -, h⟩ := Outcome.bind_eq_ok.1 h
  obtain ⟨_, -, h⟩ := Outcome.bind_eq_ok.1 h
  obtain ⟨_, h1, -⟩ := Outcome.bind_eq_ok.1 h
  cases h1

theorem predicateTerm_inv {w w' : List Char} {st st' : PState K} (h : predicateTerm w st = .ok (some w', st')) :
    ∃ o n c, IsName n ∧ Lexed (Item.toks (.cmp o n c)) w w' := by
  obtain ⟨st1, h1, ha⟩ := act_inv h
  obtain ⟨w1, st2, h2, h3⟩ := ifMust_inv h1
  obtain ⟨o, r, rfl, rfl⟩ := comparisonSymbol_inv h2
  rcases sor_inv h3 with h4 | ⟨st3, -, h4⟩
  · obtain ⟨st4, h5, -⟩ := act_inv h4
    obtain ⟨w2, st5, h6, h7⟩ := seq_inv h5
    obtain ⟨n, r1, e1, hr1, hn, rfl⟩ := identifier_inv h6
    obtain ⟨l, r2, e2, hr2, rfl⟩ := numeral_inv h7
    refine ⟨o, n, l, hn, ?_⟩
    have hop : OpStop r := by
      intro c cs e
      by_contra hc
      have hst : Start r := by
        intro d ds e'
        rw [e] at e'
        cases e'
        have : c = '<' ∨ c = '>' ∨ c = '=' := by tauto
        rcases this with rfl | rfl | rfl <;> decide
      rw [skip_start hst, e] at e1
      obtain ⟨d, ds, hd, hd'⟩ := tokOk_name hn
      rw [Tok.chars, hd] at e1
      cases e1
      have : c = '<' ∨ c = '>' ∨ c = '=' := by tauto
      rcases this with rfl | rfl | rfl <;> exact absurd hd' (by decide)
    simp only [Item.toks]
    refine .cons hop ?_
    rw [e1]
    refine .cons hr1 ?_
    rw [e2]
    exact .one hr2
  · obtain ⟨st4, h5, h6⟩ := act_inv h4
    cases h6
    exact absurd rfl (predicateAction_type ha)

/-- What a rule for terms accepts. -/
def TermConv (tm : Rule K) : Prop := ∀ w st w' st', tm w st = .ok (some w', st') →
  ∃ r, RawOk r ∧ Lexed r.toks w w' ∧
    ∀ n, r = .ref n → ∃ r0, w = n.toList ++ r0 ∧ NoOther r0

/-- Where a rule for terms fails. -/
def TermNone (tm : Rule K) : Prop := ∀ w st st', tm w st = .ok (none, st') →
  ∀ c cs, w = c :: cs → c ≠ '(' ∧ isIdFirst c = false

theorem star_inv {tm : Rule K} (htm : TermConv tm) (hno : TermNone tm) : ∀ (m : Nat) {w w' : List Char}
    {st st' : PState K}, star tm m w st = .ok (some w', st') →
    (∃ l, RawsOk l ∧ Lexed (Raw.toksAll l) w w') ∧ ∀ c cs, w' = c :: cs → c ≠ '(' ∧ isIdFirst c = false
  | 0, _, _, _, _, h => by cases h
  | m + 1, w, w', st, st', h => by
    unfold star at h
    obtain ⟨⟨o, st1⟩, h1, h2⟩ := Outcome.bind_eq_ok.1 h
    cases o with
    | none =>
      cases h2
      exact ⟨⟨[], .nil, .nil⟩, hno _ _ _ h1⟩
    | some w1 =>
      obtain ⟨r, hr, hl, -⟩ := htm _ _ _ _ h1
      obtain ⟨⟨l, hl1, hl2⟩, h3⟩ := star_inv htm hno m h2
      exact ⟨⟨r :: l, .cons hr hl1, hl.append hl2⟩, h3⟩

theorem plus_inv {tm : Rule K} (htm : TermConv tm) (hno : TermNone tm) {m : Nat} {w w' : List Char}
    {st st' : PState K} (h : plus tm m w st = .ok (some w', st')) :
    (∃ l, l ≠ [] ∧ RawsOk l ∧ Lexed (Raw.toksAll l) w w') ∧ ∀ c cs, w' = c :: cs → c ≠ '(' ∧ isIdFirst c = false := by
  obtain ⟨w1, st1, h1, h2⟩ := seq_inv h
  obtain ⟨r, hr, hl, -⟩ := htm _ _ _ _ h1
  obtain ⟨⟨l, hl1, hl2⟩, h3⟩ := star_inv htm hno m h2
  exact ⟨⟨r :: l, by simp, .cons hr hl1, hl.append hl2⟩, h3⟩

theorem un_inv {tm : Rule K} (htm : TermConv tm) {k : String} {f : PState K → Outcome (PState K)}
    {w w' : List Char} {st st' : PState K} (h : act (ifMust (kw k) tm) f w st = .ok (some w', st')) :
    ∃ r, RawOk r ∧ Lexed (.word k :: r.toks) w w' := by
  obtain ⟨r0, st1, rfl, hr0, h1⟩ := kw_inv h
  obtain ⟨r, hr, hl, -⟩ := htm _ _ _ _ h1
  exact ⟨r, hr, .cons (t := .word k) hr0 hl⟩

theorem nary_inv {tm : Rule K} (htm : TermConv tm) (hno : TermNone tm) {k : String} {n : Nat}
    {f : PState K → Outcome (PState K)}
    {w w' : List Char} {st st' : PState K} (h : act (ifMust (kw k) (plus tm n)) f w st = .ok (some w', st')) :
    (∃ l, l ≠ [] ∧ RawsOk l ∧ Lexed (.word k :: Raw.toksAll l) w w') ∧
      ∀ c cs, w' = c :: cs → c ≠ '(' ∧ isIdFirst c = false := by
  obtain ⟨r0, st1, rfl, hr0, h1⟩ := kw_inv h
  obtain ⟨⟨l, h2, h3, h4⟩, h5⟩ := plus_inv htm hno h1
  exact ⟨⟨l, h2, h3, .cons (t := .word k) hr0 h4⟩, h5⟩

theorem bin_inv {tm1 tm2 : Rule K} (htm1 : TermConv tm1) (htm2 : TermConv tm2) {k : String}
    {f : PState K → Outcome (PState K)}
    {w w' : List Char} {st st' : PState K} (h : act (ifMust (kw k) (seq tm1 tm2)) f w st = .ok (some w', st')) :
    ∃ a b, RawOk a ∧ RawOk b ∧ Lexed (.word k :: (a.toks ++ b.toks)) w w' := by
  obtain ⟨r0, st1, rfl, hr0, h1⟩ := kw_inv h
  obtain ⟨w1, st2, h2, h3⟩ := seq_inv h1
  obtain ⟨a, ha, hla, -⟩ := htm1 _ _ _ _ h2
  obtain ⟨b, hb, hlb, -⟩ := htm2 _ _ _ _ h3
  exact ⟨a, b, ha, hb, .cons (t := .word k) hr0 (hla.append hlb)⟩

theorem TermConv.must {tm : Rule K} (htm : TermConv tm) : TermConv (must tm) :=
  fun w st w' st' h => htm w st w' st' (must_inv h)

/-- What an expression accepts. -/
theorem expression_inv {nd : Bool} {n : Nat} {tm : Rule K} (htm : TermConv tm) (hno : TermNone tm)
    {w w' : List Char} {st st' : PState K} (h : expression nd n tm w st = .ok (some w', st')) :
    ∃ i, ItemOk i ∧ Lexed i.toks w w' ∧
      ∀ o ts, i = .nary o ts → ∀ c cs, w' = c :: cs → c ≠ '(' ∧ isIdFirst c = false := by
  rw [expression_eq] at h
  rcases sor_inv h with h | ⟨_, -, h⟩
  · obtain ⟨o, nm, c, h1, h2⟩ := predicateTerm_inv h
    exact ⟨_, .cmp h1, h2, by simp⟩
  rcases sor_inv h with h | ⟨_, k0, h⟩
  · obtain ⟨r, h1, h2⟩ := un_inv htm h
    exact ⟨.un .not r, .un h1, h2, by simp⟩
  rcases sor_inv h with h | ⟨_, k1, h⟩
  · obtain ⟨⟨l, h1, h2, h3⟩, h4⟩ := nary_inv htm hno h
    exact ⟨.nary .and l, .nary h1 h2, h3, fun _ _ _ => h4⟩
  rcases sor_inv h with h | ⟨_, k2, h⟩
  · obtain ⟨⟨l, h1, h2, h3⟩, h4⟩ := nary_inv htm hno h
    exact ⟨.nary .or l, .nary h1 h2, h3, fun _ _ _ => h4⟩
  rcases sor_inv h with h | ⟨_, k3, h⟩
  · obtain ⟨a, b, h1, h2, h3⟩ := bin_inv htm htm h
    exact ⟨.bin .implies a b, .bin h1 h2, h3, by simp⟩
  rcases sor_inv h with h | ⟨_, k4, h⟩
  · obtain ⟨a, b, h1, h2, h3⟩ := bin_inv htm htm h
    exact ⟨.bin .iff a b, .bin h1 h2, h3, by simp⟩
  rcases sor_inv h with h | ⟨_, k5, h⟩
  · obtain ⟨a, b, h1, h2, h3⟩ := bin_inv htm htm h
    exact ⟨.bin .xor a b, .bin h1 h2, h3, by simp⟩
  rcases sor_inv h with h | ⟨_, k6, h⟩
  · obtain ⟨r, h1, h2⟩ := un_inv htm h
    exact ⟨.un .always r, .un h1, h2, by simp⟩
  rcases sor_inv h with h | ⟨_, k7, h⟩
  · obtain ⟨r, h1, h2⟩ := un_inv htm h
    exact ⟨.un .eventually r, .un h1, h2, by simp⟩
  rcases sor_inv h with h | ⟨_, k8, h⟩
  · obtain ⟨a, b, h1, h2, h3⟩ := bin_inv htm.must htm.must h
    exact ⟨.bin .untl a b, .bin h1 h2, h3, by simp⟩
  obtain ⟨r, h1, h2, h3⟩ := htm _ _ _ _ h
  refine ⟨.term r, .term h1 fun nm e hk => ?_, h2, by simp⟩
  obtain ⟨r0, rfl, hr0⟩ := h3 nm e
  have hf : ∀ k, nm = k → keyword k (nm.toList ++ r0) = none → False := by
    rintro k rfl hk
    rw [keyword_of hr0] at hk; cases hk
  simp only [opKeys, List.mem_cons, List.not_mem_nil, or_false] at hk
  rcases hk with e | e | e | e | e | e | e | e | e
  · exact hf _ e (kw_none k0)
  · exact hf _ e (kw_none k1)
  · exact hf _ e (kw_none k2)
  · exact hf _ e (kw_none k3)
  · exact hf _ e (kw_none k4)
  · exact hf _ e (kw_none k5)
  · exact hf _ e (kw_none k6)
  · exact hf _ e (kw_none k7)
  · exact hf _ e (kw_none k8)

/-- An expression that is not a predicate begins with a word or a parenthesis. -/
theorem item_first {j : Item} (hj : ItemOk j) (hc : j.isCmp = false) {ts : List Tok} {w w' : List Char}
    (h : Lexed (j.toks ++ ts) w w') : ∃ c cs, w = c :: cs ∧ (c = '(' ∨ isIdFirst c = true) := by
  have key : ∀ t tl, TokOk t → (t = .lp ∨ ∃ s, t = .word s) → Lexed (t :: tl) w w' →
      ∃ c cs, w = c :: cs ∧ (c = '(' ∨ isIdFirst c = true) := by
    rintro t tl ht (rfl | ⟨s, rfl⟩) h
    · cases h; exact ⟨_, _, rfl, .inl rfl⟩
    · obtain ⟨d, ds, hd, hd'⟩ := ht
      cases h
      exact ⟨d, _, by rw [Tok.chars, hd]; rfl, .inr hd'⟩
  have hok := item_toks_ok hj
  have raw : ∀ r : Raw, RawOk r → ∀ ts', Lexed (r.toks ++ ts') w w' →
      ∃ c cs, w = c :: cs ∧ (c = '(' ∨ isIdFirst c = true) := by
    intro r hr ts' h
    have hok := raw_toks_ok hr
    cases r with
    | tru => exact key _ _ (hok _ (by simp [Raw.toks])) (.inr ⟨_, rfl⟩) h
    | fls => exact key _ _ (hok _ (by simp [Raw.toks])) (.inr ⟨_, rfl⟩) h
    | ref n => exact key _ _ (hok _ (by simp [Raw.toks])) (.inr ⟨_, rfl⟩) h
    | paren is => exact key _ _ (hok _ (by simp [Raw.toks])) (.inl rfl) h
  cases j with
  | cmp o n c => cases hc
  | un o t => exact key _ _ (hok _ (by simp [Item.toks])) (.inr ⟨_, rfl⟩) h
  | nary o t => exact key _ _ (hok _ (by simp [Item.toks])) (.inr ⟨_, rfl⟩) h
  | bin o a b => exact key _ _ (hok _ (by simp [Item.toks])) (.inr ⟨_, rfl⟩) h
  | term t =>
    cases hj with
    | term ht _ => exact raw t ht ts (by simpa [Item.toks] using h)

theorem rp_inv {w w' : List Char} {st st' : PState K} (h : lex (sym ')') w st = .ok (some w', st')) :
    Lexed [.rp] w w' := by
  obtain ⟨r, rfl, rfl⟩ := sym_inv (lex_inv h).1
  exact .cons (t := .rp) trivial .nil

/-- What `until` accepts, for expressions. -/
theorem items_inv {nd : Bool} {n : Nat} {tm : Rule K} (htm : TermConv tm) (hno : TermNone tm) : ∀ (m : Nat)
    {w w' : List Char} {st st' : PState K},
    until_ (lex (sym ')')) (expression nd n tm) m w st = .ok (some w', st') →
    ∃ is, ItemsOk is ∧ Lexed (Item.toksAll is ++ [.rp]) w w'
  | 0, _, _, _, _, h => by cases h
  | m + 1, w, w', st, st', h => by
    unfold until_ at h
    obtain ⟨⟨o, st1⟩, h1, h2⟩ := Outcome.bind_eq_ok.1 h
    cases o with
    | some w1 =>
      cases h2
      exact ⟨[], .nil, rp_inv h1⟩
    | none =>
      obtain ⟨⟨o, st2⟩, h3, h4⟩ := Outcome.bind_eq_ok.1 h2
      cases o with
      | none => cases h4
      | some w1 =>
        obtain ⟨i, hi, hl, hnx⟩ := expression_inv htm hno h3
        obtain ⟨is, his, hl'⟩ := items_inv htm hno m h4
        refine ⟨i :: is, .cons hi his ?_, ?_⟩
        · rintro o ts e j js rfl
          cases hj : j.isCmp with
          | true => rfl
          | false =>
            exfalso
            have hjo : ItemOk j := by cases his; assumption
            obtain ⟨c, cs, e1, e2⟩ := item_first hjo hj (ts := Item.toksAll js ++ [.rp])
              (by simpa [Item.toksAll] using hl')
            have := hnx o ts e c cs e1
            rcases e2 with e2 | e2
            · exact this.1 e2
            · rw [this.2] at e2; cases e2
        · rw [Item.toksAll, List.append_assoc]
          exact hl.append hl'

theorem booleanLiteral_inv {w w' : List Char} {st st' : PState K} (h : booleanLiteral w st = .ok (some w', st')) :
    ∃ r, RawOk r ∧ Lexed r.toks w w' ∧ ∀ n, r ≠ .ref n := by
  obtain ⟨st1, h1, -⟩ := act_inv h
  rcases sor_inv h1 with h2 | ⟨_, -, h2⟩
  · obtain ⟨st2, h3, -⟩ := act_inv h2
    obtain ⟨r, rfl, hr, rfl⟩ := keyword_inv (lex_inv h3).1
    exact ⟨.tru, .tru, .cons (t := .word "true") hr .nil, by simp⟩
  · obtain ⟨st2, h3, -⟩ := act_inv h2
    obtain ⟨r, rfl, hr, rfl⟩ := keyword_inv (lex_inv h3).1
    exact ⟨.fls, .fls, .cons (t := .word "false") hr .nil, by simp⟩

theorem booleanLiteral_none {w : List Char} {st st' : PState K} (h : booleanLiteral w st = .ok (none, st')) :
    keyword "true" w = none ∧ keyword "false" w = none := by
  obtain ⟨st1, h1, h2⟩ := sor_none (act_none h)
  exact ⟨(lex_inv (act_none h1)).1, (lex_inv (act_none h2)).1⟩

theorem onNewState_inv {r : Rule K} {w : List Char} {o : Option (List Char)} {st st' : PState K}
    (h : onNewState r w st = .ok (o, st')) : ∃ st0 st1, r w st0 = .ok (o, st1) := by
  unfold onNewState at h
  obtain ⟨⟨o', st1⟩, h1, h2⟩ := Outcome.bind_eq_ok.1 h
  cases h2
  exact ⟨_, _, h1⟩

theorem term_none (nd : Bool) : ∀ n, TermNone (K := K) (term nd n)
  | 0, _, _, _, h => by cases h
  | n + 1, w, st, st', h => by
    unfold term at h
    obtain ⟨st0, st1, h⟩ := onNewState_inv h
    obtain ⟨st2, h1, h2⟩ := sor_none (act_none h)
    obtain ⟨st3, h3, h4⟩ := sor_none h2
    obtain ⟨st4, h5⟩ := ifMust_none h1
    have h6 := (lex_inv h5).1
    intro c cs e
    refine ⟨?_, identifier_none h4 c cs e⟩
    rintro rfl
    rw [e, sym, if_pos rfl] at h6
    cases h6

/-- What a term accepts. -/
theorem term_conv (nd : Bool) : ∀ n, TermConv (K := K) (term nd n)
  | 0, _, _, _, _, h => by cases h
  | n + 1, w, st, w', st', h => by
    unfold term at h
    obtain ⟨st0, st1, h⟩ := onNewState_inv h
    obtain ⟨st2, h1, -⟩ := act_inv h
    rcases sor_inv h1 with h2 | ⟨st3, -, h2⟩
    · obtain ⟨w1, st4, h3, h4⟩ := ifMust_inv h2
      obtain ⟨r, rfl, rfl⟩ := sym_inv (lex_inv h3).1
      obtain ⟨is, his, hl⟩ := items_inv (term_conv nd n) (term_none nd n) n h4
      exact ⟨.paren is, .paren his, .cons (t := .lp) trivial hl, by simp⟩
    · rcases sor_inv h2 with h3 | ⟨st4, h3, h4⟩
      · obtain ⟨r, hr, hl, hne⟩ := booleanLiteral_inv h3
        exact ⟨r, hr, hl, fun n e => absurd e (hne n)⟩
      · obtain ⟨nm, r, rfl, hr, hn, rfl⟩ := identifier_inv h4
        obtain ⟨ht, hf⟩ := booleanLiteral_none h3
        refine ⟨.ref nm, .ref hn ?_ ?_, .one hr, ?_⟩
        · rintro rfl
          rw [show (Tok.word "true").chars = "true".toList from rfl, keyword_of hr] at ht; cases ht
        · rintro rfl
          rw [show (Tok.word "false").chars = "false".toList from rfl, keyword_of hr] at hf; cases hf
        · intro m e
          cases e
          exact ⟨r, rfl, hr⟩

theorem body_inv {nd : Bool} {n : Nat} {k : String} {f : PState K → Outcome (PState K)} {w w' : List Char}
    {st st' : PState K}
    (h : act (ifMust (kw k) (seq (must identifier) (must (term nd n)))) f w st = .ok (some w', st')) :
    ∃ nm r, IsName nm ∧ RawOk r ∧ Lexed (.word k :: .word nm :: r.toks) w w' := by
  obtain ⟨r0, st1, rfl, hr0, h1⟩ := kw_inv h
  obtain ⟨w1, st2, h2, h3⟩ := seq_inv h1
  obtain ⟨nm, r1, e, hr1, hn, rfl⟩ := identifier_inv (must_inv h2)
  obtain ⟨r, hr, hl, -⟩ := term_conv nd n _ _ _ _ (must_inv h3)
  refine ⟨nm, r, hn, hr, .cons (t := .word k) hr0 ?_⟩
  rw [e]
  exact .cons hr1 hl

theorem cmd_inv {nd : Bool} {n : Nat} {w w' : List Char} {st st' : PState K}
    (h : sor (assertion nd n) (defineFormula nd n) w st = .ok (some w', st')) :
    ∃ c, RawCmdOk c ∧ Lexed c.toks w w' := by
  rcases sor_inv h with h | ⟨_, -, h⟩
  · obtain ⟨nm, r, h1, h2, h3⟩ := body_inv h
    exact ⟨.assert nm r, .assert h1 h2, h3⟩
  · obtain ⟨nm, r, h1, h2, h3⟩ := body_inv h
    exact ⟨.define nm r, .define h1 h2, h3⟩

theorem cmds_inv {nd : Bool} {n : Nat} : ∀ (m : Nat) {w w' : List Char} {st st' : PState K},
    until_ (lex (sym ')')) (must (sor (assertion nd n) (defineFormula nd n))) m w st = .ok (some w', st') →
    ∃ cs : List RawCmd, (∀ c ∈ cs, RawCmdOk c) ∧ Lexed (cs.flatMap RawCmd.toks ++ [.rp]) w w'
  | 0, _, _, _, _, h => by cases h
  | m + 1, w, w', st, st', h => by
    unfold until_ at h
    obtain ⟨⟨o, st1⟩, h1, h2⟩ := Outcome.bind_eq_ok.1 h
    cases o with
    | some w1 =>
      cases h2
      exact ⟨[], by simp, rp_inv h1⟩
    | none =>
      obtain ⟨⟨o, st2⟩, h3, h4⟩ := Outcome.bind_eq_ok.1 h2
      cases o with
      | none => cases h4
      | some w1 =>
        obtain ⟨c, hc, hl⟩ := cmd_inv (must_inv h3)
        obtain ⟨cs, hcs, hl'⟩ := cmds_inv m h4
        refine ⟨c :: cs, List.forall_mem_cons.2 ⟨hc, hcs⟩, ?_⟩
        rw [List.flatMap_cons, List.append_assoc]
        exact hl.append hl'

theorem group_inv {nd : Bool} {n : Nat} {w w' : List Char} {st st' : PState K}
    (h : anyCommand nd n w st = .ok (some w', st')) :
    ∃ cs : List RawCmd, (∀ c ∈ cs, RawCmdOk c) ∧ Lexed (groupToks cs) w w' := by
  obtain ⟨w1, st1, h1, h2⟩ := ifMust_inv h
  obtain ⟨r, rfl, rfl⟩ := sym_inv (lex_inv h1).1
  obtain ⟨cs, hcs, hl⟩ := cmds_inv n h2
  exact ⟨cs, hcs, .cons (t := .lp) trivial hl⟩

theorem Lexed.skip_eq {ts : List Tok} {w w' : List Char} (h : Lexed ts w w') (hne : ts ≠ []) : skip w' = w' := by
  induction h with
  | nil => exact absurd rfl hne
  | @cons t ts r w' h1 h2 ih =>
    cases ts with
    | nil => generalize hs : skip r = s at h2; cases h2; rw [← hs, skip_skip]
    | cons t' ts => exact ih (by simp)

theorem groups_inv {nd : Bool} {n : Nat} : ∀ (m : Nat) {w w' : List Char} {st st' : PState K},
    until_ eof (seq (anyCommand nd n) (lex fun inp => some (skip inp))) m w st = .ok (some w', st') →
    ∃ gs : List (List RawCmd), (∀ cs ∈ gs, ∀ c ∈ cs, RawCmdOk c) ∧ Lexed (gs.flatMap groupToks) w []
  | 0, _, _, _, _, h => by cases h
  | m + 1, w, w', st, st', h => by
    unfold until_ at h
    obtain ⟨⟨o, st1⟩, h1, h2⟩ := Outcome.bind_eq_ok.1 h
    cases o with
    | some w1 =>
      have := (lex_inv h1).1
      cases w with
      | nil => exact ⟨[], by simp, .nil⟩
      | cons c cs => simp at this
    | none =>
      obtain ⟨⟨o, st2⟩, h3, h4⟩ := Outcome.bind_eq_ok.1 h2
      cases o with
      | none => cases h4
      | some w1 =>
        obtain ⟨w2, st3, h5, h6⟩ := seq_inv h3
        have h7 := (lex_inv h6).1
        cases h7
        obtain ⟨cs, hcs, hl⟩ := group_inv h5
        rw [hl.skip_eq (by simp [groupToks])] at h4
        obtain ⟨gs, hgs, hl'⟩ := groups_inv m h4
        refine ⟨cs :: gs, List.forall_mem_cons.2 ⟨hcs, hgs⟩, ?_⟩
        rw [List.flatMap_cons]
        exact hl.append hl'

/-- Every text that the parser accepts is a text of the accepted language. -/
theorem fromString_accepts {nd : Bool} {n : Nat} {w : List Char} {sp : Specification K}
    (h : fromString nd n w = .ok sp) :
    ∃ gs : List (List RawCmd), (∀ cs ∈ gs, ∀ c ∈ cs, RawCmdOk c) ∧ RawText gs w := by
  unfold fromString at h
  obtain ⟨⟨o, st⟩, h1, h2⟩ := Outcome.bind_eq_ok.1 h
  cases o with
  | none => cases h2
  | some w' =>
    obtain ⟨w1, st1, h3, h4⟩ := seq_inv (must_inv h1)
    have h5 := (lex_inv h3).1
    cases h5
    obtain ⟨gs, hgs, hl⟩ := groups_inv n h4
    have hok : ∀ x ∈ gs.flatMap groupToks, TokOk x := fun x hx => by
      obtain ⟨c, hc, hx⟩ := List.mem_flatMap.1 hx
      exact group_toks_ok (hgs c hc) x hx
    refine ⟨gs, hgs, ?_⟩
    rcases skip_split w with ⟨g, hg, he⟩ | ⟨he, hf⟩
    · rw [he]
      exact .mk hg (lexed_txt hl hok)
    · refine .empty hf ?_
      rw [he] at hl
      cases gs with
      | nil => rfl
      | cons cs gs =>
        generalize hv : ([] : List Char) = v at hl
        simp only [List.flatMap_cons, groupToks, List.cons_append] at hl
        cases hl with
        | cons _ _ => simp [Tok.chars] at hv

end

end Rule
end Verif
