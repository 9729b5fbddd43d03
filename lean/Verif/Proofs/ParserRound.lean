import Verif.Proofs.Lexing

/-!
# The parser on texts of syntax trees
-/

set_option linter.unusedSectionVars false

namespace Verif
open Spec
open _root_.Verif.Lex

/-! ## Texts of tokens -/

/-- A word begins with a letter or an underscore. -/
def TokOk : Tok → Prop
  | .word s => ∃ c cs, s.toList = c :: cs ∧ isIdFirst c = true
  | _ => True

/-- Text of valid tokens. -/
def TX (ts : List Tok) (w : List Char) : Prop := Txt ts w ∧ ∀ t ∈ ts, TokOk t

theorem isIdFirst_start {c : Char} (h : isIdFirst c = true) : isSpace c = false ∧ c ≠ ';' := by
  have h1 := isIdOther_not_stop (isIdFirst_other h)
  simp only [stopChar, Bool.or_eq_false_iff] at h1
  refine ⟨h1.1.1.1.1.1, fun e => ?_⟩
  have h2 := h1.1.1.1.1.2
  simp [e] at h2

theorem chars_ne (t : Tok) (h : TokOk t) : ∃ c cs, t.chars = c :: cs ∧ isSpace c = false ∧ c ≠ ';' := by
  cases t with
  | lp => exact ⟨_, _, rfl, by decide, by decide⟩
  | rp => exact ⟨_, _, rfl, by decide, by decide⟩
  | word s =>
    obtain ⟨c, cs, h1, h2⟩ := h
    exact ⟨c, cs, h1, isIdFirst_start h2⟩
  | op o => cases o <;> exact ⟨_, _, rfl, by decide, by decide⟩
  | num l =>
    have hd : ∀ d : Fin 10, isSpace (digitChar d) = false ∧ digitChar d ≠ ';' := by decide
    cases l with
    | int n => exact ⟨_, _, rfl, hd _⟩
    | dec i f e => exact ⟨_, _, rfl, hd _⟩
    | sci i dot e => exact ⟨_, _, rfl, hd _⟩

theorem TX.start {ts : List Tok} {w : List Char} (h : TX ts w) : Start w := by
  obtain ⟨h, ho⟩ := h
  cases h with
  | nil => intro c cs e; cases e
  | @last t g hg =>
    obtain ⟨c, cs, h1, h2⟩ := chars_ne t (ho t (by simp))
    intro d ds e
    rw [h1] at e; cases e; exact h2
  | @cons t t' ts' g w' hg hn htx =>
    obtain ⟨c, cs, h1, h2⟩ := chars_ne t (ho t (by simp))
    intro d ds e
    rw [h1] at e; cases e; exact h2

/-- The text goes on with something that is not part of a comparison symbol. -/
def OpStop (r : List Char) : Prop := ∀ c cs, r = c :: cs → c ≠ '<' ∧ c ≠ '>' ∧ c ≠ '='

/-- `w` begins with the token `t`; after its layout the rest is `w'`, a text of `ts`. -/
structure Next (t : Tok) (ts : List Tok) (w w' : List Char) : Prop where
  tx : TX ts w'
  ok : TokOk t
  lt : w'.length < w.length
  ex : ∃ r, w = t.chars ++ r ∧ skip r = w' ∧ ((∀ s, t = .word s → Stop r) ∧ ∀ l, t = .num l → NumStop l r) ∧
    ∀ t' ts', ts = t' :: ts' → t'.wordy = true → OpStop r

theorem wordy_opStop (t : Tok) (h : TokOk t) (hw : t.wordy = true) (r : List Char) : OpStop (t.chars ++ r) := by
  intro c cs e
  cases t with
  | word s =>
    obtain ⟨d, ds, h1, h2⟩ := h
    simp only [Tok.chars] at e
    rw [h1] at e
    cases e
    refine ⟨?_, ?_, ?_⟩ <;> rintro rfl <;> revert h2 <;> decide
  | num l =>
    have hd : ∀ d : Fin 10, digitChar d ≠ '<' ∧ digitChar d ≠ '>' ∧ digitChar d ≠ '=' := by decide
    cases l <;> cases e <;> exact hd _
  | _ => cases hw

theorem unwordy_stop (t : Tok) (hw : t.wordy = false) (r : List Char) : Stop (t.chars ++ r) := by
  intro c cs e
  cases t with
  | lp => cases e; rfl
  | rp => cases e; rfl
  | op o => cases o <;> cases e <;> rfl
  | _ => cases hw

theorem stop_opStop {g : List Char} (hlay : ∀ c cs, g = c :: cs → isSpace c = true ∨ c = ';') :
    OpStop g := by
  intro c cs e
  rcases hlay c cs e with h1 | rfl
  · refine ⟨?_, ?_, ?_⟩ <;> rintro rfl <;> revert h1 <;> decide
  · decide

theorem layout_head {g : List Char} (hg : Layout g) : ∀ c cs, g = c :: cs → isSpace c = true ∨ c = ';' := by
  intro c cs e
  cases hg with
  | nil => cases e
  | space hc _ => cases e; exact .inl ((isSpace_iff _).2 hc)
  | comment _ _ => cases e; exact .inr rfl

theorem first_noDigit {c : Char} (h : isIdFirst c = true) : c.isDigit = false := by
  by_contra hdig
  rw [Bool.not_eq_false] at hdig
  simp only [isIdFirst, Char.isAlpha, Char.isUpper, Char.isLower, Char.isDigit, Bool.or_eq_true,
    Bool.and_eq_true, decide_eq_true_eq, beq_iff_eq] at h hdig
  have e9 : '9'.toNat = 57 := rfl
  have eA : 'A'.toNat = 65 := rfl
  have ea : 'a'.toNat = 97 := rfl
  rcases h with (hi | hi) | rfl
  · have h1 := hi.1; have h2 := hdig.2
    simp only [ge_iff_le, UInt32.le_iff_toNat_le] at h1 h2
    change 'A'.toNat ≤ c.toNat at h1
    change c.toNat ≤ '9'.toNat at h2
    omega
  · have h1 := hi.1; have h2 := hdig.2
    simp only [ge_iff_le, UInt32.le_iff_toNat_le] at h1 h2
    change 'a'.toNat ≤ c.toNat at h1
    change c.toNat ≤ '9'.toNat at h2
    omega
  · revert hdig; decide

/-- A numeral directly followed by a token. -/
theorem apart_num {l : NumLit} {t : Tok} (h : Tok.apart (.num l) t = true) (ht : TokOk t) (u : List Char) :
    NumStop l (t.chars ++ u) := by
  cases t with
  | word s =>
    obtain ⟨c, cs, h1, h2⟩ := ht
    rw [Tok.chars, h1, List.cons_append]
    refine ⟨noDigit_cons (first_noDigit h2), ?_, ?_⟩
    · intro ds e
      cases e
      revert h2; decide
    · intro hl d ds e
      cases e
      simp only [Tok.apart, hl, startsExp, h1, Bool.false_or, Bool.not_eq_true', Bool.or_eq_false_iff,
        beq_eq_false_iff_ne] at h
      exact h
  | num l => simp [Tok.apart] at h
  | lp => exact (unwordy_stop .lp rfl u).num l
  | rp => exact (unwordy_stop .rp rfl u).num l
  | op o => exact (unwordy_stop (.op o) rfl u).num l

theorem next {t : Tok} {ts : List Tok} {w : List Char} (h : TX (t :: ts) w) : ∃ w', Next t ts w w' := by
  obtain ⟨h, ho⟩ := h
  have hpos : 0 < t.chars.length := by
    obtain ⟨c, cs, h1, -⟩ := chars_ne t (ho t (by simp))
    rw [h1]; simp
  cases h with
  | @last _ g hg =>
    refine ⟨[], ⟨.nil, by simp⟩, ho t (by simp), by simp; omega, g, rfl, skip_final hg,
      ⟨fun _ _ => final_stop hg, fun l _ => (final_stop hg).num l⟩, fun t' ts' e => by cases e⟩
  | @cons _ t' ts' g w' hg hn htx =>
    have htx' : TX (t' :: ts') w' := ⟨htx, fun x hx => ho x (by simp at hx ⊢; tauto)⟩
    have hw' : ∃ u, w' = t'.chars ++ u := by
      cases htx with
      | last _ => exact ⟨_, rfl⟩
      | cons _ _ _ => exact ⟨_, rfl⟩
    refine ⟨w', htx', ho t (by simp), by simp; omega, g ++ w', rfl, skip_layout hg htx'.start, ?_, ?_⟩
    · obtain ⟨u, rfl⟩ := hw'
      constructor
      · rintro s rfl
        refine (layout_stop hg).append fun hg0 => unwordy_stop t' ?_ u
        have := hn hg0
        cases t' <;> first | rfl | simp [Tok.apart] at this
      · rintro l rfl
        cases g with
        | nil => exact apart_num (hn rfl) (ho t' (by simp)) u
        | cons c cs =>
          refine Stop.num ?_ l
          intro d ds e
          cases e
          exact layout_stop hg _ _ rfl
    · intro t'' ts'' e hw
      cases e
      obtain ⟨u, rfl⟩ := hw'
      cases g with
      | nil => exact wordy_opStop t' (ho t' (by simp)) hw u
      | cons c cs =>
        intro d ds e
        cases e
        exact stop_opStop (layout_head hg) _ _ rfl

theorem TX.nil_eq {w : List Char} (h : TX [] w) : w = [] := by
  obtain ⟨h, -⟩ := h
  cases h; rfl

section lexing
variable {t : Tok} {ts : List Tok} {w w' : List Char}

theorem Next.lp (h : Next .lp ts w w') : sym '(' w = some w' := by
  obtain ⟨r, rfl, hr, -⟩ := h.ex
  simp [Tok.chars, sym, hr]

theorem Next.rp (h : Next .rp ts w w') : sym ')' w = some w' := by
  obtain ⟨r, rfl, hr, -⟩ := h.ex
  simp [Tok.chars, sym, hr]

/-- The first character of a token. -/
theorem Next.head (h : Next t ts w w') : ∃ c cs, w = c :: cs ∧ ∃ ds, t.chars = c :: ds := by
  obtain ⟨r, rfl, -⟩ := h.ex
  obtain ⟨c, cs, h1, -⟩ := chars_ne t h.ok
  exact ⟨c, cs ++ r, by rw [h1]; rfl, cs, h1⟩

theorem head_word {s : String} (h : TokOk (.word s)) {c : Char} {ds : List Char}
    (e : (Tok.word s).chars = c :: ds) : isIdFirst c = true := by
  obtain ⟨d, cs, h1, h2⟩ := h
  rw [Tok.chars, h1] at e
  cases e; exact h2

theorem head_num {l : NumLit} {c : Char} {ds : List Char} (e : (Tok.num l).chars = c :: ds) :
    ∃ d, c = digitChar d := by
  cases l <;> cases e <;> exact ⟨_, rfl⟩

theorem Next.not_rp (h : Next t ts w w') (ht : t ≠ .rp) : sym ')' w = none := by
  obtain ⟨c, cs, rfl, ds, hc⟩ := h.head
  rw [sym, if_neg]
  rintro rfl
  cases t with
  | lp => simp [Tok.chars] at hc
  | rp => exact ht rfl
  | word s => exact absurd (head_word h.ok hc) (by decide)
  | op o => cases o <;> simp [Tok.chars] at hc
  | num l =>
    obtain ⟨d, hd⟩ := head_num hc
    revert d; decide

theorem Next.not_lp (h : Next t ts w w') (ht : t ≠ .lp) : sym '(' w = none := by
  obtain ⟨c, cs, rfl, ds, hc⟩ := h.head
  rw [sym, if_neg]
  rintro rfl
  cases t with
  | lp => exact ht rfl
  | rp => simp [Tok.chars] at hc
  | word s => exact absurd (head_word h.ok hc) (by decide)
  | op o => cases o <;> simp [Tok.chars] at hc
  | num l =>
    obtain ⟨d, hd⟩ := head_num hc
    revert d; decide

theorem Next.kw {k : String} (h : Next (.word k) ts w w') : keyword k w = some w' := by
  obtain ⟨r, rfl, hr, ⟨hs, hs'⟩, -⟩ := h.ex
  rw [Tok.chars, keyword_eq (hs _ rfl), hr]

theorem Next.kw_ne {k key : String} (h : Next (.word k) ts w w') (hk : ∀ d ∈ k.toList, isIdOther d = true)
    (hne : k ≠ key) (hkey : ∀ d ∈ key.toList, stopChar d = false) : keyword key w = none := by
  obtain ⟨r, rfl, hr, ⟨hs, hs'⟩, -⟩ := h.ex
  exact keyword_ne hk hkey hne (hs _ rfl)

theorem Next.kw_not (h : Next t ts w w') (ht : ∀ s, t ≠ .word s) {key : String} {k : Char} {ks : List Char}
    (hkey : key.toList = k :: ks) (hk : isIdFirst k = true) : keyword key w = none := by
  obtain ⟨c, cs, rfl, ds, hc⟩ := h.head
  refine keyword_cons_ne hkey ?_
  rintro rfl
  cases t with
  | lp => cases hc; revert hk; decide
  | rp => cases hc; revert hk; decide
  | word s => exact ht s rfl
  | op o => cases o <;> cases hc <;> revert hk <;> decide
  | num l =>
    obtain ⟨d, rfl⟩ := head_num hc
    have : ∀ d : Fin 10, ¬isIdFirst (digitChar d) = true := by decide
    exact this d hk

theorem Next.ident {k : String} (h : Next (.word k) ts w w') (hk : IsName k) :
    ∃ r, Lex.ident w = some (k.toList, r) ∧ endOfWord r = some w' := by
  obtain ⟨r, rfl, hr, ⟨hs, hs'⟩, -⟩ := h.ex
  exact ⟨r, ident_name hk (hs _ rfl), by rw [endOfWord_stop (hs _ rfl), hr]⟩

theorem Next.ident_not (h : Next t ts w w') (ht : ∀ s, t ≠ .word s) : Lex.ident w = none := by
  obtain ⟨c, cs, rfl, ds, hc⟩ := h.head
  rw [Lex.ident, if_neg]
  intro hk
  cases t with
  | lp => cases hc; revert hk; decide
  | rp => cases hc; revert hk; decide
  | word s => exact ht s rfl
  | op o => cases o <;> cases hc <;> revert hk <;> decide
  | num l =>
    obtain ⟨d, rfl⟩ := head_num hc
    have : ∀ d : Fin 10, ¬isIdFirst (digitChar d) = true := by decide
    exact this d hk

/-- The first character is not that of a comparison symbol. -/
theorem Next.no_op (h : Next t ts w w') (ht : ∀ o, t ≠ .op o) : ∀ c cs, w = c :: cs → c ≠ '<' ∧ c ≠ '>' := by
  obtain ⟨c, cs, rfl, ds, hc⟩ := h.head
  intro c' cs' e
  cases e
  cases t with
  | lp => cases hc; decide
  | rp => cases hc; decide
  | word s =>
    have := head_word h.ok hc
    constructor <;> rintro rfl <;> revert this <;> decide
  | op o => exact absurd rfl (ht o)
  | num l =>
    obtain ⟨d, rfl⟩ := head_num hc
    have : ∀ d : Fin 10, digitChar d ≠ '<' ∧ digitChar d ≠ '>' := by decide
    exact this d

end lexing

/-! ## Running rules -/

namespace Rule
variable {K : Type}

theorem seq_run {α : Type} {r1 r2 : Rule K} {w w1 : List Char} {st : PState K} {o : Outcome α}
    {f : α → PState K} (h : r1 w st = o.map' fun a => (some w1, f a)) :
    seq r1 r2 w st = o >>= fun a => r2 w1 (f a) := by
  unfold seq; rw [h]; cases o <;> rfl

theorem must_run {α : Type} {r : Rule K} {w w1 : List Char} {st : PState K} {o : Outcome α}
    {f : α → PState K} (h : r w st = o.map' fun a => (some w1, f a)) :
    must r w st = o.map' fun a => (some w1, f a) := by
  unfold must; rw [h]; cases o <;> rfl

theorem sor_run {α : Type} {r1 r2 : Rule K} {w w1 : List Char} {st : PState K} {o : Outcome α}
    {f : α → PState K} (h : r1 w st = o.map' fun a => (some w1, f a)) :
    sor r1 r2 w st = o.map' fun a => (some w1, f a) := by
  unfold sor; rw [h]; cases o <;> rfl

theorem sor_skip {r1 r2 : Rule K} {w : List Char} {st st' : PState K} (h : r1 w st = .ok (none, st')) :
    sor r1 r2 w st = r2 w st' := by
  unfold sor; rw [h]; rfl

theorem act_run {α : Type} {r : Rule K} {w w1 : List Char} {st : PState K} {o : Outcome α}
    {f : α → PState K} {g : PState K → Outcome (PState K)} (h : r w st = o.map' fun a => (some w1, f a)) :
    act r g w st = (o >>= fun a => g (f a)).map' fun s => (some w1, s) := by
  unfold act; rw [h]
  cases o with
  | ok a =>
    simp only [Outcome.map', Outcome.bind_ok]
    cases g (f a) <;> rfl
  | _ => rfl

theorem act_skip {r : Rule K} {w : List Char} {st st' : PState K} {g : PState K → Outcome (PState K)}
    (h : r w st = .ok (none, st')) : act r g w st = .ok (none, st') := by
  unfold act; rw [h]; rfl

theorem seq_skip {r1 r2 : Rule K} {w : List Char} {st st' : PState K} (h : r1 w st = .ok (none, st')) :
    seq r1 r2 w st = .ok (none, st') := by
  unfold seq; rw [h]; rfl

theorem lex_some {f : List Char → Option (List Char)} {w w1 : List Char} (st : PState K) (h : f w = some w1) :
    lex f w st = (Outcome.ok ()).map' fun _ => (some w1, st) := by
  unfold lex; rw [h]; rfl

theorem lex_none {f : List Char → Option (List Char)} {w : List Char} (st : PState K) (h : f w = none) :
    lex f w st = .ok (none, st) := by
  unfold lex; rw [h]

theorem ifMust_skip {r1 r2 : Rule K} {w : List Char} {st st' : PState K} (h : r1 w st = .ok (none, st')) :
    ifMust r1 r2 w st = .ok (none, st') := seq_skip h

theorem until_stop {c r : Rule K} {n : Nat} {w w1 : List Char} {st st' : PState K}
    (h : c w st = .ok (some w1, st')) : until_ c r (n + 1) w st = .ok (some w1, st') := by
  show (c w st >>= _) = _
  rw [h]; rfl

theorem until_step {α : Type} {c r : Rule K} {n : Nat} {w w1 : List Char} {st st' : PState K} {o : Outcome α}
    {f : α → PState K} (h : c w st = .ok (none, st')) (hr : r w st' = o.map' fun a => (some w1, f a)) :
    until_ c r (n + 1) w st = o >>= fun a => until_ c r n w1 (f a) := by
  show (c w st >>= _) = _
  rw [h, Outcome.bind_ok]
  simp only
  rw [hr]; cases o <;> rfl

theorem star_stop {r : Rule K} {n : Nat} {w : List Char} {st st' : PState K} (h : r w st = .ok (none, st')) :
    star r (n + 1) w st = .ok (some w, st') := by
  show (r w st >>= _) = _
  rw [h]; rfl

theorem star_step {α : Type} {r : Rule K} {n : Nat} {w w1 : List Char} {st : PState K} {o : Outcome α}
    {f : α → PState K} (hr : r w st = o.map' fun a => (some w1, f a)) :
    star r (n + 1) w st = o >>= fun a => star r n w1 (f a) := by
  show (r w st >>= _) = _
  rw [hr]; cases o <;> rfl

/-- A keyword that is not there. -/
theorem kw_skip {key : String} {r : Rule K} {g : PState K → Outcome (PState K)} {w : List Char}
    {st : PState K} (h : keyword key w = none) : act (ifMust (kw key) r) g w st = .ok (none, st) :=
  act_skip (seq_skip (lex_none st h))

/-- A keyword, what follows it, and the action. -/
theorem kw_run {α : Type} {key : String} {r : Rule K} {g : PState K → Outcome (PState K)}
    {w w1 w2 : List Char} {st : PState K} {o : Outcome α} {f : α → PState K} (h : keyword key w = some w1)
    (hr : r w1 st = o.map' fun a => (some w2, f a)) :
    act (ifMust (kw key) r) g w st = (o >>= fun a => g (f a)).map' fun s => (some w2, s) := by
  refine act_run ?_
  unfold ifMust kw
  rw [seq_run (lex_some st h)]
  exact must_run hr

theorem map'_map' {α β γ : Type} (o : Outcome α) (f : α → β) (g : β → γ) :
    (o.map' f).map' g = o.map' fun a => g (f a) := by cases o <;> rfl

theorem bind_map' {α β γ : Type} (o : Outcome α) (f : α → Outcome β) (g : β → γ) :
    (o >>= f).map' g = o >>= fun a => (f a).map' g := by cases o <;> rfl

theorem map'_bind {α β γ : Type} (o : Outcome α) (f : α → β) (g : β → Outcome γ) :
    (o.map' f) >>= g = o >>= fun a => g (f a) := by cases o <;> rfl

theorem map'_eq_bind {α β : Type} (o : Outcome α) (f : α → β) : o.map' f = o >>= fun a => .ok (f a) := by
  cases o <;> rfl

section
variable [Field K] [LinearOrder K] [IsStrictOrderedRing K] [Arith K] [Strtod K]

/-! ### Predicates -/

theorem comparisonSymbol_skip {w : List Char} (st : PState K) (h : ∀ c cs, w = c :: cs → c ≠ '<' ∧ c ≠ '>') :
    comparisonSymbol w st = .ok (none, st) := by
  have h1 : ∀ c, c = '<' ∨ c = '>' → strictSym c w = none ∧ weakSym c w = none := by
    intro c hc
    cases w with
    | nil => rcases hc with rfl | rfl <;> exact ⟨rfl, rfl⟩
    | cons d ds =>
      have hd : d ≠ c := by
        rcases hc with rfl | rfl
        · exact (h d ds rfl).1
        · exact (h d ds rfl).2
      constructor
      · rw [strictSym.eq_def]; simp [hd]
      · simp [weakSym, str, List.isPrefixOf, hd.symm]
  have hl := h1 '<' (.inl rfl)
  have hg := h1 '>' (.inr rfl)
  unfold comparisonSymbol cmpSym
  rw [sor_skip (act_skip (lex_none st hl.1)), sor_skip (act_skip (lex_none st hg.1)),
    sor_skip (act_skip (lex_none st hl.2)), act_skip (lex_none st hg.2)]

theorem predicateTerm_skip {w : List Char} (st : PState K) (h : ∀ c cs, w = c :: cs → c ≠ '<' ∧ c ≠ '>') :
    predicateTerm w st = .ok (none, st) :=
  act_skip (seq_skip (comparisonSymbol_skip st h))

theorem strictSym_stop {c : Char} {r : List Char} (hc : c = '<' ∨ c = '>') (h : OpStop r) :
    strictSym c (c :: r) = some (skip r) := by
  rw [strictSym.eq_def]
  simp only [if_true]
  cases r with
  | nil => simp [skip]
  | cons d ds =>
    obtain ⟨h1, h2, h3⟩ := h d ds rfl
    rcases hc with rfl | rfl <;> simp [h1, h2, h3]

theorem comparisonSymbol_run {o : ComparisonOp} {t : Tok} {ts : List Tok} {w w' : List Char} (st : PState K)
    (ht : t.wordy = true) (h : Next (.op o) (t :: ts) w w') :
    comparisonSymbol w st =
      .ok (some w', { st with s := { st.s with comparison := some o } }) := by
  obtain ⟨r, rfl, hr, -, hop⟩ := h.ex
  have hop := hop t ts rfl ht
  unfold comparisonSymbol cmpSym
  cases o with
  | LT =>
    rw [Tok.chars, List.singleton_append]
    rw [sor_run (act_run (lex_some st (strictSym_stop (.inl rfl) hop)))]
    simp [Outcome.map', hr]
  | GT =>
    rw [Tok.chars, List.singleton_append]
    rw [sor_skip (act_skip (lex_none st (by simp [strictSym]))),
      sor_run (act_run (lex_some st (strictSym_stop (.inr rfl) hop)))]
    simp [Outcome.map', hr]
  | LE =>
    rw [sor_skip (act_skip (lex_none st (by rw [Tok.chars]; simp [strictSym]))),
      sor_skip (act_skip (lex_none st (by rw [Tok.chars]; simp [strictSym]))),
      sor_run (act_run (lex_some st (w1 := w') (by rw [Tok.chars]; simp [weakSym, str, List.isPrefixOf, hr])))]
    simp [Outcome.map']
  | GE =>
    rw [sor_skip (act_skip (lex_none st (by rw [Tok.chars]; simp [strictSym]))),
      sor_skip (act_skip (lex_none st (by rw [Tok.chars]; simp [strictSym]))),
      sor_skip (act_skip (lex_none st (by rw [Tok.chars]; simp [weakSym, str, List.isPrefixOf]))),
      act_run (lex_some st (w1 := w') (by rw [Tok.chars]; simp [weakSym, str, List.isPrefixOf, hr]))]
    simp [Outcome.map']

/-- The state after a numeral. -/
def litPrim : NumLit → Outcome (Primitive K)
  | .int n => if n.val < 2 ^ 63 then .ok (.long n.val) else .throw .outOfRange
  | l => (l.eval (K := K)).map' .double

theorem numeral_run {l : NumLit} {ts : List Tok} {w w' : List Char} (st : PState K)
    (h : Next (.num l) ts w w') :
    numeral w st = (litPrim l).map' fun p => (some w', setPrim p st) := by
  obtain ⟨r, rfl, hr, ⟨hs, hs'⟩, -⟩ := h.ex
  replace hs : NumStop l r := hs' _ rfl
  have htk := fun k => hs.take k
  cases l with
  | int n =>
    unfold numeral
    have h1 : doubleLiteral ((Tok.num (.int n)).chars ++ r) st = .ok (none, st) := by
      unfold doubleLiteral
      rw [show (Tok.num (.int n)).chars = n.chars from rfl, doubleLit_int n hs]
      rfl
    rw [sor_skip h1]
    unfold integerLiteral
    rw [show (Tok.num (.int n)).chars = n.chars from rfl, integerLit_int n hs]
    simp only
    rw [textOf_skip, stol_int n (htk _), hr]
    unfold litPrim
    simp only
    split <;> rfl
  | dec i f e =>
    unfold numeral doubleLiteral
    refine sor_run ?_
    rw [show (Tok.num (.dec i f e)).chars = (NumLit.dec i f e).chars from rfl, doubleLit_dec i f e hs,
      Outcome.bind_ok]
    simp only
    rw [textOf_skip]
    unfold stod
    rw [decimalValue_dec i f e (htk _), hr]
    unfold litPrim NumLit.eval
    simp only
    split <;> rfl
  | sci i dot e =>
    unfold numeral doubleLiteral
    refine sor_run ?_
    rw [show (Tok.num (.sci i dot e)).chars = (NumLit.sci i dot e).chars from rfl, doubleLit_sci i dot e hs,
      Outcome.bind_ok]
    simp only
    rw [textOf_skip]
    unfold stod
    rw [decimalValue_sci i dot e (htk _), hr]
    unfold litPrim NumLit.eval
    simp only
    split <;> rfl

theorem numeral_skip {ts : List Tok} {k : String} {w w' : List Char} (st : PState K)
    (h : Next (.word k) ts w w') : numeral w st = .ok (none, st) := by
  obtain ⟨c, cs, rfl, ds, hc⟩ := h.head
  have hi := head_word h.ok hc
  have hd : decimalSeq (c :: cs) = none := by
    rw [decimalSeq, if_neg]
    rw [first_noDigit hi]; decide
  have h1 : doubleLit (c :: cs) = .ok none := by
    unfold doubleLit doubleAlt1 doubleAlt2
    rw [hd]; rfl
  have h2 : integerLit (c :: cs) = none := by unfold integerLit; rw [hd]; rfl
  have h3 : doubleLiteral (c :: cs) st = .ok (none, st) := by unfold doubleLiteral; rw [h1]; rfl
  unfold numeral
  rw [sor_skip h3]
  unfold integerLiteral
  rw [h2]

theorem identifier_run {k : String} {ts : List Tok} {w w' : List Char} (st : PState K) (hk : IsName k)
    (h : Next (.word k) ts w w') :
    identifier w st =
      .ok (some w', { st with s := { st.s with identifiers := st.s.identifiers ++ [k] } }) := by
  obtain ⟨r, h1, h2⟩ := h.ident hk
  unfold identifier
  rw [h1]
  simp only
  rw [h2, String.ofList_toList]

theorem identifier_skip {t : Tok} {ts : List Tok} {w w' : List Char} (st : PState K)
    (ht : ∀ s, t ≠ .word s) (h : Next t ts w w') : identifier w st = .ok (none, st) := by
  unfold identifier
  rw [h.ident_not ht]

end
end Rule
end Verif
