import Verif.Proofs.Ahead

/-! # Lemmas about how far the parser looks ahead: numbers and rules -/

set_option linter.unusedSectionVars false
set_option linter.ambiguousOpen false

namespace Verif
open Spec Lex

namespace Ahead

/-! ## Numbers -/

/-- A rule of a number: what it matches are characters of a word. -/
structure Num1 (f : List Char → Said (Option (List Char))) : Prop where
  ok : ∀ {inp rest}, f inp = .does (.ok (some rest)) → ∃ c, inp = c ++ rest ∧ (∀ x ∈ c, WordChar x) ∧
    ∀ rest', SameAhead rest rest' → f (c ++ rest') = .does (.ok (some rest'))
  fail : ∀ {inp inp'}, f inp = .does (.ok none) → SameAhead inp inp' → f inp' = .does (.ok none)
  err : ∀ {inp m s p}, f inp = .error m s p → m = .exponent ∧ ∃ c d, inp = c ++ (d ++ p) ∧ s = d ++ p ∧
    ∀ p', SameAhead p p' → f (c ++ (d ++ p')) = .error m (d ++ p') p'

/-- One after the other. -/
def seqS (f g : List Char → Said (Option (List Char))) : List Char → Said (Option (List Char)) := fun inp =>
  (f inp).bind fun
    | some r => g r
    | none => .does (.ok none)

/-- One or else the other. -/
def sorS (f g : List Char → Said (Option (List Char))) : List Char → Said (Option (List Char)) := fun inp =>
  (f inp).bind fun
    | some r => .does (.ok (some r))
    | none => g inp

/-- Optionally. -/
def optS (f : List Char → Said (Option (List Char))) : List Char → Said (Option (List Char)) := fun inp =>
  (f inp).bind fun o => .does (.ok (some (o.getD inp)))

/-- Without messages. -/
def liftS (f : List Char → Option (List Char)) : List Char → Said (Option (List Char)) := fun inp => .does (.ok (f inp))

theorem seqS_num {f g : List Char → Said (Option (List Char))} (hf : Num1 f) (hg : Num1 g) : Num1 (seqS f g) where
  ok {inp rest} h := by
    unfold seqS at h
    rcases h1 : f inp with _ | (⟨_ | r⟩ | _ | _ | _ | _) <;> rw [h1] at h <;> try cases h
    obtain ⟨c, rfl, h2, h3⟩ := hf.ok h1
    obtain ⟨d, rfl, h4, h5⟩ := hg.ok h
    refine ⟨c ++ d, by simp, ?_, fun r' hr => ?_⟩
    · intro x hx
      rcases List.mem_append.1 hx with hx | hx
      · exact h2 x hx
      · exact h4 x hx
    · rw [List.append_assoc]
      unfold seqS
      rw [h3 _ (append d hr)]
      exact h5 r' hr
  fail {inp inp'} h hs := by
    unfold seqS at h ⊢
    rcases h1 : f inp with _ | (⟨_ | r⟩ | _ | _ | _ | _) <;> rw [h1] at h <;> try cases h
    · rw [hf.fail h1 hs]; rfl
    · obtain ⟨c, rfl, h2, h3⟩ := hf.ok h1
      obtain ⟨r', rfl, h4⟩ := cancel h2 hs
      rw [h3 r' h4]
      exact hg.fail h h4
  err {inp m s p} h := by
    unfold seqS at h
    rcases h1 : f inp with _ | (⟨_ | r⟩ | _ | _ | _ | _) <;> rw [h1] at h <;> try cases h
    · obtain ⟨h2, c, d, rfl, rfl, h3⟩ := hf.err h1
      refine ⟨h2, c, d, rfl, rfl, fun p' hp => ?_⟩
      unfold seqS
      rw [h3 p' hp]
      rfl
    · obtain ⟨c, rfl, h2, h3⟩ := hf.ok h1
      obtain ⟨h2, c', d, rfl, rfl, h4⟩ := hg.err h
      refine ⟨h2, c ++ c', d, by simp, rfl, fun p' hp => ?_⟩
      unfold seqS
      rw [List.append_assoc, h3 _ (append c' (append d hp))]
      exact h4 p' hp

theorem sorS_num {f g : List Char → Said (Option (List Char))} (hf : Num1 f) (hg : Num1 g) : Num1 (sorS f g) where
  ok {inp rest} h := by
    unfold sorS at h
    rcases h1 : f inp with _ | (⟨_ | r⟩ | _ | _ | _ | _) <;> rw [h1] at h <;> try cases h
    · obtain ⟨d, rfl, h4, h5⟩ := hg.ok h
      refine ⟨d, rfl, h4, fun r' hr => ?_⟩
      unfold sorS
      rw [hf.fail h1 (append d hr)]
      exact h5 r' hr
    · obtain ⟨c, rfl, h2, h3⟩ := hf.ok h1
      refine ⟨c, rfl, h2, fun r' hr => ?_⟩
      unfold sorS
      rw [h3 r' hr]
      rfl
  fail {inp inp'} h hs := by
    unfold sorS at h ⊢
    rcases h1 : f inp with _ | (⟨_ | r⟩ | _ | _ | _ | _) <;> rw [h1] at h <;> try cases h
    rw [hf.fail h1 hs]
    exact hg.fail h hs
  err {inp m s p} h := by
    unfold sorS at h
    rcases h1 : f inp with _ | (⟨_ | r⟩ | _ | _ | _ | _) <;> rw [h1] at h <;> try cases h
    · obtain ⟨h2, c, d, rfl, rfl, h3⟩ := hf.err h1
      refine ⟨h2, c, d, rfl, rfl, fun p' hp => ?_⟩
      unfold sorS
      rw [h3 p' hp]
      rfl
    · obtain ⟨h2, c', d, rfl, rfl, h4⟩ := hg.err h
      refine ⟨h2, c', d, rfl, rfl, fun p' hp => ?_⟩
      unfold sorS
      rw [hf.fail h1 (append c' (append d hp))]
      exact h4 p' hp

theorem optS_num {f : List Char → Said (Option (List Char))} (hf : Num1 f) : Num1 (optS f) where
  ok {inp rest} h := by
    unfold optS at h
    rcases h1 : f inp with _ | (⟨_ | r⟩ | _ | _ | _ | _) <;> rw [h1] at h <;> cases h
    · refine ⟨[], rfl, by simp, fun r' hr => ?_⟩
      unfold optS
      rw [List.nil_append, hf.fail h1 hr]
      rfl
    · obtain ⟨c, rfl, h2, h3⟩ := hf.ok h1
      refine ⟨c, rfl, h2, fun r' hr => ?_⟩
      unfold optS
      rw [h3 r' hr]
      rfl
  fail {inp inp'} h hs := by
    unfold optS at h
    rcases h1 : f inp with _ | (⟨_ | r⟩ | _ | _ | _ | _) <;> rw [h1] at h <;> cases h
  err {inp m s p} h := by
    unfold optS at h
    rcases h1 : f inp with _ | (⟨_ | r⟩ | _ | _ | _ | _) <;> rw [h1] at h <;> cases h
    obtain ⟨h2, c, d, rfl, rfl, h3⟩ := hf.err h1
    refine ⟨h2, c, d, rfl, rfl, fun p' hp => ?_⟩
    unfold optS
    rw [h3 p' hp]
    rfl

theorem liftS_num {f : List Char → Option (List Char)}
    (h1 : ∀ {inp rest}, f inp = some rest → ∃ c, inp = c ++ rest ∧ (∀ x ∈ c, WordChar x) ∧
      ∀ rest', Same1 rest rest' → f (c ++ rest') = some rest')
    (h2 : ∀ {inp inp'}, f inp = none → Same1 inp inp' → f inp' = none) : Num1 (liftS f) where
  ok {inp rest} h := by
    simp only [liftS, Said.does.injEq, Outcome.ok.injEq] at h
    obtain ⟨c, h3, h4, h5⟩ := h1 h
    exact ⟨c, h3, h4, fun r hr => by rw [liftS, h5 r (head hr)]⟩
  fail {inp inp'} h hs := by
    simp only [liftS, Said.does.injEq, Outcome.ok.injEq] at h
    rw [liftS, h2 h (head hs)]
  err h := by cases h

theorem dropWhile_append_of {P : Char → Bool} {c q : List Char} (hc : ∀ x ∈ c, P x = true)
    (hq : ∀ x xs, q = x :: xs → P x = false) : (c ++ q).dropWhile P = q := by
  induction c with
  | nil => cases q with
    | nil => rfl
    | cons x xs => simp [hq x xs rfl]
  | cons d c ih =>
    rw [List.cons_append, List.dropWhile_cons_of_pos (hc d (by simp))]
    exact ih fun x hx => hc x (by simp [hx])

theorem head_false {P : Char → Bool} {p q : List Char} (h : Same1 p q) (hp : ∀ x xs, p = x :: xs → P x = false) :
    ∀ x xs, q = x :: xs → P x = false := by
  rintro x xs rfl
  cases p with
  | nil => simp [Same1] at h
  | cons a l =>
    simp only [Same1, List.head?_cons, Option.some.injEq] at h
    subst h
    exact hp a l rfl

theorem decimal_num : Num1 (liftS decimalSeq) := liftS_num
  (fun {inp rest} h => by
    cases inp with
    | nil => cases h
    | cons c cs =>
      rw [decimalSeq] at h
      split at h
      case isFalse => cases h
      rename_i hc
      cases h
      refine ⟨c :: cs.takeWhile Char.isDigit, by simp, ?_, fun r hr => ?_⟩
      · intro x hx
        rcases List.mem_cons.1 hx with rfl | hx
        · exact wordChar_digit hc
        · exact wordChar_digit (mem_takeWhile cs x hx)
      · rw [List.cons_append, decimalSeq, if_pos hc, dropWhile_append_of (mem_takeWhile cs)]
        exact head_false hr fun x xs e => dropWhile_head _ _ _ e)
  (fun {inp inp'} h hs => by
    cases inp with
    | nil => cases inp' with
      | nil => rfl
      | cons => simp [Same1] at hs
    | cons c cs => cases inp' with
      | nil => rfl
      | cons c' cs' =>
        simp only [Same1, List.head?_cons, Option.some.injEq] at hs
        subst hs
        rw [decimalSeq] at h ⊢
        split at h
        · cases h
        · simp [*])

/-- A point. -/
def dot : List Char → Option (List Char)
  | [] => none
  | c :: cs => if c = '.' then some cs else none

theorem dot_num : Num1 (liftS dot) := liftS_num
  (fun {inp rest} h => by
    cases inp with
    | nil => cases h
    | cons c cs =>
      rw [dot] at h
      split at h
      case isFalse => cases h
      rename_i hc
      cases h
      subst hc
      exact ⟨['.'], rfl, by simp [WordChar], fun r hr => by simp [dot]⟩)
  (fun {inp inp'} h hs => by
    cases inp with
    | nil => cases inp' with
      | nil => rfl
      | cons => simp [Same1] at hs
    | cons c cs => cases inp' with
      | nil => rfl
      | cons c' cs' =>
        simp only [Same1, List.head?_cons, Option.some.injEq] at hs
        subst hs
        rw [dot] at h ⊢
        split at h
        · cases h
        · simp [*])

theorem optSign_split (cs : List Char) : ∃ d, cs = d ++ optSign cs ∧ (∀ x ∈ d, WordChar x) ∧
    ∀ q, Same1 (optSign cs) q → optSign (d ++ q) = q := by
  cases cs with
  | nil => exact ⟨[], rfl, by simp, fun q hq => by
      cases q with
      | nil => rfl
      | cons => simp [Same1, optSign] at hq⟩
  | cons c cs =>
    by_cases h : c = '+' ∨ c = '-'
    · refine ⟨[c], by simp [optSign, h], ?_, fun q hq => by simp [optSign, h]⟩
      intro x hx
      simp only [List.mem_singleton] at hx
      subst hx
      rcases h with rfl | rfl <;> simp [WordChar]
    · refine ⟨[], by simp [optSign, h], by simp, fun q hq => ?_⟩
      rw [show optSign (c :: cs) = c :: cs by simp [optSign, h]] at hq
      cases q with
      | nil => rfl
      | cons c' cs' =>
        simp only [Same1, List.head?_cons, Option.some.injEq] at hq
        subst hq
        simp [optSign, h]

theorem exponent_num : Num1 exponentM where
  ok {inp rest} h := by
    cases inp with
    | nil => cases h
    | cons c cs =>
      rw [exponentM] at h
      split at h
      case isFalse => cases h
      rename_i hc
      rcases hd : decimalSeq (optSign cs) with _ | r <;> rw [hd] at h <;> cases h
      obtain ⟨d, h1, h2, h3⟩ := optSign_split cs
      obtain ⟨d2, h4, h5, h6⟩ := decimal_num.ok (show liftS decimalSeq (optSign cs) = _ by rw [liftS, hd])
      refine ⟨c :: (d ++ d2), by rw [List.cons_append, List.append_assoc, ← h4, ← h1], ?_, fun r' hr => ?_⟩
      · intro x hx
        rcases List.mem_cons.1 hx with rfl | hx
        · rcases hc with rfl | rfl <;> exact .inl (.inl (by decide))
        · rcases List.mem_append.1 hx with hx | hx
          · exact h2 x hx
          · exact h5 x hx
      · rw [List.cons_append, List.append_assoc, exponentM, if_pos hc, h3 _ (by rw [h4]; exact head (append d2 hr))]
        have := h6 r' hr
        simp only [liftS, Said.does.injEq, Outcome.ok.injEq] at this
        rw [this]
  fail {inp inp'} h hs := by
    cases inp with
    | nil =>
      have := head hs
      cases inp' with
      | nil => rfl
      | cons => simp at this
    | cons c cs =>
      have h0 := head hs
      cases inp' with
      | nil => simp at h0
      | cons c' cs' =>
        simp at h0
        subst h0
        rw [exponentM] at h ⊢
        split at h
        · rcases hd : decimalSeq (optSign cs) with _ | r <;> rw [hd] at h <;> cases h
        · simp [*]
  err {inp m s p} h := by
    cases inp with
    | nil => cases h
    | cons c cs =>
      rw [exponentM] at h
      split at h
      case isFalse => cases h
      rename_i hc
      rcases hd : decimalSeq (optSign cs) with _ | r <;> rw [hd] at h <;> cases h
      obtain ⟨d, h1, h2, h3⟩ := optSign_split s
      refine ⟨rfl, [c], d, by rw [← h1]; rfl, h1, fun p' hp => ?_⟩
      rw [List.singleton_append, exponentM, if_pos hc, h3 _ (head hp)]
      have := decimal_num.fail (show liftS decimalSeq (optSign s) = _ by rw [liftS, hd]) hp
      simp only [liftS, Said.does.injEq, Outcome.ok.injEq] at this
      rw [this]

theorem doubleAlt1M_eq : doubleAlt1M =
    seqS (liftS decimalSeq) (seqS (liftS dot) (seqS (liftS decimalSeq) (optS exponentM))) := by
  funext inp
  rw [doubleAlt1M]
  rcases h : decimalSeq inp with _ | ⟨_ | ⟨c, cs⟩⟩
  · simp [seqS, liftS, h, Said.bind]
  · simp [seqS, liftS, h, Said.bind, dot]
  · by_cases hc : c = '.'
    · subst hc
      rcases h2 : decimalSeq cs with _ | r
      · simp [seqS, liftS, h, h2, Said.bind, dot]
      · simp only [seqS, liftS, h, h2, Said.bind, dot, if_true, optS]
    · have : ∀ ds, c :: cs ≠ '.' :: ds := fun ds e => hc (by cases e; rfl)
      split
      · rename_i e; cases e; exact absurd rfl hc
      · simp [seqS, liftS, h, Said.bind, dot, hc]

theorem doubleAlt2M_eq : doubleAlt2M = seqS (liftS decimalSeq) (seqS (optS (liftS dot)) exponentM) := by
  funext inp
  rw [doubleAlt2M]
  rcases h : decimalSeq inp with _ | r
  · simp [seqS, liftS, h, Said.bind]
  · cases r with
    | nil => simp [seqS, liftS, h, Said.bind, dot, optS, optDot]
    | cons c cs =>
      by_cases hc : c = '.'
      · simp [seqS, liftS, h, Said.bind, dot, optS, optDot, hc]
      · simp [seqS, liftS, h, Said.bind, dot, optS, optDot, hc]

/-- A number without the layout after it. -/
def doubleBare : List Char → Said (Option (List Char)) := sorS doubleAlt1M doubleAlt2M

theorem doubleBare_num : Num1 doubleBare := by
  refine sorS_num ?_ ?_
  · rw [doubleAlt1M_eq]
    exact seqS_num decimal_num (seqS_num dot_num (seqS_num decimal_num (optS_num exponent_num)))
  · rw [doubleAlt2M_eq]
    exact seqS_num decimal_num (seqS_num (optS_num dot_num) exponent_num)

theorem doubleLitM_eq (inp : List Char) :
    doubleLitM inp = (doubleBare inp).bind fun o => .does (.ok (o.map skip)) := by
  rw [doubleLitM, doubleBare, sorS]
  rcases doubleAlt1M inp with _ | (⟨_ | r⟩ | _ | _ | _ | _) <;> rfl

/-! ## Rules -/

section
variable {K : Type}

/-- What a rule does depends only on the text up to what is ahead of the place where it stops. -/
structure Local (r : RuleM K) : Prop where
  ok : ∀ {inp rest st st'}, r inp st = .does (.ok (.ok rest, st')) →
    ∃ c, inp = c ++ rest ∧ ∀ rest', SameAhead rest rest' → r (c ++ rest') st = .does (.ok (.ok rest', st'))
  fail : ∀ {inp p st st'}, r inp st = .does (.ok (.error p, st')) →
    ∃ c, inp = c ++ p ∧ ∀ p', SameAhead p p' → r (c ++ p') st = .does (.ok (.error p', st'))
  err : ∀ {inp m s p st}, r inp st = .error m s p → OfGrammar m →
    ∃ c d x e, inp = c ++ (d ++ (x ++ e)) ∧ s = d ++ (x ++ e) ∧ p = x ++ e ∧ ReadOn m x e ∧
      ∀ e', SameAhead e e' → r (c ++ (d ++ (x ++ e'))) st = .error m (d ++ (x ++ e')) (x ++ e')

/-- A rule that only fails where it begins. -/
def Head (r : RuleM K) : Prop := ∀ {inp p st st'}, r inp st = .does (.ok (.error p, st')) → p = inp

variable {r r1 r2 c : RuleM K}

theorem Local.at_ (h : Local r) (hh : Head r) {inp p inp' : List Char} {st st' : PState K}
    (e : r inp st = .does (.ok (.error p, st'))) (hs : SameAhead inp inp') :
    r inp' st = .does (.ok (.error inp', st')) := by
  obtain rfl := hh e
  obtain ⟨c, h1, h2⟩ := h.fail e
  have : c = [] := by simpa using h1
  subst this
  exact h2 inp' hs

theorem local_lex {f : List Char → Option (List Char)} (hf : Lex1 f) : Local (RuleM.lex (K := K) f) where
  ok h := by
    obtain ⟨h1, rfl⟩ := lexM_ok h
    obtain ⟨c, h2, h3⟩ := hf.ok h1
    exact ⟨c, h2, fun r hr => by rw [RuleM.lex, h3 r (head hr)]⟩
  fail h := by
    obtain ⟨h1, rfl, rfl⟩ := lexM_fail h
    exact ⟨[], rfl, fun p hp => by rw [RuleM.lex, List.nil_append, hf.fail h1 hp]⟩
  err h := (lexM_err h).elim

theorem head_lex {f : List Char → Option (List Char)} : Head (RuleM.lex (K := K) f) := fun h => (lexM_fail h).2.1

theorem seq_of_ok {inp mid : List Char} {st st1 : PState K} (h : r1 inp st = .does (.ok (.ok mid, st1))) :
    RuleM.seq r1 r2 inp st = r2 mid st1 := by
  rw [RuleM.seq, h]; rfl

theorem seq_of_fail {inp p : List Char} {st st1 : PState K} (h : r1 inp st = .does (.ok (.error p, st1))) :
    RuleM.seq r1 r2 inp st = .does (.ok (.error p, st1)) := by
  rw [RuleM.seq, h]; rfl

theorem seq_of_err {inp s p : List Char} {m : Msg} {st : PState K} (h : r1 inp st = .error m s p) :
    RuleM.seq r1 r2 inp st = .error m s p := by
  rw [RuleM.seq, h]; rfl

theorem sor_of_ok {inp mid : List Char} {st st1 : PState K} (h : r1 inp st = .does (.ok (.ok mid, st1))) :
    RuleM.sor r1 r2 inp st = .does (.ok (.ok mid, st1)) := by
  rw [RuleM.sor, h]; rfl

theorem sor_of_fail {inp p : List Char} {st st1 : PState K} (h : r1 inp st = .does (.ok (.error p, st1))) :
    RuleM.sor r1 r2 inp st = r2 inp st1 := by
  rw [RuleM.sor, h]; rfl

theorem sor_of_err {inp s p : List Char} {m : Msg} {st : PState K} (h : r1 inp st = .error m s p) :
    RuleM.sor r1 r2 inp st = .error m s p := by
  rw [RuleM.sor, h]; rfl

theorem local_seq (h1 : Local r1) (h2 : Local r2) : Local (RuleM.seq r1 r2) where
  ok h := by
    obtain ⟨mid, st1, e1, e2⟩ := seqM_ok h
    obtain ⟨c, rfl, h3⟩ := h1.ok e1
    obtain ⟨d, rfl, h4⟩ := h2.ok e2
    refine ⟨c ++ d, by simp, fun r hr => ?_⟩
    rw [List.append_assoc, seq_of_ok (h3 _ (append d hr))]
    exact h4 r hr
  fail h := by
    rcases seqM_fail h with e1 | ⟨mid, st1, e1, e2⟩
    · obtain ⟨c, rfl, h3⟩ := h1.fail e1
      exact ⟨c, rfl, fun p hp => seq_of_fail (h3 p hp)⟩
    · obtain ⟨c, rfl, h3⟩ := h1.ok e1
      obtain ⟨d, rfl, h4⟩ := h2.fail e2
      refine ⟨c ++ d, by simp, fun r hr => ?_⟩
      rw [List.append_assoc, seq_of_ok (h3 _ (append d hr))]
      exact h4 r hr
  err h hm := by
    rcases seqM_err h with e1 | ⟨mid, st1, e1, e2⟩
    · obtain ⟨c, d, x, e, rfl, rfl, rfl, h3, h4⟩ := h1.err e1 hm
      exact ⟨c, d, x, e, rfl, rfl, rfl, h3, fun e' he => seq_of_err (h4 e' he)⟩
    · obtain ⟨c, rfl, h3⟩ := h1.ok e1
      obtain ⟨c', d, x, e, rfl, rfl, rfl, h4, h5⟩ := h2.err e2 hm
      refine ⟨c ++ c', d, x, e, by simp, rfl, rfl, h4, fun e' he => ?_⟩
      rw [List.append_assoc, seq_of_ok (h3 _ (append c' (append d (append x he))))]
      exact h5 e' he

theorem sorM_ok {inp rest : List Char} {st st' : PState K} (h : RuleM.sor r1 r2 inp st = .does (.ok (.ok rest, st'))) :
    r1 inp st = .does (.ok (.ok rest, st')) ∨
    ∃ q st1, r1 inp st = .does (.ok (.error q, st1)) ∧ r2 inp st1 = .does (.ok (.ok rest, st')) := by
  unfold RuleM.sor at h
  rcases h1 : r1 inp st with ⟨m', s', p'⟩ | (⟨q | q, st'⟩ | _ | _ | _ | _) <;> rw [h1] at h
  case does.ok.error => exact .inr ⟨q, st', rfl, h⟩
  case does.ok.ok => exact .inl h
  all_goals cases h

theorem local_sor (h1 : Local r1) (hh : Head r1) (h2 : Local r2) : Local (RuleM.sor r1 r2) where
  ok h := by
    rcases sorM_ok h with e1 | ⟨q, st1, e1, e2⟩
    · obtain ⟨c, rfl, h3⟩ := h1.ok e1
      exact ⟨c, rfl, fun p hp => sor_of_ok (h3 p hp)⟩
    · obtain ⟨c, rfl, h3⟩ := h2.ok e2
      refine ⟨c, rfl, fun p hp => ?_⟩
      rw [sor_of_fail (h1.at_ hh e1 (append c hp))]
      exact h3 p hp
  fail h := by
    obtain ⟨q, st1, e1, e2⟩ := sorM_fail h
    obtain ⟨c, rfl, h3⟩ := h2.fail e2
    refine ⟨c, rfl, fun p hp => ?_⟩
    rw [sor_of_fail (h1.at_ hh e1 (append c hp))]
    exact h3 p hp
  err h hm := by
    rcases sorM_err h with e1 | ⟨q, st1, e1, e2⟩
    · obtain ⟨c, d, x, e, rfl, rfl, rfl, h3, h4⟩ := h1.err e1 hm
      exact ⟨c, d, x, e, rfl, rfl, rfl, h3, fun e' he => sor_of_err (h4 e' he)⟩
    · obtain ⟨c', d, x, e, rfl, rfl, rfl, h4, h5⟩ := h2.err e2 hm
      refine ⟨c', d, x, e, rfl, rfl, rfl, h4, fun e' he => ?_⟩
      rw [sor_of_fail (h1.at_ hh e1 (append c' (append d (append x he))))]
      exact h5 e' he

theorem head_sor (h2 : Head r2) : Head (RuleM.sor r1 r2) := fun h => by
  obtain ⟨q, st1, e1, e2⟩ := sorM_fail h
  exact h2 e2

theorem head_must {m : Msg} : Head (RuleM.must m r) := fun h => (mustM_fail h).elim

/-- After something mandatory nothing fails locally. -/
def Firm (r : RuleM K) : Prop := ∀ {inp p st st'}, r inp st ≠ .does (.ok (.error p, st'))

theorem firm_must {m : Msg} : Firm (RuleM.must m r) := fun h => (mustM_fail h).elim

theorem head_seq (h1 : Head r1) (h2 : Firm r2) : Head (RuleM.seq r1 r2) := fun h => by
  rcases seqM_fail h with e1 | ⟨mid, st1, e1, e2⟩
  · exact h1 e1
  · exact (h2 e2).elim

theorem firm_seq (h1 : Firm r1) (h2 : Firm r2) : Firm (RuleM.seq r1 r2) := fun h => by
  rcases seqM_fail h with e1 | ⟨mid, st1, e1, e2⟩
  · exact h1 e1
  · exact (h2 e2).elim

theorem must_of_ok {m : Msg} {inp mid : List Char} {st st1 : PState K} (h : r inp st = .does (.ok (.ok mid, st1))) :
    RuleM.must m r inp st = .does (.ok (.ok mid, st1)) := by
  rw [RuleM.must, h]; rfl

theorem must_of_fail {m : Msg} {inp p : List Char} {st st1 : PState K} (h : r inp st = .does (.ok (.error p, st1))) :
    RuleM.must m r inp st = .error m inp p := by
  rw [RuleM.must, h]; rfl

theorem must_of_err {m' m : Msg} {inp s p : List Char} {st : PState K} (h : r inp st = .error m s p) :
    RuleM.must m' r inp st = .error m s p := by
  rw [RuleM.must, h]; rfl

theorem local_must (m : Msg) (h1 : Local r) : Local (RuleM.must m r) where
  ok h := by
    obtain ⟨c, rfl, h3⟩ := h1.ok (mustM_ok h)
    exact ⟨c, rfl, fun p hp => must_of_ok (h3 p hp)⟩
  fail h := (mustM_fail h).elim
  err h hm := by
    rcases mustM_err h with e1 | ⟨st1, e1, rfl, rfl⟩
    · obtain ⟨c, d, x, e, rfl, rfl, rfl, h3, h4⟩ := h1.err e1 hm
      exact ⟨c, d, x, e, rfl, rfl, rfl, h3, fun e' he => must_of_err (h4 e' he)⟩
    · obtain ⟨c, rfl, h3⟩ := h1.fail e1
      exact ⟨[], c, [], _, rfl, rfl, rfl, .inl rfl, fun e' he => must_of_fail (h3 e' he)⟩

theorem actM_ok {f : PState K → Outcome (PState K)} {inp rest : List Char} {st st' : PState K}
    (h : RuleM.act r f inp st = .does (.ok (.ok rest, st'))) :
    ∃ st1, r inp st = .does (.ok (.ok rest, st1)) ∧ f st1 = .ok st' := by
  unfold RuleM.act at h
  rcases h1 : r inp st with ⟨m', s', p'⟩ | (⟨q | q, st1⟩ | _ | _ | _ | _) <;> rw [h1] at h
  case does.ok.ok =>
    simp only [Said.bind] at h
    rcases h2 : f st1 with _ | _ | _ | _ | _ <;> rw [h2] at h <;> cases h
    exact ⟨st1, rfl, h2⟩
  all_goals cases h

theorem local_act (f : PState K → Outcome (PState K)) (h1 : Local r) : Local (RuleM.act r f) where
  ok h := by
    obtain ⟨st1, e1, e2⟩ := actM_ok h
    obtain ⟨c, rfl, h3⟩ := h1.ok e1
    refine ⟨c, rfl, fun p hp => ?_⟩
    rw [RuleM.act, h3 p hp]
    simp only [Said.bind, e2]
  fail h := by
    obtain ⟨c, rfl, h3⟩ := h1.fail (actM_fail h)
    refine ⟨c, rfl, fun p hp => ?_⟩
    rw [RuleM.act, h3 p hp]
    rfl
  err h hm := by
    obtain ⟨c, d, x, e, rfl, rfl, rfl, h3, h4⟩ := h1.err (actM_err h) hm
    refine ⟨c, d, x, e, rfl, rfl, rfl, h3, fun e' he => ?_⟩
    rw [RuleM.act, h4 e' he]
    rfl

theorem head_act {f : PState K → Outcome (PState K)} (h1 : Head r) : Head (RuleM.act r f) := fun h => h1 (actM_fail h)

theorem actInM_ok {f : List Char → PState K → Said (PState K)} {inp rest : List Char} {st st' : PState K}
    (h : RuleM.actIn r f inp st = .does (.ok (.ok rest, st'))) :
    ∃ st1, r inp st = .does (.ok (.ok rest, st1)) ∧ f inp st1 = .does (.ok st') := by
  unfold RuleM.actIn at h
  rcases h1 : r inp st with ⟨m', s', p'⟩ | (⟨q | q, st1⟩ | _ | _ | _ | _) <;> rw [h1] at h
  case does.ok.ok =>
    simp only [Said.bind] at h
    rcases h2 : f inp st1 with _ | (_ | _ | _ | _ | _) <;> rw [h2] at h <;> cases h
    exact ⟨st1, rfl, h2⟩
  all_goals cases h

theorem local_actIn {f : List Char → PState K → Said (PState K)} (hf : ∀ inp inp' st st', f inp st = .does (.ok st') →
      f inp' st = .does (.ok st')) (hm : ∀ inp st m s p, f inp st = .error m s p → ¬ OfGrammar m)
    (h1 : Local r) (hh : Head r) : Local (RuleM.actIn r f) where
  ok h := by
    obtain ⟨st1, e1, e2⟩ := actInM_ok h
    obtain ⟨c, rfl, h3⟩ := h1.ok e1
    refine ⟨c, rfl, fun p hp => ?_⟩
    rw [RuleM.actIn, h3 p hp]
    simp only [Said.bind, hf _ (c ++ p) _ _ e2]
  fail h := by
    obtain ⟨rfl, q, e⟩ := actInM_fail h
    refine ⟨[], rfl, fun p hp => ?_⟩
    rw [List.nil_append, RuleM.actIn, h1.at_ hh e hp]
    rfl
  err h hg := by
    rcases actInM_err h with e1 | ⟨rest, st', -, e2⟩
    · obtain ⟨c, d, x, e, rfl, rfl, rfl, h3, h4⟩ := h1.err e1 hg
      refine ⟨c, d, x, e, rfl, rfl, rfl, h3, fun e' he => ?_⟩
      rw [RuleM.actIn, h4 e' he]
      rfl
    · exact absurd hg (hm _ _ _ _ _ e2)

theorem head_actIn {f : List Char → PState K → Said (PState K)} : Head (RuleM.actIn r f) := fun h => (actInM_fail h).1

theorem local_star (h1 : Local r) (hh : Head r) : ∀ n : Nat, Local (RuleM.star r n) ∧ Firm (RuleM.star r n)
  | 0 => ⟨⟨fun h => (by cases h), fun h => (by cases h), fun h _ => (by cases h)⟩, fun h => by cases h⟩
  | n + 1 => by
    obtain ⟨ih, ihf⟩ := local_star h1 hh n
    have e1 : ∀ {inp rest st st'}, r inp st = .does (.ok (.ok rest, st')) →
        RuleM.star r (n + 1) inp st = RuleM.star r n rest st' := fun h => by simp only [RuleM.star, h, Said.bind]
    have e2 : ∀ {inp p st st'}, r inp st = .does (.ok (.error p, st')) →
        RuleM.star r (n + 1) inp st = .does (.ok (.ok inp, st')) := fun h => by simp only [RuleM.star, h, Said.bind]
    have e3 : ∀ {inp m s p st}, r inp st = .error m s p →
        RuleM.star r (n + 1) inp st = .error m s p := fun h => by simp only [RuleM.star, h, Said.bind]
    refine ⟨⟨@fun inp rest st st' h => ?_, @fun inp p st st' h => ?_, @fun inp m s p st h hm => ?_⟩,
      @fun inp p st st' h => ?_⟩
    all_goals
      rcases h2 : r inp st with ⟨m', s', p'⟩ | (⟨q | q, st1⟩ | _ | _ | _ | _)
      case does.throw => simp only [RuleM.star, h2, Said.bind] at h; cases h
      case does.abort => simp only [RuleM.star, h2, Said.bind] at h; cases h
      case does.ub => simp only [RuleM.star, h2, Said.bind] at h; cases h
      case does.diverge => simp only [RuleM.star, h2, Said.bind] at h; cases h
    · rw [e3 h2] at h; cases h
    · rw [e2 h2] at h
      cases h
      refine ⟨[], rfl, fun p hp => ?_⟩
      rw [List.nil_append, e2 (h1.at_ hh h2 hp)]
    · rw [e1 h2] at h
      obtain ⟨c, rfl, h3⟩ := h1.ok h2
      obtain ⟨d, rfl, h4⟩ := ih.ok h
      refine ⟨c ++ d, by simp, fun p hp => ?_⟩
      rw [List.append_assoc, e1 (h3 _ (append d hp))]
      exact h4 p hp
    · rw [e3 h2] at h; cases h
    · rw [e2 h2] at h; cases h
    · rw [e1 h2] at h; exact (ihf h).elim
    · rw [e3 h2] at h
      cases h
      obtain ⟨c, d, x, e, rfl, rfl, rfl, h3, h4⟩ := h1.err h2 hm
      exact ⟨c, d, x, e, rfl, rfl, rfl, h3, fun e' he => e3 (h4 e' he)⟩
    · rw [e2 h2] at h; cases h
    · rw [e1 h2] at h
      obtain ⟨c, rfl, h3⟩ := h1.ok h2
      obtain ⟨c', d, x, e, rfl, rfl, rfl, h4, h5⟩ := ih.err h hm
      refine ⟨c ++ c', d, x, e, by simp, rfl, rfl, h4, fun e' he => ?_⟩
      rw [List.append_assoc, e1 (h3 _ (append c' (append d (append x he))))]
      exact h5 e' he
    · rw [e3 h2] at h; cases h
    · rw [e2 h2] at h; cases h
    · rw [e1 h2] at h; exact (ihf h).elim

theorem local_plus (h1 : Local r) (hh : Head r) (n : Nat) : Local (RuleM.plus r n) :=
  local_seq h1 (local_star h1 hh n).1

theorem until_eq (n : Nat) : RuleM.until_ c r (n + 1) = RuleM.sor c (RuleM.seq r (RuleM.until_ c r n)) := by
  funext inp st
  simp only [RuleM.until_, RuleM.sor]
  rcases c inp st with ⟨m', s', p'⟩ | (⟨q | q, st1⟩ | _ | _ | _ | _) <;> rfl

theorem local_until (hc : Local c) (hh : Head c) (h1 : Local r) : ∀ n : Nat, Local (RuleM.until_ c r n)
  | 0 => ⟨fun h => (by cases h), fun h => (by cases h), fun h _ => (by cases h)⟩
  | n + 1 => by
    rw [until_eq]
    exact local_sor hc hh (local_seq h1 (local_until hc hh h1 n))

theorem local_new (h1 : Local r) : Local (RuleM.onNewState r) := by
  have e1 : ∀ {inp o st st'}, r inp { g := st.g } = .does (.ok (o, st')) → RuleM.onNewState r inp st =
      .does (.ok (o, { g := st'.g, s := { st.s with terms := st.s.terms ++ st'.s.terms } })) :=
    fun h => by rw [RuleM.onNewState, h]; rfl
  have e3 : ∀ {inp m s p st}, r inp { g := st.g } = .error m s p →
      RuleM.onNewState r inp st = .error m s p := fun h => by rw [RuleM.onNewState, h]; rfl
  refine ⟨@fun inp rest st st' h => ?_, @fun inp p st st' h => ?_, @fun inp m s p st h hm => ?_⟩
  all_goals
    rcases h2 : r inp { g := st.g } with ⟨m', s', p'⟩ | (⟨q, st1⟩ | _ | _ | _ | _)
    case does.throw => rw [RuleM.onNewState, h2] at h; cases h
    case does.abort => rw [RuleM.onNewState, h2] at h; cases h
    case does.ub => rw [RuleM.onNewState, h2] at h; cases h
    case does.diverge => rw [RuleM.onNewState, h2] at h; cases h
  · rw [e3 h2] at h; cases h
  · rw [e1 h2] at h
    cases h
    obtain ⟨c, rfl, h3⟩ := h1.ok h2
    exact ⟨c, rfl, fun p hp => e1 (h3 p hp)⟩
  · rw [e3 h2] at h; cases h
  · rw [e1 h2] at h
    cases h
    obtain ⟨c, rfl, h3⟩ := h1.fail h2
    exact ⟨c, rfl, fun p hp => e1 (h3 p hp)⟩
  · rw [e3 h2] at h
    cases h
    obtain ⟨c, d, x, e, rfl, rfl, rfl, h3, h4⟩ := h1.err h2 hm
    exact ⟨c, d, x, e, rfl, rfl, rfl, h3, fun e' he => e3 (h4 e' he)⟩
  · rw [e1 h2] at h; cases h

theorem head_new (h1 : Head r) : Head (RuleM.onNewState r) := @fun inp p st st' h => by
  rw [RuleM.onNewState] at h
  rcases h2 : r inp { g := st.g } with ⟨m', s', p'⟩ | (⟨q | q, st1⟩ | _ | _ | _ | _) <;> rw [h2] at h <;> cases h
  exact h1 h2

end

/-! ## The grammar -/

section
variable {K : Type} [Field K] [LinearOrder K]

theorem word_chars {k : String} (h : k.toList.all (fun c => isIdOther c || c == '-') = true) :
    ∀ c ∈ k.toList, WordChar c := by
  intro c hc
  have := List.all_eq_true.1 h c hc
  rcases Bool.or_eq_true _ _ ▸ this with h | h
  · exact wordChar_other h
  · exact .inr (.inr (.inr (by simpa using h)))

theorem local_kw (k : String) (h : k.toList.all (fun c => isIdOther c || c == '-') = true) :
    Local (RuleM.kw (K := K) k) := local_lex (lex_keyword k (word_chars h))

theorem identifier_eq {inp text r : List Char} {st : PState K} (h : ident inp = some (text, r)) :
    RuleM.identifier inp st = .does (.ok (.ok (skip r),
      { st with s := { st.s with identifiers := st.s.identifiers ++ [String.ofList text] } })) := by
  rw [RuleM.identifier, h]
  simp only [endOfWord_some (ident_inv h).2.1]

theorem identifier_none' {inp : List Char} {st : PState K} (h : ident inp = none) :
    RuleM.identifier inp st = .does (.ok (.error inp, st)) := by
  rw [RuleM.identifier, h]

theorem ident_none_same {inp inp' : List Char} (h : ident inp = none) (hs : Same1 inp inp') : ident inp' = none := by
  cases inp with
  | nil => cases inp' with
    | nil => rfl
    | cons => simp [Same1] at hs
  | cons c cs => cases inp' with
    | nil => rfl
    | cons c' cs' =>
      simp only [Same1, List.head?_cons, Option.some.injEq] at hs
      subst hs
      rw [ident] at h ⊢
      split at h
      · cases h
      · simp [*]

theorem ident_some_same {inp text r : List Char} (h : ident inp = some (text, r)) {q : List Char} (hq : Same1 r q) :
    ident (text ++ q) = some (text, q) := by
  obtain ⟨h1, h2, -⟩ := ident_inv h
  cases inp with
  | nil => cases h
  | cons c cs =>
    rw [ident] at h
    split at h
    case isFalse => cases h
    rename_i hc
    cases h
    rw [List.cons_append, ident, if_pos hc]
    have h3 := noOther_of h2 hq
    have h4 : ∀ x ∈ cs.takeWhile isIdOther, isIdOther x = true := mem_takeWhile cs
    rw [dropWhile_append_of h4 h3]
    have h5 : q.takeWhile isIdOther = [] := by
      cases q with
      | nil => rfl
      | cons x xs => simp [h3 x xs rfl]
    rw [List.takeWhile_append_of_pos h4, h5, List.append_nil]

theorem local_identifier : Local (RuleM.identifier (K := K)) := by
  refine ⟨@fun inp rest st st' h => ?_, @fun inp p st st' h => ?_, @fun inp m s p st h hm => ?_⟩
  all_goals rcases hi : ident inp with _ | ⟨text, r⟩
  · rw [identifier_none' hi] at h; cases h
  · rw [identifier_eq hi] at h
    cases h
    obtain ⟨h1, h2, -⟩ := ident_inv hi
    obtain ⟨g, h4, h5⟩ := skip_same r
    refine ⟨text ++ g, by rw [List.append_assoc, ← h4, ← h1], fun q hq => ?_⟩
    have h6 : Same1 r (g ++ q) := by
      conv_lhs => rw [h4]
      exact same1_append g (head hq)
    rw [List.append_assoc, identifier_eq (ident_some_same hi h6), h5 q (head hq)]
  · rw [identifier_none' hi] at h
    cases h
    exact ⟨[], rfl, fun p hp => identifier_none' (ident_none_same hi (head hp))⟩
  · rw [identifier_eq hi] at h; cases h
  · rw [identifier_none' hi] at h; cases h
  · rw [identifier_eq hi] at h; cases h

theorem head_identifier : Head (RuleM.identifier (K := K)) := @fun inp p st st' h => by
  rcases hi : ident inp with _ | ⟨text, r⟩
  · rw [identifier_none' hi] at h; cases h; rfl
  · rw [identifier_eq hi] at h; cases h

theorem textOf_append (c q : List Char) : textOf (c ++ q) q = c := by
  simp [textOf]

variable [Arith K] [Strtod K]

theorem local_double : Local (RuleM.doubleLiteral (K := K)) := by
  have e1 : ∀ {inp r st}, doubleBare inp = .does (.ok (some r)) → RuleM.doubleLiteral (K := K) inp st =
      (Said.does (stod (textOf inp (skip r)))).bind fun d => .does (.ok (.ok (skip r), Rule.setPrim (.double d) st)) :=
    fun h => by rw [RuleM.doubleLiteral, doubleLitM_eq, h]; rfl
  have e2 : ∀ {inp st}, doubleBare inp = .does (.ok none) → RuleM.doubleLiteral (K := K) inp st =
      .does (.ok (.error inp, st)) := fun h => by rw [RuleM.doubleLiteral, doubleLitM_eq, h]; rfl
  have e3 : ∀ {inp m s p st}, doubleBare inp = .error m s p → RuleM.doubleLiteral (K := K) inp st =
      .error m s p := fun h => by rw [RuleM.doubleLiteral, doubleLitM_eq, h]; rfl
  refine ⟨@fun inp rest st st' h => ?_, @fun inp p st st' h => ?_, @fun inp m s p st h hm => ?_⟩
  all_goals
    rcases h2 : doubleBare inp with ⟨m', s', p'⟩ | (⟨_ | r⟩ | _ | _ | _ | _)
    case does.throw => rw [RuleM.doubleLiteral, doubleLitM_eq, h2] at h; cases h
    case does.abort => rw [RuleM.doubleLiteral, doubleLitM_eq, h2] at h; cases h
    case does.ub => rw [RuleM.doubleLiteral, doubleLitM_eq, h2] at h; cases h
    case does.diverge => rw [RuleM.doubleLiteral, doubleLitM_eq, h2] at h; cases h
  · rw [e3 h2] at h; cases h
  · rw [e2 h2] at h; cases h
  · rw [e1 h2] at h
    obtain ⟨c, rfl, h3, h4⟩ := doubleBare_num.ok h2
    obtain ⟨g, h5, h6⟩ := skip_same r
    have h7 : rest = skip r := by
      rcases h8 : stod (K := K) (textOf (c ++ r) (skip r)) with _ | _ | _ | _ | _ <;> rw [h8] at h <;> cases h
      rfl
    subst h7
    refine ⟨c ++ g, by rw [List.append_assoc, ← h5], fun q hq => ?_⟩
    have h8 : textOf (c ++ r) (skip r) = c ++ g := by
      conv_lhs => rw [show c ++ r = (c ++ g) ++ skip r by rw [List.append_assoc, ← h5]]
      exact textOf_append _ _
    rw [List.append_assoc, e1 (h4 (g ++ q) (by
      have := append g hq
      rwa [← h5] at this)), h6 q (head hq), ← List.append_assoc, textOf_append]
    rw [h8] at h
    rcases h9 : stod (K := K) (c ++ g) with d | _ | _ | _ | _ <;> rw [h9] at h <;> cases h
    rfl
  · rw [e3 h2] at h; cases h
  · rw [e2 h2] at h
    cases h
    exact ⟨[], rfl, fun q hq => e2 (doubleBare_num.fail h2 hq)⟩
  · rw [e1 h2] at h
    rcases h8 : stod (K := K) (textOf inp (skip r)) with _ | _ | _ | _ | _ <;> rw [h8] at h <;> cases h
  · rw [e3 h2] at h
    cases h
    obtain ⟨-, c, d, rfl, rfl, h4⟩ := doubleBare_num.err h2
    exact ⟨c, d, [], p, rfl, rfl, rfl, .inl rfl, fun q hq => e3 (h4 q hq)⟩
  · rw [e2 h2] at h; cases h
  · rw [e1 h2] at h
    rcases h8 : stod (K := K) (textOf inp (skip r)) with _ | _ | _ | _ | _ <;> rw [h8] at h <;> cases h

theorem head_double : Head (RuleM.doubleLiteral (K := K)) := @fun inp p st st' h => by
  rw [RuleM.doubleLiteral] at h
  rcases h2 : doubleLitM inp with ⟨m', s', p'⟩ | (⟨_ | r⟩ | _ | _ | _ | _) <;> rw [h2] at h
  case does.ok.some =>
    simp only [Said.bind] at h
    rcases h8 : stod (K := K) (textOf inp r) with _ | _ | _ | _ | _ <;> rw [h8] at h <;> cases h
  case does.ok.none => cases h; rfl
  all_goals cases h

theorem local_integer : Local (RuleM.integerLiteral (K := K)) := by
  have e1 : ∀ {inp r st}, decimalSeq inp = some r → RuleM.integerLiteral (K := K) inp st =
      (Said.does (stol (textOf inp (skip r)))).bind fun d => .does (.ok (.ok (skip r), Rule.setPrim (.long d) st)) :=
    fun h => by rw [RuleM.integerLiteral, integerLit, h]; rfl
  have e2 : ∀ {inp st}, decimalSeq inp = none → RuleM.integerLiteral (K := K) inp st =
      .does (.ok (.error inp, st)) := fun h => by rw [RuleM.integerLiteral, integerLit, h]; rfl
  refine ⟨@fun inp rest st st' h => ?_, @fun inp p st st' h => ?_, @fun inp m s p st h hm => ?_⟩
  all_goals rcases h2 : decimalSeq inp with _ | r
  · rw [e2 h2] at h; cases h
  · rw [e1 h2] at h
    obtain ⟨c, rfl, h3, h4⟩ := decimal_num.ok (show liftS decimalSeq inp = _ by rw [liftS, h2])
    obtain ⟨g, h5, h6⟩ := skip_same r
    have h7 : rest = skip r := by
      rcases h8 : stol (textOf (c ++ r) (skip r)) with _ | _ | _ | _ | _ <;> rw [h8] at h <;> cases h
      rfl
    subst h7
    refine ⟨c ++ g, by rw [List.append_assoc, ← h5], fun q hq => ?_⟩
    have h8 : textOf (c ++ r) (skip r) = c ++ g := by
      conv_lhs => rw [show c ++ r = (c ++ g) ++ skip r by rw [List.append_assoc, ← h5]]
      exact textOf_append _ _
    have h9 := h4 (g ++ q) (by
      have := append g hq
      rwa [← h5] at this)
    simp only [liftS, Said.does.injEq, Outcome.ok.injEq] at h9
    rw [List.append_assoc, e1 h9, h6 q (head hq), ← List.append_assoc, textOf_append]
    rw [h8] at h
    rcases h9 : stol (c ++ g) with d | _ | _ | _ | _ <;> rw [h9] at h <;> cases h
    rfl
  · rw [e2 h2] at h
    cases h
    refine ⟨[], rfl, fun q hq => e2 ?_⟩
    rw [List.nil_append]
    have h9 := decimal_num.fail (show liftS decimalSeq inp = _ by rw [liftS, h2]) hq
    simpa only [liftS, Said.does.injEq, Outcome.ok.injEq] using h9
  · rw [e1 h2] at h
    rcases h8 : stol (textOf inp (skip r)) with _ | _ | _ | _ | _ <;> rw [h8] at h <;> cases h
  · rw [e2 h2] at h; cases h
  · rw [e1 h2] at h
    rcases h8 : stol (textOf inp (skip r)) with _ | _ | _ | _ | _ <;> rw [h8] at h <;> cases h

theorem head_integer : Head (RuleM.integerLiteral (K := K)) := @fun inp p st st' h => by
  rw [RuleM.integerLiteral] at h
  rcases h2 : integerLit inp with _ | r <;> rw [h2] at h
  · cases h; rfl
  · simp only [Said.bind] at h
    rcases h8 : stol (textOf inp r) with _ | _ | _ | _ | _ <;> rw [h8] at h <;> cases h

theorem local_numeral : Local (RuleM.numeral (K := K)) := local_sor local_double head_double local_integer

theorem head_numeral : Head (RuleM.numeral (K := K)) := head_sor head_integer

/-- A name is not a number. -/
theorem numeral_name {inp text r : List Char} (h : ident inp = some (text, r)) (st : PState K) :
    RuleM.numeral inp st = .does (.ok (.error inp, st)) := by
  have h1 : decimalSeq inp = none := by
    cases inp with
    | nil => rfl
    | cons c cs =>
      rw [ident] at h
      split at h
      case isFalse => cases h
      rename_i hc
      rw [decimalSeq, if_neg]
      intro hd
      have : isIdFirst c = false := by
        obtain ⟨d, rfl⟩ := isDigit_char hd
        clear h hd hc
        revert d
        decide
      rw [this] at hc
      cases hc
  have h2 : doubleLitM inp = .does (.ok none) := by
    rw [doubleLitM, doubleAlt1M, doubleAlt2M, h1]; rfl
  rw [RuleM.numeral, sor_of_fail (p := inp) (st1 := st) (by rw [RuleM.doubleLiteral, h2]; rfl),
    RuleM.integerLiteral, integerLit, h1]
  rfl

end
end Ahead
end Verif
