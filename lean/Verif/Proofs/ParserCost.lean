import Verif.Model.ParserCost
import Mathlib.Tactic.Ring
import Mathlib.Tactic.Linarith

/-! # Lemmas on the cost of parsing -/

set_option linter.unusedSectionVars false

namespace Verif

namespace Lex

/-! ## The results are those of the rules that do not count -/

mutual
theorem skipC_fst : ∀ l : List Char, (skipC l).1 = skip l
  | [] => by simp [skipC, skip]
  | c :: cs => by
    unfold skipC skip
    split
    · exact skipC_fst cs
    · split
      · exact skipCommentC_fst cs
      · rfl
theorem skipCommentC_fst : ∀ l : List Char, (skipCommentC l).1 = skipComment l
  | [] => by simp [skipCommentC, skipComment]
  | c :: cs => by
    unfold skipCommentC skipComment
    split
    · exact skipC_fst cs
    · exact skipCommentC_fst cs
end

theorem strC_fst : ∀ k l : List Char, (strC k l).1 = str k l
  | [], l => by simp [strC, str]
  | k :: ks, [] => by simp [strC, str]
  | k :: ks, c :: cs => by
    have ih := strC_fst ks cs
    unfold strC str
    by_cases h : k = c
    · subst h
      unfold str at ih
      simpa using ih
    · simp [h]

theorem endOfWordC_fst (l : List Char) : (endOfWordC l).1 = endOfWord l := by
  cases l with
  | nil => rfl
  | cons c cs => simp only [endOfWordC, endOfWord]; split <;> simp [skipC_fst]

theorem keywordC_fst (key : String) (l : List Char) : (keywordC key l).1 = keyword key l := by
  unfold keywordC keyword
  have h := strC_fst key.toList l
  revert h
  rcases strC key.toList l with ⟨_ | r, n⟩ <;> intro h
  · rw [← h]; rfl
  · rw [← h]; exact endOfWordC_fst r

theorem spanC_fst (p : Char → Bool) : ∀ l : List Char, (spanC p l).1 = (l.takeWhile p, l.dropWhile p)
  | [] => rfl
  | c :: cs => by
    have ih := spanC_fst p cs
    unfold spanC
    split
    · rename_i h; simp [h, ih]
    · rename_i h; simp [h]

theorem identC_fst (l : List Char) : (identC l).1 = ident l := by
  cases l with
  | nil => rfl
  | cons c cs => simp only [identC, ident]; split <;> simp [spanC_fst]

theorem symC_fst (c : Char) (l : List Char) : (symC c l).1 = sym c l := by
  cases l with
  | nil => rfl
  | cons d cs => simp only [symC, sym]; split <;> simp [skipC_fst]

theorem strictSymC_fst (c : Char) (l : List Char) : (strictSymC c l).1 = strictSym c l := by
  cases l with
  | nil => rfl
  | cons d cs =>
    simp only [strictSymC, strictSym]
    split
    · cases cs with
      | nil => rfl
      | cons e es => dsimp only; split <;> simp [skipC_fst]
    · rfl

theorem weakSymC_fst (c : Char) (l : List Char) : (weakSymC c l).1 = weakSym c l := by
  unfold weakSymC weakSym
  have h := strC_fst [c, '='] l
  revert h
  rcases strC [c, '='] l with ⟨_ | r, n⟩ <;> intro h
  · rw [← h]; rfl
  · rw [← h]; simp [skipC_fst]

theorem decimalSeqC_fst (l : List Char) : (decimalSeqC l).1 = decimalSeq l := by
  cases l with
  | nil => rfl
  | cons d cs => simp only [decimalSeqC, decimalSeq]; split <;> simp [spanC_fst]

theorem exponentC_fst (l : List Char) : (exponentC l).1 = exponent l := by
  cases l with
  | nil => rfl
  | cons d cs =>
    simp only [exponentC, exponent]
    split
    · have h := decimalSeqC_fst (optSign cs)
      revert h
      rcases decimalSeqC (optSign cs) with ⟨_ | r, n⟩ <;> intro h <;> rw [← h]
    · rfl

theorem doubleAlt1C_fst (l : List Char) : (doubleAlt1C l).1 = doubleAlt1 l := by
  unfold doubleAlt1C doubleAlt1
  have h := decimalSeqC_fst l
  revert h
  rcases decimalSeqC l with ⟨_ | r, n⟩ <;> intro h <;> rw [← h]
  · rfl
  · rcases r with _ | ⟨c, cs⟩
    · rfl
    · by_cases hc : c = '.'
      · subst hc
        dsimp only
        rw [if_pos rfl]
        show _ = (match decimalSeq cs with
          | some r => (exponent r >>= fun x => match x with
            | some r' => pure (some r')
            | none => pure (some r) : Outcome (Option (List Char)))
          | none => pure none)
        have h := decimalSeqC_fst cs
        revert h
        rcases decimalSeqC cs with ⟨_ | r, m⟩ <;> intro h <;> rw [← h]
        · rfl
        · dsimp only
          have h := exponentC_fst r
          revert h
          rcases exponentC r with ⟨o, k⟩
          intro h
          rw [← h]
          rcases o with (_ | r') | _ | _ | _ | _ <;> rfl
      · dsimp only
        rw [if_neg hc]
        split
        · rename_i heq; injection heq with h1; injection h1 with h1; exact absurd h1 hc
        · rfl

theorem doubleAlt2C_fst (l : List Char) : (doubleAlt2C l).1 = doubleAlt2 l := by
  unfold doubleAlt2C doubleAlt2
  have h := decimalSeqC_fst l
  revert h
  rcases decimalSeqC l with ⟨_ | r, n⟩ <;> intro h <;> rw [← h]
  · rfl
  · exact exponentC_fst _

theorem doubleLitC_fst (l : List Char) : (doubleLitC l).1 = doubleLit l := by
  unfold doubleLitC doubleLit
  have h := doubleAlt1C_fst l
  revert h
  rcases doubleAlt1C l with ⟨o, n⟩
  intro h
  rw [← h]
  rcases o with (_ | r) | _ | _ | _ | _
  · have h := doubleAlt2C_fst l
    revert h
    rcases doubleAlt2C l with ⟨o, m⟩
    intro h
    show _ = (doubleAlt2 l >>= _)
    rw [← h]
    rcases o with (_ | r) | _ | _ | _ | _
    · rfl
    · show Outcome.ok (some (skipC r).1) = .ok (some (skip r)); rw [skipC_fst]
    all_goals rfl
  · show Outcome.ok (some (skipC r).1) = .ok (some (skip r)); rw [skipC_fst]
  all_goals rfl

theorem integerLitC_fst (l : List Char) : (integerLitC l).1 = integerLit l := by
  unfold integerLitC integerLit
  have h := decimalSeqC_fst l
  revert h
  rcases decimalSeqC l with ⟨_ | r, n⟩ <;> intro h <;> rw [← h]
  · rfl
  · simp [skipC_fst]

/-! ## The number of characters the lexical rules examine -/

mutual
theorem skipC_cost : ∀ l : List Char, (skipC l).2 + (skipC l).1.length = l.length + 1
  | [] => by simp [skipC]
  | c :: cs => by
    have h1 := skipC_cost cs
    have h2 := skipCommentC_cost cs
    simp only [skipC]
    split
    · simp only [List.length_cons]; omega
    · split
      · simp only [List.length_cons]; omega
      · simp only [List.length_cons]; omega
theorem skipCommentC_cost : ∀ l : List Char, (skipCommentC l).2 + (skipCommentC l).1.length = l.length + 1
  | [] => by simp [skipCommentC]
  | c :: cs => by
    have h1 := skipC_cost cs
    have h2 := skipCommentC_cost cs
    simp only [skipCommentC]
    split <;> simp only [List.length_cons] <;> omega
end

mutual
theorem skipC_len : ∀ l : List Char, (skipC l).1.length ≤ l.length
  | [] => by simp [skipC]
  | c :: cs => by
    have h1 := skipC_len cs
    have h2 := skipCommentC_len cs
    simp only [skipC]
    split
    · simp only [List.length_cons]; omega
    · split
      · simp only [List.length_cons]; omega
      · simp only [List.length_cons]; omega
theorem skipCommentC_len : ∀ l : List Char, (skipCommentC l).1.length ≤ l.length
  | [] => by simp [skipCommentC]
  | c :: cs => by
    have h1 := skipC_len cs
    have h2 := skipCommentC_len cs
    simp only [skipCommentC]
    split <;> simp only [List.length_cons] <;> omega
end

theorem strC_cost : ∀ k l : List Char, match strC k l with
    | (some r, n) => n = k.length ∧ r.length + k.length = l.length
    | (none, n) => n ≤ k.length
  | [], l => by simp [strC]
  | k :: ks, [] => by simp [strC]
  | k :: ks, c :: cs => by
    have ih := strC_cost ks cs
    simp only [strC]
    by_cases h : (k == c) = true
    · rw [if_pos h]
      revert ih
      rcases strC ks cs with ⟨_ | r, n⟩ <;> simp only [List.length_cons] <;> omega
    · rw [if_neg h]; simp

theorem endOfWordC_cost (l : List Char) : match endOfWordC l with
    | (some r, n) => n + r.length ≤ l.length + 2 ∧ r.length ≤ l.length
    | (none, n) => n = 1 := by
  cases l with
  | nil => simp [endOfWordC]
  | cons c cs =>
    simp only [endOfWordC]
    have h1 := skipC_cost (c :: cs)
    have h2 := skipC_len (c :: cs)
    split
    · rename_i h
      split at h <;> cases h
      exact ⟨by omega, h2⟩
    · rename_i h
      split at h <;> cases h
      rfl

theorem keywordC_cost (key : String) (l : List Char) : match keywordC key l with
    | (some r, n) => n + r.length ≤ l.length + 2 ∧ r.length + key.toList.length ≤ l.length
    | (none, n) => n ≤ key.toList.length + 1 := by
  unfold keywordC
  have h := strC_cost key.toList l
  revert h
  rcases strC key.toList l with ⟨_ | r, n⟩
  · intro h; dsimp only at h ⊢; omega
  · intro h
    dsimp only at h ⊢
    have h' := endOfWordC_cost r
    revert h'
    rcases endOfWordC r with ⟨_ | r', m⟩ <;> intro h' <;> dsimp only at h' ⊢ <;> omega

theorem spanC_cost (p : Char → Bool) : ∀ l : List Char,
    (spanC p l).2 + (spanC p l).1.2.length = l.length + 1 ∧ (spanC p l).1.2.length ≤ l.length
  | [] => by simp [spanC]
  | c :: cs => by
    have ih := spanC_cost p cs
    simp only [spanC]
    split <;> simp only [List.length_cons] <;> omega

theorem identC_cost (l : List Char) : match identC l with
    | (some (_, r), n) => n + r.length ≤ l.length + 1 ∧ r.length < l.length
    | (none, n) => n = 1 := by
  cases l with
  | nil => simp [identC]
  | cons c cs =>
    have h := spanC_cost isIdOther cs
    by_cases hc : isIdFirst c = true
    · simp only [identC, if_pos hc, List.length_cons]; omega
    · simp only [identC, if_neg hc]

theorem symC_cost (c : Char) (l : List Char) : match symC c l with
    | (some r, n) => n + r.length ≤ l.length + 1 ∧ r.length < l.length
    | (none, n) => n = 1 := by
  cases l with
  | nil => simp [symC]
  | cons d cs =>
    have h := skipC_cost cs
    have h2 := skipC_len cs
    by_cases hc : d = c
    · simp only [symC, if_pos hc, List.length_cons]; omega
    · simp only [symC, if_neg hc]

theorem strictSymC_cost (c : Char) (l : List Char) : match strictSymC c l with
    | (some r, n) => n + r.length ≤ l.length + 2 ∧ r.length < l.length
    | (none, n) => n ≤ 2 := by
  rcases l with _ | ⟨d, _ | ⟨e, cs⟩⟩
  · simp [strictSymC]
  · by_cases hc : d = c
    · simp [strictSymC, hc]
    · simp [strictSymC, hc]
  · have h := skipC_cost (e :: cs)
    have h2 := skipC_len (e :: cs)
    by_cases hc : d = c
    · by_cases he : e = c ∨ e = '='
      · simp only [strictSymC, if_pos hc, if_pos he]; omega
      · simp only [strictSymC, if_pos hc, if_neg he]
        simp only [List.length_cons] at *; omega
    · simp only [strictSymC, if_neg hc]; omega

theorem weakSymC_cost (c : Char) (l : List Char) : match weakSymC c l with
    | (some r, n) => n + r.length ≤ l.length + 2 ∧ r.length < l.length
    | (none, n) => n ≤ 2 := by
  unfold weakSymC
  have h := strC_cost [c, '='] l
  revert h
  rcases strC [c, '='] l with ⟨_ | r, n⟩ <;> intro h <;> dsimp only [List.length_cons, List.length_nil] at h ⊢
  · omega
  · have h1 := skipC_cost r
    have h2 := skipC_len r
    omega

theorem decimalSeqC_cost (l : List Char) : match decimalSeqC l with
    | (some r, n) => n + r.length ≤ l.length + 1 ∧ r.length < l.length
    | (none, n) => n = 1 := by
  cases l with
  | nil => simp [decimalSeqC]
  | cons c cs =>
    have h := spanC_cost Char.isDigit cs
    by_cases hc : c.isDigit = true
    · simp only [decimalSeqC, if_pos hc, List.length_cons]; omega
    · simp only [decimalSeqC, if_neg hc]

theorem optSign_len (l : List Char) : (optSign l).length ≤ l.length := by
  cases l with
  | nil => simp [optSign]
  | cons c cs => simp only [optSign]; split <;> simp

theorem optDot_len (l : List Char) : (optDot l).length ≤ l.length := by
  cases l with
  | nil => simp [optDot]
  | cons c cs => simp only [optDot]; split <;> simp

theorem exponentC_cost (l : List Char) : match exponentC l with
    | (.ok (some r), n) => n + r.length ≤ l.length + 2 ∧ r.length < l.length
    | (.ok none, n) => n = 1
    | (_, n) => n ≤ l.length + 3 := by
  cases l with
  | nil => simp [exponentC]
  | cons c cs =>
    by_cases hc : c = 'e' ∨ c = 'E'
    · simp only [exponentC, if_pos hc]
      have h := decimalSeqC_cost (optSign cs)
      have h' := optSign_len cs
      revert h
      rcases decimalSeqC (optSign cs) with ⟨_ | r, n⟩ <;> intro h <;>
        simp only [List.length_cons] at h ⊢ <;> omega
    · simp only [exponentC, if_neg hc]

theorem doubleAlt1C_cost (l : List Char) : match doubleAlt1C l with
    | (.ok (some r), n) => n + r.length ≤ l.length + 6 ∧ r.length < l.length
    | (.ok none, n) => (match (decimalSeqC l).1 with
      | some r => n + r.length ≤ l.length + 3
      | none => n ≤ 2)
    | (_, n) => n ≤ l.length + 6 := by
  unfold doubleAlt1C
  have h := decimalSeqC_cost l
  revert h
  rcases decimalSeqC l with ⟨_ | _ | ⟨c, cs⟩, n⟩ <;> intro h <;> dsimp only at h ⊢
  · omega
  · simp only [List.length_nil] at h ⊢; omega
  · simp only [List.length_cons] at h
    by_cases hc : c = '.'
    · rw [if_pos hc]
      have h1 := decimalSeqC_cost cs
      revert h1
      rcases decimalSeqC cs with ⟨_ | r, m⟩ <;> intro h1 <;> dsimp only at h1 ⊢
      · simp only [List.length_cons]; omega
      · have h2 := exponentC_cost r
        revert h2
        rcases exponentC r with ⟨(_ | r') | _ | _ | _ | _, k⟩ <;> intro h2 <;> dsimp only at h2 ⊢ <;> omega
    · rw [if_neg hc]
      simp only [List.length_cons]; omega

theorem doubleAlt2C_cost (l : List Char) : match doubleAlt2C l with
    | (.ok (some r), n) => n + r.length ≤ l.length + 6 ∧ r.length < l.length ∧
        (match (decimalSeqC l).1 with | some r0 => r.length ≤ r0.length | none => False)
    | (.ok none, n) => (match (decimalSeqC l).1 with
      | some r => n + r.length ≤ l.length + 3
      | none => n ≤ 1)
    | (_, n) => n ≤ l.length + 6 := by
  unfold doubleAlt2C
  have h := decimalSeqC_cost l
  revert h
  rcases decimalSeqC l with ⟨_ | r, n⟩ <;> intro h <;> dsimp only at h ⊢
  · omega
  · have h1 := exponentC_cost (optDot r)
    have h2 := optDot_len r
    revert h1
    rcases exponentC (optDot r) with ⟨(_ | r') | _ | _ | _ | _, k⟩ <;> intro h1 <;> dsimp only at h1 ⊢ <;> omega

theorem doubleLitC_cost (l : List Char) : match doubleLitC l with
    | (.ok (some r), n) => n + 3 * r.length ≤ 3 * l.length + 12 ∧ r.length < l.length
    | (.ok none, n) => (match (decimalSeqC l).1 with
      | some r => n + 2 * r.length ≤ 2 * l.length + 6
      | none => n ≤ 3)
    | (_, n) => n ≤ 3 * l.length + 12 := by
  unfold doubleLitC
  have h1 := doubleAlt1C_cost l
  have h2 := doubleAlt2C_cost l
  have h0 := decimalSeqC_cost l
  revert h1
  rcases doubleAlt1C l with ⟨(_ | r) | _ | _ | _ | _, n⟩ <;> intro h1 <;> dsimp only at h1 ⊢
  · revert h0 h1 h2
    rcases decimalSeqC l with ⟨_ | r0, n0⟩ <;> rcases doubleAlt2C l with ⟨(_ | r) | _ | _ | _ | _, m⟩ <;>
      intro h0 h2 h1 <;> dsimp only at h0 h1 h2 ⊢ <;> first | omega | skip
    all_goals
      have h3 := skipC_cost r
      have h4 := skipC_len r
      omega
  · have h3 := skipC_cost r
    have h4 := skipC_len r
    omega
  all_goals omega

theorem integerLitC_cost (l : List Char) : match integerLitC l with
    | (some r, n) => n + r.length ≤ l.length + 2 ∧ r.length < l.length ∧ 
        ∃ r0, (decimalSeqC l).1 = some r0 ∧ r.length ≤ r0.length
    | (none, n) => n = 1 ∧ (decimalSeqC l).1 = none := by
  unfold integerLitC
  have h := decimalSeqC_cost l
  revert h
  rcases decimalSeqC l with ⟨_ | r, n⟩ <;> intro h <;> dsimp only at h ⊢
  · exact ⟨h, rfl⟩
  · have h3 := skipC_cost r
    have h4 := skipC_len r
    exact ⟨by omega, by omega, r, rfl, h4⟩

theorem textOf_len (l r : List Char) (h : r.length ≤ l.length) : (textOf l r).length + r.length = l.length := by
  unfold textOf
  rw [List.length_take]; omega

end Lex

/-! ## The rules give the same results -/

/-- A rule that counts gives the results of a rule that does not. -/
def Counts {K : Type} (rc : RuleC K) (r : Rule K) : Prop := ∀ inp st, (rc inp st).1 = r inp st

namespace Counts
variable {K : Type} {c r r1 r2 : RuleC K} {c' r' r1' r2' : Rule K}

theorem lex {f : List Char → Option (List Char) × Nat} {g : List Char → Option (List Char)}
    (h : ∀ l, (f l).1 = g l) : Counts (K := K) (RuleC.lex f) (Rule.lex g) := fun inp st => by
  simp [RuleC.lex, Rule.lex, h]

theorem seq (h1 : Counts r1 r1') (h2 : Counts r2 r2') : Counts (RuleC.seq r1 r2) (Rule.seq r1' r2') := fun inp st => by
  simp only [RuleC.seq, Rule.seq]
  rw [← h1 inp st]
  rcases r1 inp st with ⟨⟨_ | rest, st'⟩ | _ | _ | _ | _, n⟩
  · rfl
  · exact h2 rest st'
  all_goals rfl

theorem sor (h1 : Counts r1 r1') (h2 : Counts r2 r2') : Counts (RuleC.sor r1 r2) (Rule.sor r1' r2') := fun inp st => by
  simp only [RuleC.sor, Rule.sor]
  rw [← h1 inp st]
  rcases r1 inp st with ⟨⟨_ | rest, st'⟩ | _ | _ | _ | _, n⟩
  · exact h2 inp st'
  all_goals rfl

theorem must (h : Counts r r') : Counts (RuleC.must r) (Rule.must r') := fun inp st => by
  simp only [RuleC.must, Rule.must]
  rw [← h inp st]
  rcases r inp st with ⟨⟨_ | rest, st'⟩ | _ | _ | _ | _, n⟩ <;> rfl

theorem ifMust (h1 : Counts c c') (h2 : Counts r r') : Counts (RuleC.ifMust c r) (Rule.ifMust c' r') :=
  seq h1 (must h2)

theorem act (h : Counts r r') (f : PState K → Outcome (PState K)) : Counts (RuleC.act r f) (Rule.act r' f) :=
  fun inp st => by
    simp only [RuleC.act, Rule.act]
    rw [← h inp st]
    rcases r inp st with ⟨⟨_ | rest, st'⟩ | _ | _ | _ | _, n⟩ <;> rfl

theorem until_ (h1 : Counts c c') (h2 : Counts r r') : ∀ n, Counts (RuleC.until_ c r n) (Rule.until_ c' r' n)
  | 0 => fun _ _ => rfl
  | n + 1 => fun inp st => by
    have ih := until_ h1 h2 n
    simp only [RuleC.until_, RuleC.sor, Rule.until_]
    rw [← h1 inp st]
    rcases c inp st with ⟨⟨_ | rest, st'⟩ | _ | _ | _ | _, n⟩
    · show ((RuleC.seq r (RuleC.until_ c r _)) inp st').1 = _
      simp only [RuleC.seq]
      show _ = (r' inp st' >>= _)
      rw [← h2 inp st']
      rcases r inp st' with ⟨⟨_ | rest, st''⟩ | _ | _ | _ | _, m⟩
      · rfl
      · exact ih rest st''
      all_goals rfl
    all_goals rfl

theorem star (h : Counts r r') : ∀ n, Counts (RuleC.star r n) (Rule.star r' n)
  | 0 => fun _ _ => rfl
  | n + 1 => fun inp st => by
    have ih := star h n
    simp only [RuleC.star, Rule.star]
    rw [← h inp st]
    rcases r inp st with ⟨⟨_ | rest, st'⟩ | _ | _ | _ | _, m⟩
    · rfl
    · exact ih rest st'
    all_goals rfl

theorem plus (h : Counts r r') (n : Nat) : Counts (RuleC.plus r n) (Rule.plus r' n) := seq h (star h n)

variable [Field K] [LinearOrder K]

theorem identifier : Counts (K := K) RuleC.identifier Rule.identifier := fun inp st => by
  simp only [RuleC.identifier, Rule.identifier]
  rw [← Lex.identC_fst]
  rcases Lex.identC inp with ⟨_ | ⟨t, rest⟩, n⟩
  · rfl
  · simp [Lex.endOfWordC_fst]

theorem booleanLiteral : Counts (K := K) RuleC.booleanLiteral Rule.booleanLiteral :=
  act (sor (act (lex (Lex.keywordC_fst _)) _) (act (lex (Lex.keywordC_fst _)) _)) _

theorem doubleLiteral [Arith K] [Strtod K] : Counts (K := K) RuleC.doubleLiteral Rule.doubleLiteral :=
  fun inp st => by
    simp only [RuleC.doubleLiteral, Rule.doubleLiteral]
    rw [← Lex.doubleLitC_fst]
    rcases Lex.doubleLitC inp with ⟨(_ | rest) | _ | _ | _ | _, n⟩ <;> rfl

theorem integerLiteral : Counts (K := K) RuleC.integerLiteral Rule.integerLiteral := fun inp st => by
  simp only [RuleC.integerLiteral, Rule.integerLiteral]
  rw [← Lex.integerLitC_fst]
  rcases Lex.integerLitC inp with ⟨_ | rest, n⟩ <;> rfl

theorem numeral [Arith K] [Strtod K] : Counts (K := K) RuleC.numeral Rule.numeral := sor doubleLiteral integerLiteral

theorem cmpSym {f : List Char → Option (List Char) × Nat} {g : List Char → Option (List Char)}
    (h : ∀ l, (f l).1 = g l) (op : ComparisonOp) : Counts (K := K) (RuleC.cmpSym f op) (Rule.cmpSym g op) :=
  act (lex h) _

theorem comparisonSymbol : Counts (K := K) RuleC.comparisonSymbol Rule.comparisonSymbol :=
  sor (cmpSym (Lex.strictSymC_fst _) _) <| sor (cmpSym (Lex.strictSymC_fst _) _) <|
    sor (cmpSym (Lex.weakSymC_fst _) _) (cmpSym (Lex.weakSymC_fst _) _)

theorem predicateTerm [Arith K] [Strtod K] : Counts (K := K) RuleC.predicateTerm Rule.predicateTerm :=
  act (ifMust comparisonSymbol (sor (act (seq identifier numeral) _) (act (seq numeral identifier) _))) _

theorem kw (key : String) : Counts (K := K) (RuleC.kw key) (Rule.kw key) := lex (Lex.keywordC_fst _)

theorem expression [Arith K] [Strtod K] (nd : Bool) (fuel : Nat) (h : Counts r r') :
    Counts (RuleC.expression nd fuel r) (Rule.expression nd fuel r') :=
  sor predicateTerm <|
  sor (act (ifMust (kw _) h) _) <|
  sor (act (ifMust (kw _) (plus h _)) _) <|
  sor (act (ifMust (kw _) (plus h _)) _) <|
  sor (act (ifMust (kw _) (seq h h)) _) <|
  sor (act (ifMust (kw _) (seq h h)) _) <|
  sor (act (ifMust (kw _) (seq h h)) _) <|
  sor (act (ifMust (kw _) h) _) <|
  sor (act (ifMust (kw _) h) _) <|
  sor (act (ifMust (kw _) (seq (must h) (must h))) _) h

theorem onNewState (h : Counts r r') : Counts (RuleC.onNewState r) (Rule.onNewState r') := fun inp st => by
  simp only [RuleC.onNewState, Rule.onNewState]
  rw [← h]
  rfl

theorem term [Arith K] [Strtod K] (nd : Bool) : ∀ n, Counts (K := K) (RuleC.term nd n) (Rule.term nd n)
  | 0 => fun _ _ => rfl
  | n + 1 => onNewState <| act (sor (ifMust (lex (Lex.symC_fst _))
      (until_ (lex (Lex.symC_fst _)) (expression nd n (term nd n)) n)) (sor booleanLiteral identifier)) _

theorem assertion [Arith K] [Strtod K] (nd : Bool) (n : Nat) :
    Counts (K := K) (RuleC.assertion nd n) (Rule.assertion nd n) :=
  act (ifMust (kw _) (seq (must identifier) (must (term nd n)))) _

theorem defineFormula [Arith K] [Strtod K] (nd : Bool) (n : Nat) :
    Counts (K := K) (RuleC.defineFormula nd n) (Rule.defineFormula nd n) :=
  act (ifMust (kw _) (seq (must identifier) (must (term nd n)))) _

theorem anyCommand [Arith K] [Strtod K] (nd : Bool) (n : Nat) :
    Counts (K := K) (RuleC.anyCommand nd n) (Rule.anyCommand nd n) :=
  ifMust (lex (Lex.symC_fst _)) (until_ (lex (Lex.symC_fst _)) (must (sor (assertion nd n) (defineFormula nd n))) n)

theorem specificationFile [Arith K] [Strtod K] (nd : Bool) (n : Nat) :
    Counts (K := K) (RuleC.specificationFile nd n) (Rule.specificationFile nd n) :=
  must (seq (lex fun l => by simp [Lex.skipC_fst])
    (until_ (lex fun _ => rfl) (seq (anyCommand nd n) (lex fun l => by simp [Lex.skipC_fst])) n))

end Counts

theorem fromStringC_fst {K : Type} [Field K] [LinearOrder K] [Arith K] [Strtod K] (nd : Bool) (fuel : Nat)
    (input : List Char) : (fromStringC (K := K) nd fuel input).1 = fromString nd fuel input := by
  simp only [fromStringC, fromString]
  rw [← Counts.specificationFile nd fuel input {}]
  rcases RuleC.specificationFile nd fuel input ({} : PState K) with ⟨⟨_ | rest, st'⟩ | _ | _ | _ | _, n⟩ <;> rfl

/-! ## The number of characters the rules examine -/

/-- How many characters a rule examines: 300 for each it consumes, less `d`, if it matches; a constant `F` if it
does not (and 300 for each of the input in addition, if `late`); and at most 300 for each of the input, plus `T`, if
the parse ends. -/
def Lin {K : Type} (late : Bool) (d F T : ℤ) (r : RuleC K) : Prop := ∀ inp st,
  match r inp st with
  | (.ok (some rest, _), n) => (n : ℤ) + d + 300 * rest.length ≤ 300 * inp.length
  | (.ok (none, _), n) => (n : ℤ) ≤ (if late then 300 * (inp.length : ℤ) else 0) + F
  | (_, n) => (n : ℤ) ≤ 300 * inp.length + T

namespace Lin
variable {K : Type} {c r r1 r2 : RuleC K} {b b1 b2 : Bool} {d F T d1 F1 T1 d2 F2 T2 : ℤ}

theorem weaken (h : Lin b d1 F1 T1 r) (hd : d ≤ d1) (hF : F1 ≤ F) (hT : T1 ≤ T) : Lin b d F T r := fun inp st => by
  have h := h inp st
  revert h
  rcases r inp st with ⟨⟨_ | rest, st'⟩ | _ | _ | _ | _, n⟩ <;> intro h <;> dsimp only at h ⊢ <;> linarith

theorem late (h : Lin b d F T r) : Lin true d F T r := fun inp st => by
  have h := h inp st
  revert h
  rcases r inp st with ⟨⟨_ | rest, st'⟩ | _ | _ | _ | _, n⟩ <;> intro h <;> dsimp only at h ⊢ <;> try linarith
  cases b <;> simp at h ⊢ <;> linarith [Int.natCast_nonneg inp.length]

theorem seq (h1 : Lin b1 d1 F1 T1 r1) (h2 : Lin b2 d2 F2 T2 r2) (hd : d ≤ d1 + d2) (hF1 : F1 ≤ F) (hF2 : F2 - d1 ≤ F)
    (hT1 : T1 ≤ T) (hT2 : T2 - d1 ≤ T) : Lin true d F T (RuleC.seq r1 r2) := fun inp st => by
  have h1 := h1.late inp st
  unfold RuleC.seq
  revert h1
  rcases r1 inp st with ⟨⟨_ | rest, st'⟩ | _ | _ | _ | _, n⟩ <;> intro h1 <;> simp only [if_true] at h1 ⊢
  · linarith
  · have h2 := h2.late rest st'
    revert h2
    rcases r2 rest st' with ⟨⟨_ | rest', st''⟩ | _ | _ | _ | _, m⟩ <;> intro h2 <;>
      simp only [if_true] at h2 ⊢ <;> push_cast <;> linarith
  all_goals linarith

theorem sor (h1 : Lin false d1 F1 T1 r1) (h2 : Lin b d2 F2 T2 r2) (hd1 : d ≤ d1) (hd2 : d ≤ d2 - F1)
    (hF : F1 + F2 ≤ F) (hT1 : T1 ≤ T) (hT2 : F1 + T2 ≤ T) : Lin b d F T (RuleC.sor r1 r2) := fun inp st => by
  have h1 := h1 inp st
  unfold RuleC.sor
  revert h1
  rcases r1 inp st with ⟨⟨_ | rest, st'⟩ | _ | _ | _ | _, n⟩ <;> intro h1 <;> dsimp only at h1 ⊢
  · have h2 := h2 inp st'
    revert h2
    rcases r2 inp st' with ⟨⟨_ | rest', st''⟩ | _ | _ | _ | _, m⟩ <;> intro h2 <;>
      dsimp only at h2 ⊢ <;> push_cast <;> simp at h1 <;> linarith
  all_goals linarith

theorem must (h : Lin b d F1 T1 r) (hF : F1 ≤ T) (hT : T1 ≤ T) : Lin false d 0 T (RuleC.must r) := fun inp st => by
  have h := h.late inp st
  unfold RuleC.must
  revert h
  rcases r inp st with ⟨⟨_ | rest, st'⟩ | _ | _ | _ | _, n⟩ <;> intro h <;> simp only [if_true] at h ⊢ <;> linarith

theorem ifMust (h1 : Lin false d1 F1 T1 c) (h2 : Lin b d2 F2 T2 r) (hd : d ≤ d1 + d2) (hF : F1 ≤ F) (hT1 : T1 ≤ T)
    (hF2 : F2 - d1 ≤ T) (hT2 : T2 - d1 ≤ T) : Lin false d F T (RuleC.ifMust c r) := fun inp st => by
  have h1 := h1 inp st
  simp only [RuleC.ifMust, RuleC.seq]
  revert h1
  rcases c inp st with ⟨⟨_ | rest, st'⟩ | _ | _ | _ | _, n⟩ <;> intro h1 <;> dsimp only at h1 ⊢
  · linarith
  · have h2 := h2.late rest st'
    simp only [RuleC.must]
    revert h2
    rcases r rest st' with ⟨⟨_ | rest', st''⟩ | _ | _ | _ | _, m⟩ <;> intro h2 <;>
      simp only [if_true] at h2 ⊢ <;> push_cast <;> linarith
  all_goals linarith

theorem act (h : Lin b d F T r) (f : PState K → Outcome (PState K)) (hT : -d ≤ T) : Lin b d F T (RuleC.act r f) :=
  fun inp st => by
    have h := h inp st
    unfold RuleC.act
    revert h
    rcases r inp st with ⟨⟨_ | rest, st'⟩ | _ | _ | _ | _, n⟩ <;> intro h <;> dsimp only at h ⊢
    · exact h
    · have : (0 : ℤ) ≤ rest.length := Int.natCast_nonneg _
      rcases f st' with st'' | _ | _ | _ | _ <;> dsimp only [Outcome.bind] <;> linarith
    all_goals exact h

theorem onNewState [Field K] [LinearOrder K] (h : Lin b d F T r) : Lin b d F T (RuleC.onNewState r) :=
  fun inp st => by
    have h := h inp { g := st.g }
    unfold RuleC.onNewState
    revert h
    rcases r inp { g := st.g } with ⟨⟨_ | rest, st'⟩ | _ | _ | _ | _, n⟩ <;> intro h <;> exact h

theorem diverge (hT : 0 ≤ T) : Lin b d F T (fun _ _ => (.diverge, 0) : RuleC K) := fun inp st => by
  have : (0 : ℤ) ≤ inp.length := Int.natCast_nonneg _
  dsimp only
  push_cast
  linarith

theorem until_ (h1 : Lin false d1 F1 T1 c) (h2 : Lin b d2 F2 T2 r) (hT0 : 0 ≤ T) (hr : F1 ≤ d2) (hd : d ≤ d1)
    (hT1 : T1 ≤ T) (hT2 : F1 + T2 ≤ T) (hF : F1 + F2 ≤ F) : ∀ n, Lin true d F T (RuleC.until_ c r n)
  | 0 => diverge hT0
  | n + 1 => by
    refine sor h1 (seq (d := d + F1) (F := F - F1) (T := T - F1) h2 (until_ h1 h2 hT0 hr hd hT1 hT2 hF n)
      ?_ ?_ ?_ ?_ ?_) ?_ ?_ ?_ ?_ ?_ <;> linarith

theorem star (h : Lin false d1 F1 T1 r) (hT0 : 0 ≤ T) (hr : 0 ≤ d1) (hT : T1 ≤ T) :
    ∀ n, Lin true (-F1) 0 T (RuleC.star r n)
  | 0 => diverge hT0
  | n + 1 => fun inp st => by
    have ih := star h hT0 hr hT n
    have h := h inp st
    simp only [RuleC.star]
    revert h
    rcases r inp st with ⟨⟨_ | rest, st'⟩ | _ | _ | _ | _, m⟩ <;> intro h <;> dsimp only at h ⊢
    · simp at h; linarith
    · have ih := ih rest st'
      revert ih
      rcases RuleC.star r n rest st' with ⟨⟨_ | rest', st''⟩ | _ | _ | _ | _, k⟩ <;> intro ih <;>
        simp only [if_true] at ih ⊢ <;> push_cast <;> linarith
    all_goals linarith

/-! ### The rules of the grammar -/

theorem lex_some {f : List Char → Option (List Char) × Nat} (h : ∀ l, match f l with
    | (some r, n) => n + r.length ≤ l.length + 2 ∧ r.length < l.length
    | (none, n) => (n : ℤ) ≤ F) : Lin (K := K) false 297 F T (RuleC.lex f) := fun inp st => by
  have h := h inp
  unfold RuleC.lex
  revert h
  rcases f inp with ⟨_ | r, n⟩ <;> intro h <;> dsimp only at h ⊢
  · simpa using h
  · omega

variable [Field K] [LinearOrder K]

theorem sym (c : Char) : Lin (K := K) false 297 1 0 (RuleC.lex (Lex.symC c)) := lex_some fun l => by
  have h := Lex.symC_cost c l
  revert h
  rcases Lex.symC c l with ⟨_ | r, n⟩ <;> intro h <;> dsimp only at h ⊢ <;> omega

theorem kw (key : String) (k : ℕ) (hk : key.toList.length = k) (h0 : 0 < k) :
    Lin (K := K) false 297 (k + 1) 0 (RuleC.kw key) := lex_some fun l => by
  have h := Lex.keywordC_cost key l
  revert h
  rcases Lex.keywordC key l with ⟨_ | r, n⟩ <;> intro h <;> dsimp only at h ⊢ <;> omega

theorem strictSym (c : Char) (op : ComparisonOp) : Lin (K := K) false 297 2 0 (RuleC.cmpSym (Lex.strictSymC c) op) :=
  act (lex_some fun l => by
    have h := Lex.strictSymC_cost c l
    revert h
    rcases Lex.strictSymC c l with ⟨_ | r, n⟩ <;> intro h <;> dsimp only at h ⊢ <;> omega) _ (by norm_num)

theorem weakSym (c : Char) (op : ComparisonOp) : Lin (K := K) false 297 2 0 (RuleC.cmpSym (Lex.weakSymC c) op) :=
  act (lex_some fun l => by
    have h := Lex.weakSymC_cost c l
    revert h
    rcases Lex.weakSymC c l with ⟨_ | r, n⟩ <;> intro h <;> dsimp only at h ⊢ <;> omega) _ (by norm_num)

theorem comparisonSymbol : Lin (K := K) false 291 8 6 RuleC.comparisonSymbol := by
  refine sor (strictSym _ _) (sor (d := 293) (F := 6) (T := 4) (strictSym _ _)
    (sor (d := 295) (F := 4) (T := 2) (weakSym _ _) (weakSym _ _) ?_ ?_ ?_ ?_ ?_) ?_ ?_ ?_ ?_ ?_) ?_ ?_ ?_ ?_ ?_ <;>
    norm_num

/-- After the characters of an identifier the word ends. -/
theorem endOfWord_span (l : List Char) : (Lex.endOfWordC (Lex.spanC Lex.isIdOther l).1.2).1 ≠ none := by
  induction l with
  | nil => simp [Lex.spanC, Lex.endOfWordC]
  | cons c cs ih =>
    by_cases h : Lex.isIdOther c = true
    · simpa [Lex.spanC, h] using ih
    · simp [Lex.spanC, h, Lex.endOfWordC]

theorem identC_endOfWord (l t r : List Char) (n : ℕ) (h : Lex.identC l = (some (t, r), n)) :
    (Lex.endOfWordC r).1 ≠ none := by
  cases l with
  | nil => simp [Lex.identC] at h
  | cons c cs =>
    simp only [Lex.identC] at h
    split at h
    · injection h with h1 h2
      injection h1 with h1
      injection h1 with h1 h3
      rw [← h3]
      exact endOfWord_span cs
    · simp at h

theorem identifier : Lin (K := K) false 290 1 0 RuleC.identifier := fun inp st => by
  have h := Lex.identC_cost inp
  have h0 := identC_endOfWord inp
  unfold RuleC.identifier
  revert h h0
  rcases Lex.identC inp with ⟨_ | ⟨t, r⟩, n⟩ <;> intro h h0 <;> dsimp only at h ⊢
  · simp [h]
  · have h1 := Lex.endOfWordC_cost r
    have h0 := h0 t r n rfl
    revert h1 h0
    rcases Lex.endOfWordC r with ⟨_ | r', m⟩ <;> intro h1 h0 <;> dsimp only at h1 ⊢
    · exact absurd rfl h0
    · push_cast; omega

theorem booleanLiteral : Lin (K := K) false 292 11 5 RuleC.booleanLiteral := by
  refine act (sor (act (kw "true" 4 rfl (by norm_num)) _ ?_) (act (kw "false" 5 rfl (by norm_num)) _ ?_)
    ?_ ?_ ?_ ?_ ?_) _ ?_ <;> norm_num

theorem numeral [Arith K] [Strtod K] : Lin (K := K) false 280 4 20 RuleC.numeral := fun inp st => by
  have h1 := Lex.doubleLitC_cost inp
  have h2 := Lex.integerLitC_cost inp
  unfold RuleC.numeral RuleC.sor RuleC.doubleLiteral RuleC.integerLiteral
  revert h1 h2
  rcases Lex.doubleLitC inp with ⟨(_ | r) | _ | _ | _ | _, n⟩ <;> intro h1 h2 <;> dsimp only at h1 ⊢
  · revert h2
    rcases Lex.integerLitC inp with ⟨_ | r, m⟩ <;> intro h2 <;> dsimp only at h2 ⊢
    · rw [h2.2] at h1
      dsimp only at h1
      push_cast
      simp
      omega
    · obtain ⟨h3, h4, r0, h5, h6⟩ := h2
      rw [h5] at h1
      dsimp only at h1
      have h7 := Lex.textOf_len inp r (by omega)
      rcases stol (Lex.textOf inp r) with _ | _ | _ | _ | _ <;> dsimp only [Outcome.bind] <;> push_cast <;> omega
  · have h7 := Lex.textOf_len inp r (by omega)
    rcases stod (K := K) (Lex.textOf inp r) with _ | _ | _ | _ | _ <;> dsimp only [Outcome.bind] <;> push_cast <;> omega
  all_goals omega

/-- A numeral does not begin like an identifier. -/
theorem not_both [Arith K] [Strtod K] (inp : List Char) :
    (∀ st : PState K, RuleC.identifier inp st = (.ok (none, st), 1)) ∨
    (∀ st : PState K, RuleC.numeral inp st = (.ok (none, st), 4)) := by
  cases inp with
  | nil => left; intro st; rfl
  | cons c cs =>
    by_cases h : Lex.isIdFirst c = true
    · right
      intro st
      have hd : ¬ c.isDigit = true := by
        intro h'
        simp only [Lex.isIdFirst, Char.isAlpha, Char.isUpper, Char.isLower, Char.isDigit, Bool.or_eq_true,
          Bool.and_eq_true, decide_eq_true_eq, beq_iff_eq, ge_iff_le, UInt32.le_iff_toNat_le] at h h'
        rcases h with h | h
        · simp at h h'; omega
        · subst h; simp at h'
      have h1 : Lex.decimalSeqC (c :: cs) = (none, 1) := by simp [Lex.decimalSeqC, hd]
      have h2 : Lex.doubleLitC (c :: cs) = (.ok none, 3) := by
        simp [Lex.doubleLitC, Lex.doubleAlt1C, Lex.doubleAlt2C, h1]
      have h3 : Lex.integerLitC (c :: cs) = (none, 1) := by simp [Lex.integerLitC, h1]
      simp [RuleC.numeral, RuleC.sor, RuleC.doubleLiteral, RuleC.integerLiteral, h2, h3]
    · left
      intro st
      simp [RuleC.identifier, Lex.identC, h]

theorem predicateForm [Arith K] [Strtod K] : Lin (K := K) true 280 10 21 RuleC.predicateForm := fun inp st => by
  have h1 : Lin (K := K) true 500 1 20 (RuleC.act (RuleC.seq RuleC.identifier RuleC.numeral) (Rule.setType .ONE)) := by
    refine act (seq identifier numeral ?_ ?_ ?_ ?_ ?_) _ ?_ <;> norm_num
  have h2 : Lin (K := K) true 500 4 20 (RuleC.act (RuleC.seq RuleC.numeral RuleC.identifier) (Rule.setType .TWO)) := by
    refine act (seq numeral identifier ?_ ?_ ?_ ?_ ?_) _ ?_ <;> norm_num
  rcases not_both (K := K) inp with h | h
  · have e : RuleC.predicateForm inp st = RuleC.sor (fun _ st => (.ok (none, st), 1))
        (RuleC.act (RuleC.seq RuleC.numeral RuleC.identifier) (Rule.setType .TWO)) inp st := by
      simp only [RuleC.predicateForm, RuleC.sor, RuleC.act, RuleC.seq, h]
    rw [e]
    have h0 : Lin (K := K) false 1000 1 0 (fun _ st => (.ok (none, st), 1)) := fun _ _ => by simp
    exact sor (d := 280) (F := 10) (T := 21) h0 h2 (by norm_num) (by norm_num) (by norm_num) (by norm_num) (by norm_num) inp st
  · have h1 := h1 inp st
    simp only [RuleC.predicateForm, RuleC.sor]
    revert h1
    rcases RuleC.act (RuleC.seq RuleC.identifier RuleC.numeral) (Rule.setType .ONE) inp st with
      ⟨⟨_ | rest, st'⟩ | _ | _ | _ | _, n⟩ <;> intro h1 <;> dsimp only at h1 ⊢
    · have e : RuleC.act (RuleC.seq RuleC.numeral RuleC.identifier) (Rule.setType .TWO) inp st' = (.ok (none, st'), 4) := by
        simp only [RuleC.act, RuleC.seq, h]
      rw [e]
      simp only [if_true] at h1 ⊢
      push_cast
      linarith
    all_goals linarith

theorem predicateTerm [Arith K] [Strtod K] : Lin (K := K) false 500 8 6 RuleC.predicateTerm := by
  refine act (ifMust comparisonSymbol predicateForm ?_ ?_ ?_ ?_ ?_) _ ?_ <;> norm_num

/-- The rule for an operator: its keyword, then operands. -/
theorem operator {body : RuleC K} (key : String) (k : ℕ) (hk : key.toList.length = k) (h0 : 0 < k)
    (h : Lin b d F T body) (hd : 0 ≤ d) (hF : F ≤ 300) (hT : T ≤ 300) (f : PState K → Outcome (PState K)) :
    Lin false 290 (k + 1) 10 (RuleC.act (RuleC.ifMust (RuleC.kw key) body) f) := by
  refine act (ifMust (kw key k hk h0) h ?_ ?_ ?_ ?_ ?_) _ ?_ <;> linarith

theorem expression [Arith K] [Strtod K] (nd : Bool) (fuel : ℕ) (h : Lin false 200 20 20 r) :
    Lin false 141 79 79 (RuleC.expression nd fuel r) := by
  have hp : Lin true 180 20 20 (RuleC.plus r fuel) := by
    refine seq h (star (T := 20) h ?_ ?_ ?_ fuel) ?_ ?_ ?_ ?_ ?_ <;> norm_num
  have hs : Lin true 400 20 20 (RuleC.seq r r) := by
    refine seq h h ?_ ?_ ?_ ?_ ?_ <;> norm_num
  have hm : Lin true 400 20 20 (RuleC.seq (RuleC.must r) (RuleC.must r)) := by
    refine seq (must (T := 20) h ?_ ?_) (must (T := 20) h ?_ ?_) ?_ ?_ ?_ ?_ ?_ <;> norm_num
  have o := fun (key : String) (k : ℕ) (hk : key.toList.length = k) (h0 : 0 < k) {body : RuleC K} (b : Bool) (d : ℤ)
    (hb : Lin b d 20 20 body) (hd : 0 ≤ d) (f : PState K → Outcome (PState K)) =>
    operator key k hk h0 hb hd (by norm_num) (by norm_num) f
  have a1 := sor (d := 194) (F := 26) (T := 26) (o "until" 5 rfl (by norm_num) _ _ hm (by norm_num)
    (Rule.binaryAction nd fun a b => .ok (Expr.Until a b))) h
    (by norm_num) (by norm_num) (by norm_num) (by norm_num) (by norm_num)
  have a2 := sor (d := 183) (F := 37) (T := 37) (o "eventually" 10 rfl (by norm_num) _ _ h (by norm_num)
    (Rule.unaryAction nd true Expr.Eventually)) a1 (by norm_num) (by norm_num) (by norm_num) (by norm_num) (by norm_num)
  have a3 := sor (d := 176) (F := 44) (T := 44) (o "always" 6 rfl (by norm_num) _ _ h (by norm_num)
    (Rule.unaryAction nd true Expr.Always)) a2 (by norm_num) (by norm_num) (by norm_num) (by norm_num) (by norm_num)
  have a4 := sor (d := 172) (F := 48) (T := 48) (o "xor" 3 rfl (by norm_num) _ _ hs (by norm_num)
    (Rule.binaryAction nd Expr.Xor)) a3 (by norm_num) (by norm_num) (by norm_num) (by norm_num) (by norm_num)
  have a5 := sor (d := 168) (F := 52) (T := 52) (o "iff" 3 rfl (by norm_num) _ _ hs (by norm_num)
    (Rule.binaryAction nd Expr.Iff)) a4 (by norm_num) (by norm_num) (by norm_num) (by norm_num) (by norm_num)
  have a6 := sor (d := 160) (F := 60) (T := 60) (o "implies" 7 rfl (by norm_num) _ _ hs (by norm_num)
    (Rule.binaryAction nd Expr.Implies)) a5 (by norm_num) (by norm_num) (by norm_num) (by norm_num) (by norm_num)
  have a7 := sor (d := 157) (F := 63) (T := 63) (o "or" 2 rfl (by norm_num) _ _ hp (by norm_num)
    (Rule.naryAction nd Expr.Or)) a6 (by norm_num) (by norm_num) (by norm_num) (by norm_num) (by norm_num)
  have a8 := sor (d := 153) (F := 67) (T := 67) (o "and" 3 rfl (by norm_num) _ _ hp (by norm_num)
    (Rule.naryAction nd Expr.And)) a7 (by norm_num) (by norm_num) (by norm_num) (by norm_num) (by norm_num)
  have a9 := sor (d := 149) (F := 71) (T := 71) (o "not" 3 rfl (by norm_num) _ _ h (by norm_num)
    (Rule.unaryAction nd false Expr.Not)) a8 (by norm_num) (by norm_num) (by norm_num) (by norm_num) (by norm_num)
  exact sor predicateTerm a9 (by norm_num) (by norm_num) (by norm_num) (by norm_num) (by norm_num)

theorem term [Arith K] [Strtod K] (nd : Bool) : ∀ n, Lin (K := K) false 200 20 20 (RuleC.term nd n)
  | 0 => diverge (by norm_num)
  | n + 1 => by
    have h1 : Lin (K := K) false 500 1 0 (RuleC.ifMust (RuleC.lex (Lex.symC '('))
        (RuleC.until_ (RuleC.lex (Lex.symC ')')) (RuleC.expression nd n (RuleC.term nd n)) n)) := by
      refine ifMust (sym _) (until_ (d := 297) (F := 80) (T := 80) (sym _) (expression nd n (term nd n))
        ?_ ?_ ?_ ?_ ?_ ?_ n) ?_ ?_ ?_ ?_ ?_ <;> norm_num
    refine onNewState (act (sor h1 (sor (d := 279) (F := 12) (T := 11) booleanLiteral identifier
      ?_ ?_ ?_ ?_ ?_) ?_ ?_ ?_ ?_ ?_) _ ?_) <;> norm_num

theorem command [Arith K] [Strtod K] (nd : Bool) (n : ℕ) (key : String) (k : ℕ) (hk : key.toList.length = k)
    (h0 : 0 < k) (f : PState K → Outcome (PState K)) : Lin (K := K) false 290 (k + 1) 10
      (RuleC.act (RuleC.ifMust (RuleC.kw key) (RuleC.seq (RuleC.must RuleC.identifier) (RuleC.must (RuleC.term nd n))))
        f) := by
  have hm : Lin (K := K) true 400 20 20 (RuleC.seq (RuleC.must RuleC.identifier) (RuleC.must (RuleC.term nd n))) := by
    refine seq (must (T := 20) identifier ?_ ?_) (must (T := 20) (term nd n) ?_ ?_) ?_ ?_ ?_ ?_ ?_ <;> norm_num
  exact operator key k hk h0 hm (by norm_num) (by norm_num) (by norm_num) f

theorem anyCommand [Arith K] [Strtod K] (nd : Bool) (n : ℕ) :
    Lin (K := K) false 500 1 0 (RuleC.anyCommand nd n) := by
  have hc : Lin (K := K) false 270 22 30 (RuleC.sor (RuleC.assertion nd n) (RuleC.defineFormula nd n)) := by
    refine sor (command nd n "assert" 6 rfl ?_ _) (command nd n "define-formula" 14 rfl ?_ _) ?_ ?_ ?_ ?_ ?_ <;>
      norm_num
  refine ifMust (sym _) (until_ (d := 297) (F := 80) (T := 80) (sym _) (must (T := 30) hc ?_ ?_)
    ?_ ?_ ?_ ?_ ?_ ?_ n) ?_ ?_ ?_ ?_ ?_ <;> norm_num

theorem skip : Lin (K := K) false (-1) 0 0 RuleC.skip := fun inp st => by
  have h := Lex.skipC_cost inp
  have h' := Lex.skipC_len inp
  unfold RuleC.skip RuleC.lex
  dsimp only
  omega

theorem eof : Lin (K := K) false (-1) 1 0 RuleC.eof := fun inp st => by
  unfold RuleC.eof RuleC.lex
  cases inp <;> simp

theorem specificationFile [Arith K] [Strtod K] (nd : Bool) (n : ℕ) :
    Lin (K := K) false (-2) 0 3 (RuleC.specificationFile nd n) := by
  have hc : Lin (K := K) true 400 1 0 (RuleC.seq (RuleC.anyCommand nd n) RuleC.skip) := by
    refine seq (anyCommand nd n) skip ?_ ?_ ?_ ?_ ?_ <;> norm_num
  refine must (seq (F := 3) (T := 3) skip (until_ (d := -1) (F := 2) (T := 2) eof hc ?_ ?_ ?_ ?_ ?_ ?_ n)
    ?_ ?_ ?_ ?_ ?_) ?_ ?_ <;> norm_num

end Lin

theorem fromStringC_cost {K : Type} [Field K] [LinearOrder K] [Arith K] [Strtod K] (nd : Bool) (fuel : ℕ)
    (input : List Char) : (fromStringC (K := K) nd fuel input).2 ≤ 300 * input.length + 3 := by
  have h := Lin.specificationFile (K := K) nd fuel input {}
  unfold fromStringC
  dsimp only
  revert h
  rcases RuleC.specificationFile nd fuel input ({} : PState K) with ⟨⟨_ | rest, st'⟩ | _ | _ | _ | _, n⟩ <;>
    intro h <;> dsimp only at h ⊢ <;> omega

end Verif
