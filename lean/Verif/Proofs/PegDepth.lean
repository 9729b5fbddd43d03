import Verif.Proofs.PegStack

/-!
# The depth of recursion and the nesting of parentheses: proofs
-/

set_option linter.unusedSectionVars false

namespace Verif
namespace Peg

variable {N S : Type}

/-! ## How matches change the measure -/

/-- A match lowers the measure `f` by `b` at least. -/
def Falls (f : List Char → Nat) (b : Option Int) (F : Run S) : Prop :=
  ∀ z, b = some z → ∀ inp st rest st', F inp st = .ok (some rest, st') → (f rest : Int) + z ≤ f inp

section
variable {f : List Char → Nat} {b c : Option Int} {F G : Run S}

theorem Falls.none : Falls f none F := fun _ h => by cases h

theorem Falls.thenR (h1 : Falls f b F) (h2 : Falls f c G) : Falls f (both (· + ·) b c) (thenR F G) := by
  intro z hz inp st rest st' he
  cases b with
  | none => cases hz
  | some b =>
  cases c with
  | none => cases hz
  | some c =>
  cases hz
  obtain ⟨⟨r, s⟩, hr, he⟩ := Outcome.bind_eq_ok.1 he
  cases r with
  | none => cases he
  | some r =>
    have k1 := h1 b rfl inp st r s hr
    have k2 := h2 c rfl r s rest st' he
    change (f rest : Int) + (b + c) ≤ f inp
    omega

theorem Falls.elseR (h1 : Falls f b F) (h2 : Falls f c G) : Falls f (both min b c) (elseR F G) := by
  intro z hz inp st rest st' he
  cases b with
  | none => cases hz
  | some b =>
  cases c with
  | none => cases hz
  | some c =>
  cases hz
  obtain ⟨⟨r, s⟩, hr, he⟩ := Outcome.bind_eq_ok.1 he
  cases r with
  | none => have := h2 c rfl inp s rest st' he; omega
  | some r => cases he; have := h1 b rfl inp st _ _ hr; omega

theorem Falls.weaken {z y : Int} (h : Falls f (some z) F) (hy : y ≤ z) : Falls f (some y) F := by
  intro z' hz inp st rest st' he
  cases hz
  have := h z rfl inp st rest st' he
  omega

theorem Falls.starR (h1 : Falls f (some 0) F) (h2 : Falls f (some 0) G) : Falls f (some 0) (starR F G) := by
  intro z hz inp st rest st' he
  cases hz
  obtain ⟨⟨r, s⟩, hr, he⟩ := Outcome.bind_eq_ok.1 he
  cases r with
  | none => cases he; omega
  | some r =>
    have k1 := h1 0 rfl inp st r s hr
    have k2 := h2 0 rfl r s rest st' he
    omega

theorem Falls.optR (h : Falls f b F) : Falls f (both min (some 0) b) (optR F) := by
  intro z hz inp st rest st' he
  cases b with
  | none => cases hz
  | some b =>
  cases hz
  obtain ⟨⟨r, s⟩, hr, he⟩ := Outcome.bind_eq_ok.1 he
  cases r with
  | none => cases he; omega
  | some r => cases he; have := h b rfl inp st _ _ hr; omega

theorem Falls.notAtR (F : Run S) : Falls f (some 0) (notAtR F) := by
  intro z hz inp st rest st' he
  cases hz
  obtain ⟨⟨r, s⟩, hr, he⟩ := Outcome.bind_eq_ok.1 he
  cases r with
  | none => cases he; omega
  | some r => cases he

theorem Falls.mustR (h : Falls f b F) : Falls f b (mustR F) := by
  intro z hz inp st rest st' he
  obtain ⟨⟨r, s⟩, hr, he⟩ := Outcome.bind_eq_ok.1 he
  cases r with
  | none => cases he
  | some r => cases he; exact h z hz inp st _ _ hr

theorem Falls.applied (p : List Char → S → Outcome S) (h : Falls f b F) : Falls f b (applied p F) := by
  intro z hz inp st rest st' he
  obtain ⟨⟨r, s⟩, hr, he⟩ := Outcome.bind_eq_ok.1 he
  cases r with
  | none => cases he
  | some r =>
    obtain ⟨s', hs, he⟩ := Outcome.bind_eq_ok.1 he
    cases he
    exact h z hz inp st _ _ hr

theorem Falls.wrap (x : Action S) (a : Bool) (h : Falls f b F) : Falls f b (x.wrap a F) := by
  cases x with
  | nothing => exact h
  | apply p =>
    cases a with
    | false => exact h
    | true => exact h.applied p
  | fresh enter leave p =>
    intro z hz inp st rest st' he
    obtain ⟨⟨r, s⟩, hr, he⟩ := Outcome.bind_eq_ok.1 he
    cases he
    cases a with
    | false => exact h z hz inp _ _ _ hr
    | true => exact h.applied p z hz inp _ _ _ hr

end

theorem atLeast_zero {b : Option Int} (h : atLeast 0 b = true) : ∃ z, b = some z ∧ 0 ≤ z := by
  cases b with
  | none => cases h
  | some z => exact ⟨z, rfl, of_decide_eq_true h⟩

/-- What the measure has to do with characters. -/
structure Weighs (f : List Char → Nat) (special : List Char) (w : Char → Option Int) : Prop where
  step : ∀ c z, w c = some z → ∀ cs, (f cs : Int) + z ≤ f (c :: cs)
  plain : ∀ c, c ∉ special → ∀ cs, f cs ≤ f (c :: cs)

theorem char_falls {f : List Char → Nat} {p : Char → Bool} {z : Int}
    (h : ∀ c, p c = true → ∀ cs, (f cs : Int) + z ≤ f (c :: cs)) : Falls (S := S) f (some z) (char p) := by
  intro z' hz inp st rest st' he
  cases hz
  cases inp with
  | nil => cases he
  | cons c cs =>
    simp only [Peg.char, Outcome.ok.injEq, Prod.mk.injEq] at he
    obtain ⟨he, -⟩ := he
    split at he
    · rename_i hp
      cases he
      exact h c hp _
    · cases he

theorem one_falls {f : List Char → Nat} {special : List Char} {w : Char → Option Int} (hw : Weighs f special w) :
    ∀ (cs : List Char) (z : Int), cs.foldr (fun c b => both min (w c) b) (some 1) = some z →
      ∀ c ∈ cs, ∀ l, (f l : Int) + z ≤ f (c :: l)
  | [], _, _ => by simp
  | d :: cs, z, h => by
    intro c hc l
    rw [List.foldr_cons] at h
    cases h1 : w d with
    | none => rw [h1] at h; cases h
    | some y =>
    cases h2 : cs.foldr (fun c b => both min (w c) b) (some 1) with
    | none => rw [h1, h2] at h; cases h
    | some x =>
      rw [h1, h2] at h
      cases h
      rcases List.mem_cons.1 hc with rfl | hc
      · have := hw.step c y h1 l; omega
      · have := one_falls hw cs x h2 c hc l; omega

theorem str_falls {f : List Char → Nat} {special : List Char} {w : Char → Option Int} (hw : Weighs f special w) :
    ∀ (s : List Char) (z : Int), s.foldr (fun c b => both (· + ·) (w c) b) (some 0) = some z →
      ∀ l, (f l : Int) + z ≤ f (s ++ l)
  | [], _, h => by cases h; simp
  | c :: s, z, h => by
    intro l
    rw [List.foldr_cons] at h
    cases h1 : w c with
    | none => rw [h1] at h; cases h
    | some y =>
    cases h2 : s.foldr (fun c b => both (· + ·) (w c) b) (some 0) with
    | none => rw [h1, h2] at h; cases h
    | some x =>
      rw [h1, h2] at h
      cases h
      have h3 := hw.step c y h1 (s ++ l)
      have h4 := str_falls hw s x h2 l
      rw [List.cons_append]
      change (f l : Int) + (y + x) ≤ _
      omega

/-- `Exp.bal` is right if `known` is. -/
theorem bal_falls (g : Grammar N S) {f : List Char → Nat} {special : List Char} {w : Char → Option Int}
    (hw : Weighs f special w) (known : N → Int)
    (hk : ∀ x, (∀ n a, Falls f (some (known x)) (g.run n a (.nt x))) ∨
      ∃ z, (g.rules x).bal special w known = some z ∧ known x ≤ z) :
    ∀ n a e, Falls f (e.bal special w known) (g.run n a e)
  | 0, _, _ => fun _ _ _ _ _ _ h => by cases h
  | n + 1, a, e => by
    have ih := bal_falls g hw known hk n
    cases e with
    | one cs =>
      intro z hz
      exact char_falls (fun c hc => one_falls hw cs z hz c (by simpa using hc)) z rfl
    | ranges rs =>
      rw [Exp.bal]
      split
      · exact Falls.none
      · rename_i h
        refine char_falls fun c hc cs => ?_
        have := hw.plain c (fun hs => h (List.any_eq_true.2 ⟨c, hs, hc⟩)) cs
        omega
    | str s =>
      intro z hz inp st rest st' he
      simp only [Grammar.run, Outcome.ok.injEq, Prod.mk.injEq] at he
      obtain ⟨he, -⟩ := he
      split at he
      · rename_i hp
        obtain ⟨t, rfl⟩ := List.isPrefixOf_iff_prefix.1 hp
        cases he
        rw [List.drop_left]
        exact str_falls hw s z hz t
      · cases he
    | eof =>
      intro z hz inp st rest st' he
      cases hz
      simp only [Grammar.run, Outcome.ok.injEq, Prod.mk.injEq] at he
      obtain ⟨he, -⟩ := he
      split at he
      · cases he; omega
      · cases he
    | eolf => exact Falls.none
    | seq x y => exact (ih a x).thenR (ih a y)
    | sor x y => exact (ih a x).elseR (ih a y)
    | star x =>
      rw [Exp.bal]
      split
      · rename_i h
        obtain ⟨z, hz, h0⟩ := atLeast_zero h
        have h1 := ih a x
        have h2 := ih a (.star x)
        rw [Exp.bal, if_pos h] at h2
        rw [hz] at h1
        exact (h1.weaken h0).starR h2
      · exact Falls.none
    | plus x =>
      rw [Exp.bal]
      split
      · rename_i h
        obtain ⟨z, hz, h0⟩ := atLeast_zero h
        have h1 := ih a x
        have h2 := ih a (.star x)
        rw [Exp.bal, if_pos h] at h2
        rw [hz] at h1
        exact (h1.weaken h0).thenR h2
      · exact Falls.none
    | opt x => exact (ih a x).optR
    | notAt x => exact Falls.notAtR _
    | untilAny c => exact Falls.none
    | untl c x =>
      have h3 := ih a (.untl c x)
      rw [Exp.bal] at h3 ⊢
      split at h3
      · rename_i h
        rw [if_pos h]
        obtain ⟨z, hz, h0⟩ := atLeast_zero h
        have h1 := ih a x
        rw [hz] at h1
        have h2 := (h1.weaken h0).thenR h3
        intro y hy
        have h4 := (ih a c).elseR h2
        rw [hy] at h4
        simp only [both, zero_add, min_self] at h4
        exact h4 y rfl
      · rename_i h
        rw [if_neg h]
        exact Falls.none
    | must x => exact (ih a x).mustR
    | disable x => exact ih false x
    | nt x =>
      rcases hk x with h | ⟨z, hz, h⟩
      · exact h (n + 1) a
      · refine Falls.wrap _ a ?_
        have := ih a (g.rules x)
        rw [hz] at this
        exact this.weaken h

/-! ## grammar.hpp -/

/-- Parentheses count, comments do not. -/
def weight (c : Char) : Option Int :=
  if c = '(' then some 1 else if c = ')' then some (-1) else if c = ';' then none else some 0

theorem weighs_nesting : Weighs nesting ['(', ')', ';'] weight where
  step c z h cs := by
    unfold weight at h
    simp only [nesting, nestFrom]
    by_cases h1 : c = '('
    · rw [if_pos h1] at h ⊢; cases h; push_cast; omega
    rw [if_neg h1] at h ⊢
    by_cases h2 : c = ')'
    · rw [if_pos h2] at h ⊢; cases h; omega
    rw [if_neg h2] at h ⊢
    by_cases h3 : c = ';'
    · rw [if_pos h3] at h; cases h
    rw [if_neg h3] at h
    cases h
    have h4 : (c == ';') = false := beq_false_of_ne h3
    rw [h4]
    omega
  plain c h cs := by
    simp only [List.mem_cons, List.not_mem_nil, or_false, not_or] at h
    have h4 : (c == ';') = false := beq_false_of_ne h.2.2
    simp [nesting, nestFrom, h.1, h.2.1, h4]

theorem nestFrom_comment : ∀ cs, nestFrom true cs = nesting (afterComment cs)
  | [] => rfl
  | c :: cs => by
    rw [nestFrom, afterComment]
    by_cases h : c = '\n'
    · simp [h, nesting]
    · have h4 : (c != '\n') = true := bne_iff_ne.2 h
      rw [h4, if_neg h, nestFrom_comment cs]

/-- `(` opens, `)` closes; every other rule is balanced. -/
def parens : Nt → Int
  | .LParen => 1
  | .RParen => -1
  | _ => 0

variable {K : Type} [Field K] [LinearOrder K] [Arith K] [Strtod K]

theorem comment_falls (nd : Bool) (n : Nat) (a : Bool) :
    Falls nesting (some (parens .LineComment)) ((grammar (K := K) nd).run n a (.nt .LineComment)) := by
  intro z hz inp st rest st' he
  cases hz
  obtain ⟨m, hm⟩ := EvL.lineComment (K := K) (nd := nd) a inp st (by simp [Rule.lex])
  have h1 := hm (max m n) (by omega)
  have h2 := run_mono (grammar (K := K) nd) (by omega : n ≤ max m n) a (.nt .LineComment) inp st (by simp [he])
  simp only at h1
  rw [h2, he] at h1
  cases inp with
  | nil => simp [Rule.lex, chr] at h1
  | cons c cs =>
    simp only [Rule.lex, chr, Outcome.ok.injEq, Prod.mk.injEq] at h1
    by_cases hc : c = ';'
    · subst hc
      have : rest = afterComment cs := by simpa using h1.1
      subst this
      simp [nesting, nestFrom, nestFrom_comment, parens]
    · have : ¬ ([';'].contains c = true) := by simpa using hc
      rw [if_neg this] at h1
      cases h1.1

theorem grammar_falls (nd : Bool) :
    Lowers (grammar (K := K) nd) nesting (Exp.bal ['(', ')', ';'] weight parens) := fun e b hb n a =>
  bal_falls (grammar nd) weighs_nesting parens (fun x => by
    by_cases hx : x = .LineComment
    · subst hx; exact .inl (comment_falls nd)
    · right
      change ∃ z, (rules x).bal _ _ _ = some z ∧ _
      cases x <;> first | exact (hx rfl).elim | exact ⟨_, rfl, by decide⟩) n a e b hb

/-! ## A stack in proportion to the nesting is deep enough -/

/-- Rules in a table. -/
theorem deep_rules {S' : Type} (g : Grammar N S) (g' : Grammar N S') (h : g.rules = g'.rules)
    (bal : Exp N → Option Int) (flat : Exp N → Bool) : ∀ n, g.deep bal flat n = g'.deep bal flat n
  | 0 => rfl
  | n + 1 => by funext x; simp only [Grammar.deep, h, deep_rules g g' h bal flat n]

/-- The rules without actions. -/
def bare : Grammar Nt Unit := ⟨rules, fun _ => .nothing⟩

/-- The end of a line. -/
def isEolf : Exp Nt → Bool
  | .eolf => true
  | _ => false

/-- No recursion: names are nested at most three deep (`Skip`, `Sep`, `LineComment`). -/
def isFlat (e : Exp Nt) : Bool :=
  e.deep (fun _ => some 0) isEolf (bare.deep (fun _ => some 0) isEolf 3)

theorem height_le (x : Nt) : (rules x).height ≤ 15 := by cases x <;> decide

theorem flat_below (nd : Bool) (e : Exp Nt) (he : isFlat e = true) (F l : Nat) (a : Bool) (hl : F ≤ l) (d : Nat)
    (hd : 48 + e.height ≤ d) : Below ((grammar (K := K) nd).run F a e) ((grammar nd).stack l d a e) := by
  unfold isFlat at he
  rw [← deep_rules (grammar (K := K) nd) bare rfl] at he
  have := shallow (grammar (K := K) nd) (fun _ => 0) (fun _ => some 0) isEolf 0 15 0
    (fun e b hb n a inp st rest st' _ => by cases hb; simp) height_le
    (fun e he F l a _ d hd => by
      cases e with
      | eolf =>
        cases d with
        | zero => simp [Exp.height] at hd
        | succ d =>
          cases F with
          | zero => exact fun _ _ h => (h rfl).elim
          | succ F => exact Below.refl _
      | _ => cases he)
    (.inl fun e => rfl) F l a e 0 3 hl he d (by omega)
  exact fun inp st => this inp st (Nat.zero_le _)

theorem deep_grammar (x : Nt) :
    bare.deep (Exp.bal ['(', ')', ';'] weight parens) isFlat 9 x = true := by
  have : ∀ x ∈ Nt.all, bare.deep (Exp.bal ['(', ')', ';'] weight parens) isFlat 9 x = true := by
    decide +kernel
  exact this x (by cases x <;> decide)

/-- Every rule of grammar.hpp. -/
theorem stack_enough (nd : Bool) (x : Nt) (F l : Nat) (hl : F ≤ l) (a : Bool) (inp : List Char) (st : PState K)
    (d : Nat) (hd : 144 * nesting inp + 193 ≤ d) (h : (grammar nd).run F a (.nt x) inp st ≠ .diverge) :
    (grammar nd).stack l d a (.nt x) inp st = (grammar nd).run F a (.nt x) inp st := by
  refine shallow (grammar (K := K) nd) nesting (Exp.bal ['(', ')', ';'] weight parens) isFlat 9 15 48
    (grammar_falls nd) height_le (flat_below nd)
    (.inr fun x => by rw [deep_rules (grammar (K := K) nd) bare rfl]; exact deep_grammar x)
    F l a (.nt x) (nesting inp) 9 hl ?_ d ?_ inp st le_rfl h
  · rw [deep_rules (grammar (K := K) nd) bare rfl]; exact deep_grammar x
  · simp only [Exp.height]; omega

end Peg
end Verif
