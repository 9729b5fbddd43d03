import Verif.Proofs.ParserDef

/-!
# Exceptions of the parser, and its two builds
-/

set_option linter.unusedSectionVars false

namespace Verif
namespace Rule
variable {K : Type}

/-! ## Debug and release -/

/-- The debug build does the same, or an assertion fails. -/
def Le {α : Type} (a b : Outcome α) : Prop := a = .abort ∨ a = b

theorem Le.refl {α : Type} (a : Outcome α) : Le a a := .inr rfl

theorem Le.bind {α β : Type} {x y : Outcome α} {f g : α → Outcome β} (h : Le x y) (hf : ∀ a, Le (f a) (g a)) :
    Le (x >>= f) (y >>= g) := by
  rcases h with rfl | rfl
  · exact .inl rfl
  · cases x with
    | ok a => exact hf a
    | _ => exact .inr rfl

theorem Le.assert (c : Bool) : Le (assert_ false c) (assert_ true c) := by
  cases c
  · exact .inl rfl
  · exact .inr rfl

/-- The same for rules. -/
def LeR (r r' : Rule K) : Prop := ∀ inp st, Le (r inp st) (r' inp st)

/-- The same for actions. -/
def LeA (f f' : PState K → Outcome (PState K)) : Prop := ∀ st, Le (f st) (f' st)

theorem LeR.refl (r : Rule K) : LeR r r := fun _ _ => Le.refl _

variable {r r' r1 r1' r2 r2' c c' : Rule K} {f f' : PState K → Outcome (PState K)}

theorem seq_le (h1 : LeR r1 r1') (h2 : LeR r2 r2') : LeR (seq r1 r2) (seq r1' r2') := fun inp st =>
  Le.bind (h1 inp st) fun p => by
    obtain ⟨o, st'⟩ := p
    cases o with
    | none => exact Le.refl _
    | some rest => exact h2 rest st'

theorem sor_le (h1 : LeR r1 r1') (h2 : LeR r2 r2') : LeR (sor r1 r2) (sor r1' r2') := fun inp st =>
  Le.bind (h1 inp st) fun p => by
    obtain ⟨o, st'⟩ := p
    cases o with
    | none => exact h2 inp st'
    | some rest => exact Le.refl _

theorem must_le (h : LeR r r') : LeR (must r) (must r') := fun inp st =>
  Le.bind (h inp st) fun p => by
    obtain ⟨o, st'⟩ := p
    cases o <;> exact Le.refl _

theorem ifMust_le (h1 : LeR c c') (h2 : LeR r r') : LeR (ifMust c r) (ifMust c' r') := seq_le h1 (must_le h2)

theorem act_le (h : LeR r r') (hf : LeA f f') : LeR (act r f) (act r' f') := fun inp st =>
  Le.bind (h inp st) fun p => by
    obtain ⟨o, st'⟩ := p
    cases o with
    | none => exact Le.refl _
    | some rest => exact Le.bind (hf st') fun _ => Le.refl _

theorem until_le (h1 : LeR c c') (h2 : LeR r r') : ∀ n, LeR (until_ c r n) (until_ c' r' n)
  | 0 => LeR.refl _
  | n + 1 => fun inp st => Le.bind (h1 inp st) fun p => by
    obtain ⟨o, st'⟩ := p
    cases o with
    | some rest => exact Le.refl _
    | none =>
      refine Le.bind (h2 inp st') fun p => ?_
      obtain ⟨o, st''⟩ := p
      cases o with
      | none => exact Le.refl _
      | some rest => exact until_le h1 h2 n rest st''

theorem star_le (h : LeR r r') : ∀ n, LeR (star r n) (star r' n)
  | 0 => LeR.refl _
  | n + 1 => fun inp st => Le.bind (h inp st) fun p => by
    obtain ⟨o, st'⟩ := p
    cases o with
    | none => exact Le.refl _
    | some rest => exact star_le h n rest st'

theorem plus_le (h : LeR r r') (n : Nat) : LeR (plus r n) (plus r' n) := seq_le h (star_le h n)

theorem onNewState_le (h : LeR r r') : LeR (onNewState r) (onNewState r') := fun inp st =>
  Le.bind (h inp { g := st.g }) fun _ => Le.refl _

section
variable [Field K] [LinearOrder K]

theorem unaryAction_le (one : Bool) (g : Expr K → Expr K) : LeA (unaryAction false one g) (unaryAction true one g) :=
  fun _ => Le.bind (Le.assert _) fun _ => Le.bind (Le.refl _) fun _ => Le.bind (Le.assert _) fun _ => Le.refl _

theorem binaryAction_le (g : Expr K → Expr K → Outcome (Expr K)) : LeA (binaryAction false g) (binaryAction true g) :=
  fun _ => Le.bind (Le.assert _) fun _ => Le.bind (Le.refl _) fun _ => Le.bind (Le.refl _) fun _ =>
    Le.bind (Le.refl _) fun _ => Le.bind (Le.assert _) fun _ => Le.refl _

theorem naryAction_le (g : List (Expr K) → Outcome (Expr K)) : LeA (naryAction false g) (naryAction true g) := by
  intro st
  unfold naryAction
  split
  · exact Le.refl _
  · exact Le.bind (Le.assert _) fun _ => Le.refl _

theorem commandAction_le (ins : Specification K → String → Expr K → Specification K × Bool) :
    LeA (commandAction false ins) (commandAction true ins) := by
  intro st
  refine Le.bind (Le.assert _) fun _ => Le.bind (Le.assert _) fun _ => Le.bind (Le.refl _) fun _ =>
    Le.bind (Le.refl _) fun _ => ?_
  simp only
  split
  · exact Le.refl _
  · exact Le.bind (Le.assert _) fun _ => Le.refl _

variable [Arith K] [Strtod K]

theorem expression_le (n : Nat) {t t' : Rule K} (h : LeR t t') : LeR (expression false n t) (expression true n t') := by
  have k := fun key => LeR.refl (K := K) (kw key)
  exact sor_le (LeR.refl _) <| sor_le (act_le (ifMust_le (k _) h) (unaryAction_le _ _)) <|
    sor_le (act_le (ifMust_le (k _) (plus_le h n)) (naryAction_le _)) <|
    sor_le (act_le (ifMust_le (k _) (plus_le h n)) (naryAction_le _)) <|
    sor_le (act_le (ifMust_le (k _) (seq_le h h)) (binaryAction_le _)) <|
    sor_le (act_le (ifMust_le (k _) (seq_le h h)) (binaryAction_le _)) <|
    sor_le (act_le (ifMust_le (k _) (seq_le h h)) (binaryAction_le _)) <|
    sor_le (act_le (ifMust_le (k _) h) (unaryAction_le _ _)) <|
    sor_le (act_le (ifMust_le (k _) h) (unaryAction_le _ _)) <|
    sor_le (act_le (ifMust_le (k _) (seq_le (must_le h) (must_le h))) (binaryAction_le _)) h

theorem term_le : ∀ n, LeR (K := K) (term false n) (term true n)
  | 0 => LeR.refl _
  | n + 1 => onNewState_le (act_le (sor_le (ifMust_le (LeR.refl _) (until_le (LeR.refl _) (expression_le n (term_le n)) n))
      (LeR.refl _)) fun _ => Le.refl _)

theorem command_le (n : Nat) (key : String) (ins : Specification K → String → Expr K → Specification K × Bool) :
    LeR (act (ifMust (kw key) (seq (must identifier) (must (term false n)))) (commandAction false ins))
      (act (ifMust (kw key) (seq (must identifier) (must (term true n)))) (commandAction true ins)) :=
  act_le (ifMust_le (LeR.refl _) (seq_le (LeR.refl _) (must_le (term_le n)))) (commandAction_le ins)

theorem specificationFile_le (n : Nat) : LeR (K := K) (specificationFile false n) (specificationFile true n) :=
  must_le (seq_le (LeR.refl _) (until_le (LeR.refl _)
    (seq_le (ifMust_le (LeR.refl _) (until_le (LeR.refl _) (must_le (sor_le (command_le n _ _) (command_le n _ _))) n))
      (LeR.refl _)) n))

theorem fromString_le (n : Nat) (w : List Char) : Le (fromString (K := K) false n w) (fromString true n w) :=
  Le.bind (specificationFile_le n w {}) fun _ => Le.refl _

end

/-! ## Exceptions -/

/-- Only these exceptions are thrown. -/
def Only (l : List Exn) {α : Type} (o : Outcome α) : Prop := ∀ e, o = .throw e → e ∈ l

/-- The exceptions of the parser. -/
abbrev exns : List Exn := [.parseError, .outOfRange, .logicError, .invalidArgument, .badOptionalAccess]

theorem Only.ok {l : List Exn} {α : Type} (a : α) : Only l (.ok a) := fun e h => by cases h

theorem Only.throw {l : List Exn} {α : Type} {e : Exn} (h : e ∈ l) : Only l (.throw e : Outcome α) :=
  fun e' h' => by cases h'; exact h

theorem Only.bind {l : List Exn} {α β : Type} {x : Outcome α} {g : α → Outcome β} (hx : Only l x)
    (hg : ∀ a, x = .ok a → Only l (g a)) : Only l (x >>= g) := by
  cases x with
  | ok a => exact hg a rfl
  | throw e => exact fun e' h => hx e' (by cases h; rfl)
  | _ => exact fun e' h => by cases h

theorem Only.assert {l : List Exn} (nd c : Bool) : Only l (assert_ nd c) := by
  unfold assert_; split
  · exact .ok _
  · intro e h; cases h

theorem Only.back {l : List Exn} {α : Type} (xs : List α) : Only l (back xs) := by
  unfold Rule.back; split
  · exact .ok _
  · intro e h; cases h

theorem Only.value {α : Type} (o : Option α) : Only exns (value o) := by
  cases o
  · exact .throw (by simp)
  · exact .ok _

/-- The same for rules. -/
def OnlyR (r : Rule K) : Prop := ∀ inp st, Only exns (r inp st)

theorem lex_only (g : List Char → Option (List Char)) : OnlyR (K := K) (lex g) := fun _ _ => .ok _

theorem seq_only (h1 : OnlyR r1) (h2 : OnlyR r2) : OnlyR (seq r1 r2) := fun inp st =>
  .bind (h1 inp st) fun p _ => by
    obtain ⟨o, st'⟩ := p
    cases o with
    | none => exact .ok _
    | some rest => exact h2 rest st'

theorem sor_only (h1 : OnlyR r1) (h2 : OnlyR r2) : OnlyR (sor r1 r2) := fun inp st =>
  .bind (h1 inp st) fun p _ => by
    obtain ⟨o, st'⟩ := p
    cases o with
    | none => exact h2 inp st'
    | some rest => exact .ok _

theorem must_only (h : OnlyR r) : OnlyR (must r) := fun inp st =>
  .bind (h inp st) fun p _ => by
    obtain ⟨o, st'⟩ := p
    cases o with
    | none => exact .throw (by simp)
    | some rest => exact .ok _

theorem ifMust_only (h1 : OnlyR c) (h2 : OnlyR r) : OnlyR (ifMust c r) := seq_only h1 (must_only h2)

theorem act_only' (h : OnlyR r)
    (hf : ∀ inp st rest st', r inp st = .ok (some rest, st') → Only exns (f st')) : OnlyR (act r f) := fun inp st =>
  .bind (h inp st) fun p hp => by
    obtain ⟨o, st'⟩ := p
    cases o with
    | none => exact .ok _
    | some rest => exact .bind (hf _ _ _ _ hp) fun _ _ => .ok _

theorem act_only (h : OnlyR r) (hf : ∀ st, Only exns (f st)) : OnlyR (act r f) :=
  act_only' h fun _ _ _ st' _ => hf st'

theorem until_only (h1 : OnlyR c) (h2 : OnlyR r) : ∀ n, OnlyR (until_ c r n)
  | 0 => fun _ _ e h => by cases h
  | n + 1 => fun inp st => .bind (h1 inp st) fun p _ => by
    obtain ⟨o, st'⟩ := p
    cases o with
    | some rest => exact .ok _
    | none =>
      refine .bind (h2 inp st') fun p _ => ?_
      obtain ⟨o, st''⟩ := p
      cases o with
      | none => exact .ok _
      | some rest => exact until_only h1 h2 n rest st''

theorem star_only (h : OnlyR r) : ∀ n, OnlyR (star r n)
  | 0 => fun _ _ e h => by cases h
  | n + 1 => fun inp st => .bind (h inp st) fun p _ => by
    obtain ⟨o, st'⟩ := p
    cases o with
    | none => exact .ok _
    | some rest => exact star_only h n rest st'

theorem plus_only (h : OnlyR r) (n : Nat) : OnlyR (plus r n) := seq_only h (star_only h n)

theorem onNewState_only (h : OnlyR r) : OnlyR (onNewState r) := fun inp st =>
  .bind (h inp { g := st.g }) fun _ _ => .ok _

/-! ### Numerals -/

theorem exponent_only (inp : List Char) : Only exns (Lex.exponent inp) := by
  unfold Lex.exponent
  split
  · exact .ok _
  · split
    · split
      · exact .ok _
      · exact .throw (by simp)
    · exact .ok _

theorem doubleAlt1_only (inp : List Char) : Only exns (Lex.doubleAlt1 inp) := by
  unfold Lex.doubleAlt1
  split
  · split
    · refine .bind (exponent_only _) fun o _ => ?_
      cases o <;> exact .ok _
    · exact .ok _
  · exact .ok _

theorem doubleAlt2_only (inp : List Char) : Only exns (Lex.doubleAlt2 inp) := by
  unfold Lex.doubleAlt2
  split
  · exact exponent_only _
  · exact .ok _

theorem doubleLit_only (inp : List Char) : Only exns (Lex.doubleLit inp) := by
  refine .bind (doubleAlt1_only _) fun o _ => ?_
  cases o with
  | some r => exact .ok _
  | none =>
    refine .bind (doubleAlt2_only _) fun o _ => ?_
    cases o <;> exact .ok _

section
variable [Field K] [LinearOrder K]

theorem stod_only [Arith K] [Strtod K] (text : List Char) : Only exns (stod (K := K) text) := by
  unfold stod
  simp only
  split
  · exact .throw (by simp)
  · exact .ok _

theorem stol_only (text : List Char) : Only exns (stol text) := by
  unfold stol
  simp only
  split
  · exact .ok _
  · exact .throw (by simp)

/-- A number was read. -/
def HasNum (st : PState K) : Prop := ∀ b, st.s.primitive ≠ some (.bool b)

theorem numeral_only [Arith K] [Strtod K] : OnlyR (K := K) numeral := by
  refine sor_only (fun inp st => ?_) fun inp st => ?_
  · refine .bind (doubleLit_only _) fun o _ => ?_
    cases o with
    | none => exact .ok _
    | some rest => exact .bind (stod_only _) fun _ _ => .ok _
  · unfold integerLiteral
    split
    · exact .ok _
    · exact .bind (stol_only _) fun _ _ => .ok _

theorem numeral_num [Arith K] [Strtod K] {inp rest : List Char} {st st' : PState K}
    (h : numeral inp st = .ok (some rest, st')) : HasNum st' := by
  unfold numeral sor at h
  obtain ⟨⟨o, st1⟩, h1, h2⟩ := Outcome.bind_eq_ok.1 h
  cases o with
  | some r =>
    simp only [Outcome.pure_eq_ok, Outcome.ok.injEq, Prod.mk.injEq] at h2
    obtain ⟨-, rfl⟩ := h2
    unfold doubleLiteral at h1
    obtain ⟨o, -, h1⟩ := Outcome.bind_eq_ok.1 h1
    cases o with
    | none => cases h1
    | some r =>
      obtain ⟨d, -, h1⟩ := Outcome.bind_eq_ok.1 h1
      cases h1
      intro b; simp [setPrim]
  | none =>
    simp only at h2
    unfold integerLiteral at h2
    split at h2
    · cases h2
    · obtain ⟨d, -, h2⟩ := Outcome.bind_eq_ok.1 h2
      cases h2
      intro b; simp [setPrim]

theorem identifier_only : OnlyR (K := K) identifier := fun inp st => by
  unfold identifier; split <;> exact .ok _

theorem identifier_num {inp rest : List Char} {st st' : PState K} (hn : HasNum st)
    (h : identifier inp st = .ok (some rest, st')) : HasNum st' := by
  unfold identifier at h
  split at h
  · cases h
  · simp only [Outcome.ok.injEq, Prod.mk.injEq] at h
    obtain ⟨-, rfl⟩ := h
    exact hn

theorem seq_ok {inp rest : List Char} {st st' : PState K} (h : seq r1 r2 inp st = .ok (some rest, st')) :
    ∃ rest1 st1, r1 inp st = .ok (some rest1, st1) ∧ r2 rest1 st1 = .ok (some rest, st') := by
  obtain ⟨⟨o, st1⟩, h1, h2⟩ := Outcome.bind_eq_ok.1 h
  cases o with
  | none => cases h2
  | some r => exact ⟨r, st1, h1, h2⟩

theorem must_ok {inp rest : List Char} {st st' : PState K} (h : must r inp st = .ok (some rest, st')) :
    r inp st = .ok (some rest, st') := by
  obtain ⟨⟨o, st1⟩, h1, h2⟩ := Outcome.bind_eq_ok.1 h
  cases o with
  | none => cases h2
  | some r => cases h2; exact h1

theorem setType_num {t : PredicateType} {inp rest : List Char} {st st' : PState K}
    (hr : ∀ rest st1, r inp st = .ok (some rest, st1) → HasNum st1)
    (h : act r (setType t) inp st = .ok (some rest, st')) : HasNum st' := by
  obtain ⟨⟨o, st1⟩, h1, h2⟩ := Outcome.bind_eq_ok.1 h
  cases o with
  | none => cases h2
  | some r => cases h2; exact fun b => hr _ _ h1 b

theorem predicateForm_num [Arith K] [Strtod K] {inp rest : List Char} {st st' : PState K}
    (h : predicateForm inp st = .ok (some rest, st')) : HasNum st' := by
  unfold predicateForm sor at h
  obtain ⟨⟨o, st1⟩, h1, h2⟩ := Outcome.bind_eq_ok.1 h
  cases o with
  | some r =>
    cases h2
    exact setType_num (fun _ _ h => let ⟨_, _, _, h2⟩ := seq_ok h; numeral_num h2) h1
  | none =>
    exact setType_num (fun _ _ h => let ⟨_, _, h1, h2⟩ := seq_ok h; identifier_num (numeral_num h1) h2) h2

theorem predicateAction_only [Arith K] {st : PState K} (h : HasNum st) : Only exns (predicateAction st) := by
  unfold predicateAction
  simp only
  split
  · exact .throw (by simp)
  · refine .bind (.back _) fun id _ => .bind (.value _) fun cmp _ => .bind ?_ fun c _ => ?_
    · refine .bind (.value _) fun p hp => ?_
      cases p with
      | bool b =>
        unfold value at hp
        split at hp
        · rename_i a ha; cases hp; exact absurd ha (h b)
        · cases hp
      | long n => exact .ok _
      | double d => exact .ok _
    · split
      · exact .throw (by simp)
      · exact .ok _

theorem predicateTerm_only [Arith K] [Strtod K] : OnlyR (K := K) predicateTerm := by
  have hc : ∀ g op, OnlyR (K := K) (cmpSym g op) := fun g op => act_only (lex_only _) fun _ => .ok _
  refine act_only' (ifMust_only (sor_only (hc _ _) (sor_only (hc _ _) (sor_only (hc _ _) (hc _ _))))
    (sor_only (act_only (seq_only identifier_only numeral_only) fun _ => .ok _)
      (act_only (seq_only numeral_only identifier_only) fun _ => .ok _))) ?_
  intro inp st rest st' h
  obtain ⟨rest1, st1, -, h2⟩ := seq_ok h
  exact predicateAction_only (predicateForm_num (must_ok h2))

theorem booleanLiteral_only : OnlyR (K := K) booleanLiteral := by
  refine act_only' (sor_only (act_only (lex_only _) fun _ => .ok _) (act_only (lex_only _) fun _ => .ok _)) ?_
  intro inp st rest st' h
  have key : ∃ b, st'.s.primitive = some (.bool b) := by
    have act_prim : ∀ {g : List Char → Option (List Char)} {b : Bool} {st rest st'},
        act (lex g) (fun st => .ok (setPrim (.bool b) st)) inp st = .ok (some rest, st') →
          st'.s.primitive = some (Primitive.bool b : Primitive K) := by
      intro g b st rest st' h
      obtain ⟨⟨o, st1⟩, h1, h2⟩ := Outcome.bind_eq_ok.1 h
      cases o with
      | none => cases h2
      | some r => cases h2; rfl
    unfold sor at h
    obtain ⟨⟨o, st1⟩, h1, h2⟩ := Outcome.bind_eq_ok.1 h
    cases o with
    | some r => cases h2; exact ⟨_, act_prim h1⟩
    | none => exact ⟨_, act_prim h2⟩
  obtain ⟨b, hb⟩ := key
  simp only [hb]
  exact .ok _

theorem And_only {l : List Exn} (hl : .invalidArgument ∈ l) (as : List (Expr K)) : Only l (Expr.And as) := by
  unfold Expr.And; split
  · exact .throw hl
  · exact .ok _

theorem Or_only {l : List Exn} (hl : .invalidArgument ∈ l) (as : List (Expr K)) : Only l (Expr.Or as) := by
  unfold Expr.Or; split
  · exact .throw hl
  · exact .ok _

theorem andOp_only {l : List Exn} (hl : .invalidArgument ∈ l) (a b : Expr K) : Only l (Expr.andOp a b) := by
  unfold Expr.andOp
  split
  · exact .ok _
  · unfold Expr.andHelper
    repeat' split
    all_goals exact And_only hl _
  · exact And_only hl _

theorem orOp_only {l : List Exn} (hl : .invalidArgument ∈ l) (a b : Expr K) : Only l (Expr.orOp a b) := by
  unfold Expr.orOp
  split
  · exact .ok _
  · unfold Expr.orHelper
    repeat' split
    all_goals exact Or_only hl _
  · exact Or_only hl _

theorem Implies_only {l : List Exn} (hl : .invalidArgument ∈ l) (a b : Expr K) : Only l (Expr.Implies a b) :=
  orOp_only hl _ _

theorem Iff_only {l : List Exn} (hl : .invalidArgument ∈ l) (a b : Expr K) : Only l (Expr.Iff a b) :=
  .bind (andOp_only hl _ _) fun _ _ => .bind (andOp_only hl _ _) fun _ _ => orOp_only hl _ _

theorem Xor_only {l : List Exn} (hl : .invalidArgument ∈ l) (a b : Expr K) : Only l (Expr.Xor a b) :=
  .bind (orOp_only hl _ _) fun _ _ => .bind (orOp_only hl _ _) fun _ _ => andOp_only hl _ _

theorem unaryAction_only (nd one : Bool) (g : Expr K → Expr K) (st : PState K) :
    Only exns (unaryAction nd one g st) :=
  .bind (.assert _ _) fun _ _ => .bind (.back _) fun _ _ => .bind (.assert _ _) fun _ _ => .ok _

theorem binaryAction_only (nd : Bool) {g : Expr K → Expr K → Outcome (Expr K)} (hg : ∀ a b, Only exns (g a b))
    (st : PState K) : Only exns (binaryAction nd g st) :=
  .bind (.assert _ _) fun _ _ => .bind (.back _) fun _ _ => .bind (.back _) fun _ _ => .bind (hg _ _) fun _ _ =>
    .bind (.assert _ _) fun _ _ => .ok _

theorem naryAction_only (nd : Bool) {g : List (Expr K) → Outcome (Expr K)} (hg : ∀ l, Only exns (g l))
    (st : PState K) : Only exns (naryAction nd g st) := by
  unfold naryAction
  split
  · exact .throw (by simp)
  · exact .bind (.assert _ _) fun _ _ => .bind (hg _) fun _ _ => .ok _

theorem commandAction_only (nd : Bool) (ins : Specification K → String → Expr K → Specification K × Bool)
    (st : PState K) : Only exns (commandAction nd ins st) := by
  refine .bind (.assert _ _) fun _ _ => .bind (.assert _ _) fun _ _ => .bind (.back _) fun _ _ =>
    .bind (.back _) fun _ _ => ?_
  simp only
  split
  · exact .throw (by simp)
  · exact .bind (.assert _ _) fun _ _ => .ok _

theorem termAction_only (st : PState K) : Only exns (termAction st) := by
  unfold termAction
  split
  · exact .ok _
  · split
    · refine .bind ?_ fun _ _ => .ok _
      unfold lookup; split
      · exact .ok _
      · exact .throw (by simp)
    · exact .throw (by simp)

variable [Arith K] [Strtod K]

theorem expression_only (nd : Bool) (n : Nat) {t : Rule K} (h : OnlyR t) : OnlyR (expression nd n t) := by
  have k := fun key => lex_only (K := K) (Lex.keyword key)
  have hi : Exn.invalidArgument ∈ exns := by simp
  exact sor_only predicateTerm_only <| sor_only (act_only (ifMust_only (k _) h) (unaryAction_only _ _ _)) <|
    sor_only (act_only (ifMust_only (k _) (plus_only h n)) (naryAction_only _ (And_only hi))) <|
    sor_only (act_only (ifMust_only (k _) (plus_only h n)) (naryAction_only _ (Or_only hi))) <|
    sor_only (act_only (ifMust_only (k _) (seq_only h h)) (binaryAction_only _ (Implies_only hi))) <|
    sor_only (act_only (ifMust_only (k _) (seq_only h h)) (binaryAction_only _ (Iff_only hi))) <|
    sor_only (act_only (ifMust_only (k _) (seq_only h h)) (binaryAction_only _ (Xor_only hi))) <|
    sor_only (act_only (ifMust_only (k _) h) (unaryAction_only _ _ _)) <|
    sor_only (act_only (ifMust_only (k _) h) (unaryAction_only _ _ _)) <|
    sor_only (act_only (ifMust_only (k _) (seq_only (must_only h) (must_only h)))
      (binaryAction_only _ fun _ _ => .ok _)) h

theorem term_only (nd : Bool) : ∀ n, OnlyR (K := K) (term nd n)
  | 0 => fun _ _ e h => by cases h
  | n + 1 => onNewState_only (act_only (sor_only (ifMust_only (lex_only _)
      (until_only (lex_only _) (expression_only nd n (term_only nd n)) n))
      (sor_only booleanLiteral_only identifier_only)) termAction_only)

theorem command_only (nd : Bool) (n : Nat) (key : String)
    (ins : Specification K → String → Expr K → Specification K × Bool) :
    OnlyR (act (ifMust (kw key) (seq (must identifier) (must (term nd n)))) (commandAction nd ins)) :=
  act_only (ifMust_only (lex_only _) (seq_only (must_only identifier_only) (must_only (term_only nd n))))
    (commandAction_only nd ins)

theorem specificationFile_only (nd : Bool) (n : Nat) : OnlyR (K := K) (specificationFile nd n) :=
  must_only (seq_only (lex_only _) (until_only (lex_only _)
    (seq_only (ifMust_only (lex_only _) (until_only (lex_only _)
      (must_only (sor_only (command_only nd n _ _) (command_only nd n _ _))) n)) (lex_only _)) n))

/-- The rule of a file never fails locally. -/
theorem specificationFile_must (nd : Bool) (n : Nat) (w : List Char) (st st' : PState K) :
    specificationFile nd n w st ≠ .ok (none, st') := by
  intro h
  unfold specificationFile must at h
  obtain ⟨⟨o, st1⟩, h1, h2⟩ := Outcome.bind_eq_ok.1 h
  cases o with
  | none => cases h2
  | some r => cases h2

theorem fromString_only (nd : Bool) (n : Nat) (w : List Char) : Only exns (fromString (K := K) nd n w) := by
  refine .bind (specificationFile_only nd n w {}) fun p hp => ?_
  obtain ⟨o, st⟩ := p
  cases o with
  | none => exact absurd hp (specificationFile_must nd n w _ _)
  | some r => exact .ok _

end
end Rule
end Verif
