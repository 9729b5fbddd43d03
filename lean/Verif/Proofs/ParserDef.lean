import Verif.Proofs.ParserTotal

/-!
# The parser has no undefined behaviour, and aborts only in debug builds

`vector::back` is called on `terms` and `identifiers` without a check (the assertions are off with
`NDEBUG`); the vectors are never empty there.
-/

set_option linter.unusedSectionVars false

namespace Verif
namespace Rule
variable {K : Type}

/-- No undefined behaviour, and no failed assertion if assertions are off. -/
def Tame (nd : Bool) {α : Type} (o : Outcome α) : Prop := (∀ u, o ≠ .ub u) ∧ (nd = true → o ≠ .abort)

variable {nd : Bool}

theorem tame_ok {α : Type} (a : α) : Tame nd (.ok a) := ⟨by simp, by simp⟩
theorem tame_throw {α : Type} (e : Exn) : Tame nd (.throw e : Outcome α) := ⟨by simp, by simp⟩
theorem tame_diverge {α : Type} : Tame nd (.diverge : Outcome α) := ⟨by simp, by simp⟩

theorem tame_bind {α β : Type} {x : Outcome α} {f : α → Outcome β} (hx : Tame nd x)
    (hf : ∀ a, x = .ok a → Tame nd (f a)) : Tame nd (x >>= f) := by
  cases x with
  | ok a => exact hf a rfl
  | throw e => exact tame_throw e
  | abort => exact ⟨by simp, fun h => (hx.2 h rfl).elim⟩
  | ub u => exact (hx.1 u rfl).elim
  | diverge => exact tame_diverge

theorem tame_assert (c : Bool) : Tame nd (assert_ nd c) := by
  unfold assert_; split
  · exact tame_ok _
  · rename_i h; exact ⟨by simp, fun hn => by simp [hn] at h⟩

theorem tame_back {α : Type} {l : List α} (h : 1 ≤ l.length) : Tame nd (back l) := by
  unfold back
  split
  · exact tame_ok _
  · rename_i e; rw [List.getLast?_eq_none_iff] at e; subst e; simp at h

theorem tame_value {α : Type} (o : Option α) : Tame nd (value o) := by
  cases o
  · exact tame_throw _
  · exact tame_ok _

theorem tame_map {α β : Type} {o : Outcome α} (h : Tame nd o) (f : α → β) : Tame nd (o.map' f) := by
  have : o.map' f = (o >>= fun a => .ok (f a)) := by cases o <;> rfl
  rw [this]; exact tame_bind h fun _ _ => tame_ok _

/-- The rule, started in a state with `P`, is tame; the state after a match has `Q`, the state after a
failure has `P` again. -/
def Tr (nd : Bool) (P : PState K → Prop) (r : Rule K) (Q : PState K → Prop) : Prop :=
  ∀ inp st, P st → Tame nd (r inp st) ∧ (∀ rest st', r inp st = .ok (some rest, st') → Q st') ∧
    ∀ st', r inp st = .ok (none, st') → P st'

variable {P Q R : PState K → Prop}

theorem lex_tr (f : List Char → Option (List Char)) : Tr nd P (lex f) P := by
  intro inp st h
  refine ⟨tame_ok _, ?_, ?_⟩ <;> (intros; simp_all [lex])

theorem Tr.weaken {r : Rule K} {Q' : PState K → Prop} (h : Tr nd P r Q) (hq : ∀ st, Q st → Q' st) :
    Tr nd P r Q' := fun inp st hp =>
  ⟨(h inp st hp).1, fun rest st' e => hq _ ((h inp st hp).2.1 rest st' e), (h inp st hp).2.2⟩

theorem seq_tr {r1 r2 : Rule K} (h1 : Tr nd P r1 Q) (h2 : Tr nd Q r2 R) (hq : ∀ st, Q st → P st) :
    Tr nd P (seq r1 r2) R := by
  intro inp st hp
  obtain ⟨t1, q1, f1⟩ := h1 inp st hp
  unfold seq
  refine ⟨tame_bind t1 ?_, ?_, ?_⟩
  · rintro ⟨o, st1⟩ e
    cases o with
    | none => exact tame_ok _
    | some rest => exact (h2 rest st1 (q1 _ _ e)).1
  · intro rest st' e
    obtain ⟨⟨o, st1⟩, e1, e2⟩ := Outcome.bind_eq_ok.1 e
    cases o with
    | none => simp at e2
    | some rest1 => exact (h2 rest1 st1 (q1 _ _ e1)).2.1 _ _ e2
  · intro st' e
    obtain ⟨⟨o, st1⟩, e1, e2⟩ := Outcome.bind_eq_ok.1 e
    cases o with
    | none => simp at e2; subst e2; exact f1 _ e1
    | some rest1 => exact hq _ ((h2 rest1 st1 (q1 _ _ e1)).2.2 _ e2)

theorem sor_tr {r1 r2 : Rule K} (h1 : Tr nd P r1 Q) (h2 : Tr nd P r2 Q) : Tr nd P (sor r1 r2) Q := by
  intro inp st hp
  obtain ⟨t1, q1, f1⟩ := h1 inp st hp
  unfold sor
  refine ⟨tame_bind t1 ?_, ?_, ?_⟩
  · rintro ⟨o, st1⟩ e
    cases o with
    | none => exact (h2 _ _ (f1 _ e)).1
    | some rest => exact tame_ok _
  · intro rest st' e
    obtain ⟨⟨o, st1⟩, e1, e2⟩ := Outcome.bind_eq_ok.1 e
    cases o with
    | none => exact (h2 _ _ (f1 _ e1)).2.1 _ _ e2
    | some rest1 => simp at e2; obtain ⟨-, rfl⟩ := e2; exact q1 _ _ e1
  · intro st' e
    obtain ⟨⟨o, st1⟩, e1, e2⟩ := Outcome.bind_eq_ok.1 e
    cases o with
    | none => exact (h2 _ _ (f1 _ e1)).2.2 _ e2
    | some rest1 => simp at e2

theorem must_tr {r : Rule K} (h1 : Tr nd P r Q) : Tr nd P (must r) Q := by
  intro inp st hp
  obtain ⟨t1, q1, f1⟩ := h1 inp st hp
  unfold must
  refine ⟨tame_bind t1 ?_, ?_, ?_⟩
  · rintro ⟨o, st1⟩ e
    cases o with
    | none => exact tame_throw _
    | some rest => exact tame_ok _
  · intro rest st' e
    obtain ⟨⟨o, st1⟩, e1, e2⟩ := Outcome.bind_eq_ok.1 e
    cases o with
    | none => simp at e2
    | some rest1 => simp at e2; obtain ⟨-, rfl⟩ := e2; exact q1 _ _ e1
  · intro st' e
    obtain ⟨⟨o, st1⟩, e1, e2⟩ := Outcome.bind_eq_ok.1 e
    cases o with
    | none => simp at e2
    | some rest1 => simp at e2

theorem ifMust_tr {r1 r2 : Rule K} (h1 : Tr nd P r1 P) (h2 : Tr nd P r2 Q) : Tr nd P (ifMust r1 r2) Q :=
  seq_tr h1 (must_tr h2) fun _ h => h

theorem act_tr {r : Rule K} {f : PState K → Outcome (PState K)} (h1 : Tr nd P r Q)
    (hf : ∀ st, Q st → Tame nd (f st) ∧ ∀ st', f st = .ok st' → R st') : Tr nd P (act r f) R := by
  intro inp st hp
  obtain ⟨t1, q1, f1⟩ := h1 inp st hp
  unfold act
  refine ⟨tame_bind t1 ?_, ?_, ?_⟩
  · rintro ⟨o, st1⟩ e
    cases o with
    | none => exact tame_ok _
    | some rest => exact tame_bind (hf _ (q1 _ _ e)).1 fun _ _ => tame_ok _
  · intro rest st' e
    obtain ⟨⟨o, st1⟩, e1, e2⟩ := Outcome.bind_eq_ok.1 e
    cases o with
    | none => simp at e2
    | some rest1 =>
      obtain ⟨st2, e3, e4⟩ := Outcome.bind_eq_ok.1 e2
      simp at e4; obtain ⟨-, rfl⟩ := e4
      exact (hf _ (q1 _ _ e1)).2 _ e3
  · intro st' e
    obtain ⟨⟨o, st1⟩, e1, e2⟩ := Outcome.bind_eq_ok.1 e
    cases o with
    | none => simp at e2; subst e2; exact f1 _ e1
    | some rest1 =>
      obtain ⟨st2, e3, e4⟩ := Outcome.bind_eq_ok.1 e2
      simp at e4

theorem until_tr {c r : Rule K} (hc : Tr nd P c P) (hr : Tr nd P r P) : ∀ n, Tr nd P (until_ c r n) P
  | 0 => fun inp st h => ⟨tame_diverge, by simp [until_], by simp [until_]⟩
  | n + 1 => by
    have ih := until_tr hc hr n
    intro inp st hp
    obtain ⟨t1, q1, f1⟩ := hc inp st hp
    unfold until_
    refine ⟨tame_bind t1 ?_, ?_, ?_⟩
    · rintro ⟨o, st1⟩ e
      cases o with
      | some rest => exact tame_ok _
      | none =>
        obtain ⟨t2, q2, f2⟩ := hr inp st1 (f1 _ e)
        refine tame_bind t2 ?_
        rintro ⟨o, st2⟩ e2
        cases o with
        | none => exact tame_ok _
        | some rest => exact (ih rest st2 (q2 _ _ e2)).1
    · intro rest st' e
      obtain ⟨⟨o, st1⟩, e1, e2⟩ := Outcome.bind_eq_ok.1 e
      cases o with
      | some rest1 => simp at e2; obtain ⟨-, rfl⟩ := e2; exact q1 _ _ e1
      | none =>
        obtain ⟨t2, q2, f2⟩ := hr inp st1 (f1 _ e1)
        obtain ⟨⟨o, st2⟩, e3, e4⟩ := Outcome.bind_eq_ok.1 e2
        cases o with
        | none => simp at e4
        | some rest => exact (ih rest st2 (q2 _ _ e3)).2.1 _ _ e4
    · intro st' e
      obtain ⟨⟨o, st1⟩, e1, e2⟩ := Outcome.bind_eq_ok.1 e
      cases o with
      | some rest1 => simp at e2
      | none =>
        obtain ⟨t2, q2, f2⟩ := hr inp st1 (f1 _ e1)
        obtain ⟨⟨o, st2⟩, e3, e4⟩ := Outcome.bind_eq_ok.1 e2
        cases o with
        | none => simp at e4; subst e4; exact f2 _ e3
        | some rest => exact (ih rest st2 (q2 _ _ e3)).2.2 _ e4

theorem star_tr {r : Rule K} (hr : Tr nd P r P) : ∀ n, Tr nd P (star r n) P
  | 0 => fun inp st h => ⟨tame_diverge, by simp [star], by simp [star]⟩
  | n + 1 => by
    have ih := star_tr hr n
    intro inp st hp
    obtain ⟨t1, q1, f1⟩ := hr inp st hp
    unfold star
    refine ⟨tame_bind t1 ?_, ?_, ?_⟩
    · rintro ⟨o, st1⟩ e
      cases o with
      | some rest => exact (ih rest st1 (q1 _ _ e)).1
      | none => exact tame_ok _
    · intro rest st' e
      obtain ⟨⟨o, st1⟩, e1, e2⟩ := Outcome.bind_eq_ok.1 e
      cases o with
      | some rest1 => exact (ih rest1 st1 (q1 _ _ e1)).2.1 _ _ e2
      | none => simp at e2; obtain ⟨-, rfl⟩ := e2; exact f1 _ e1
    · intro st' e
      obtain ⟨⟨o, st1⟩, e1, e2⟩ := Outcome.bind_eq_ok.1 e
      cases o with
      | some rest1 => exact (ih rest1 st1 (q1 _ _ e1)).2.2 _ e2
      | none => simp at e2

/-! ## The rules -/

/-- At least `i` identifiers and `k` terms. -/
def AtLeast (i k : Nat) (st : PState K) : Prop := i ≤ st.s.identifiers.length ∧ k ≤ st.s.terms.length

/-- No condition. -/
def Any (_ : PState K) : Prop := True

section
variable [Field K] [LinearOrder K]

theorem any_of {r : Rule K} (h : ∀ inp st, Tame nd (r inp st)) : Tr nd Any r Any :=
  fun inp st _ => ⟨h inp st, fun _ _ _ => trivial, fun _ _ => trivial⟩

theorem act_any {r : Rule K} {f : PState K → Outcome (PState K)} (h1 : Tr nd Any r Any)
    (hf : ∀ st, Tame nd (f st)) : Tr nd Any (act r f) Any :=
  act_tr h1 fun st _ => ⟨hf st, fun _ _ => trivial⟩

theorem identifier_tame (inp : List Char) (st : PState K) : Tame nd (identifier inp st) := by
  unfold identifier
  split <;> exact tame_ok _

theorem identifier_tr : Tr nd (AtLeast 0 0) (identifier (K := K)) (AtLeast 1 0) := by
  intro inp st _
  refine ⟨identifier_tame inp st, ?_, fun _ _ => ⟨by omega, by omega⟩⟩
  intro rest st' e
  unfold identifier at e
  split at e
  · simp at e
  · simp only [Outcome.ok.injEq, Prod.mk.injEq] at e
    rw [← e.2]
    exact ⟨by simp, by simp⟩

theorem booleanLiteral_tr : Tr nd Any (booleanLiteral (K := K)) Any := by
  refine act_any (sor_tr (act_any (lex_tr _) fun _ => tame_ok _) (act_any (lex_tr _) fun _ => tame_ok _)) ?_
  intro st
  split
  · exact tame_ok _
  · exact tame_ok _
  · exact tame_throw _

theorem exponent_tame (inp : List Char) : Tame nd (Lex.exponent inp) := by
  unfold Lex.exponent
  split
  · exact tame_ok _
  · split
    · split
      · exact tame_ok _
      · exact tame_throw _
    · exact tame_ok _

theorem doubleLit_tame (inp : List Char) : Tame nd (Lex.doubleLit inp) := by
  have h1 : Tame nd (Lex.doubleAlt1 inp) := by
    unfold Lex.doubleAlt1
    split
    · split
      · refine tame_bind (exponent_tame _) fun o _ => ?_
        cases o <;> exact tame_ok _
      · exact tame_ok _
    · exact tame_ok _
  have h2 : Tame nd (Lex.doubleAlt2 inp) := by
    unfold Lex.doubleAlt2
    split
    · exact exponent_tame _
    · exact tame_ok _
  refine tame_bind h1 fun o _ => ?_
  cases o with
  | some r => exact tame_ok _
  | none =>
    refine tame_bind h2 fun o _ => ?_
    cases o <;> exact tame_ok _

section
variable [Arith K] [Strtod K]

theorem numeral_tr : Tr nd Any (numeral (K := K)) Any := by
  refine sor_tr (any_of fun inp st => ?_) (any_of fun inp st => ?_)
  · refine tame_bind (doubleLit_tame inp) fun o _ => ?_
    cases o with
    | none => exact tame_ok _
    | some r =>
      refine tame_bind ?_ fun _ _ => tame_ok _
      unfold stod
      simp only
      split
      · exact tame_throw _
      · exact tame_ok _
  · unfold integerLiteral
    split
    · exact tame_ok _
    · refine tame_bind ?_ fun _ _ => tame_ok _
      unfold stol
      simp only
      split
      · exact tame_ok _
      · exact tame_throw _

theorem predicateAction_tame (st : PState K) : Tame nd (predicateAction st) := by
  unfold predicateAction
  simp only
  split
  · exact tame_throw _
  · rename_i h
    have h1 : 1 ≤ st.s.identifiers.length := by
      cases hl : st.s.identifiers with
      | nil => simp [hl] at h
      | cons => simp
    refine tame_bind (tame_back h1) fun _ _ => tame_bind (tame_value _) fun _ _ =>
      tame_bind (tame_bind (tame_value _) fun p _ => ?_) fun _ _ => ?_
    · cases p
      · exact tame_throw _
      · exact tame_ok _
      · exact tame_ok _
    · split
      · exact tame_bind (tame_map (tame_value _) _) fun _ _ => tame_ok _
      · exact tame_ok _

theorem predicateTerm_tr : Tr nd Any (predicateTerm (K := K)) Any := by
  have hid : Tr nd Any (identifier (K := K)) Any := any_of identifier_tame
  refine act_any (ifMust_tr ?_ ?_) predicateAction_tame
  · have : ∀ f op, Tr nd Any (cmpSym (K := K) f op) Any := fun f op => act_any (lex_tr _) fun _ => tame_ok _
    exact sor_tr (this _ _) (sor_tr (this _ _) (sor_tr (this _ _) (this _ _)))
  · exact sor_tr (act_any (seq_tr hid numeral_tr fun _ h => h) fun _ => tame_ok _)
      (act_any (seq_tr numeral_tr hid fun _ h => h) fun _ => tame_ok _)

theorem And_tame (l : List (Expr K)) : Tame nd (Expr.And l) := by
  unfold Expr.And; split
  · exact tame_throw _
  · exact tame_ok _
theorem Or_tame (l : List (Expr K)) : Tame nd (Expr.Or l) := by
  unfold Expr.Or; split
  · exact tame_throw _
  · exact tame_ok _

theorem andOp_tame (a b : Expr K) : Tame nd (Expr.andOp a b) := by
  unfold Expr.andOp
  split
  · exact tame_ok _
  · unfold Expr.andHelper; split <;> exact And_tame _
  · exact And_tame _

theorem orOp_tame (a b : Expr K) : Tame nd (Expr.orOp a b) := by
  unfold Expr.orOp
  split
  · exact tame_ok _
  · unfold Expr.orHelper; split <;> exact Or_tame _
  · exact Or_tame _

/-- A rule for terms, used in any state. -/
def TermTr (nd : Bool) (t : Rule K) : Prop := ∀ i k, Tr nd (AtLeast i k) t (AtLeast i (k + 1))

theorem up {i k : Nat} (st : PState K) (h : AtLeast i (k + 1) st) : AtLeast i k st := ⟨h.1, by have := h.2; omega⟩

theorem to_any {r : Rule K} {i : Nat} (h : Tr nd (AtLeast 0 0) r Q) (hq : ∀ st, Q st → AtLeast 0 i st) :
    Tr nd Any r (AtLeast 0 i) := fun inp st _ =>
  ⟨(h inp st ⟨by omega, by omega⟩).1, fun rest st' e => hq _ ((h inp st ⟨by omega, by omega⟩).2.1 rest st' e),
    fun _ _ => trivial⟩

theorem expression_tr (n : Nat) {t : Rule K} (ht : TermTr nd t) : Tr nd Any (expression nd n t) Any := by
  have h1 : Tr nd Any t (AtLeast 0 1) := to_any (ht 0 0) fun _ h => h
  have h2 : Tr nd Any (seq t t) (AtLeast 0 2) := to_any (seq_tr (ht 0 0) (ht 0 1) up) fun _ h => h
  have hm : Tr nd Any (seq (must t) (must t)) (AtLeast 0 2) :=
    to_any (seq_tr (must_tr (ht 0 0)) (must_tr (ht 0 1)) up) fun _ h => h
  have hp : Tr nd Any (plus t n) (AtLeast 0 1) :=
    to_any (seq_tr (ht 0 0) (star_tr ((ht 0 1).weaken up) n) up) fun _ h => h
  have un : ∀ key one f, Tr nd Any (act (ifMust (kw key) t) (unaryAction nd one f)) Any := by
    intro key one f
    refine act_tr (ifMust_tr (lex_tr _) h1) fun st hst => ⟨?_, fun _ _ => trivial⟩
    exact tame_bind (tame_assert _) fun _ _ => tame_bind (tame_back hst.2) fun _ _ =>
      tame_bind (tame_assert _) fun _ _ => tame_ok _
  have bact : ∀ {f : Expr K → Expr K → Outcome (Expr K)}, (∀ a b, Tame nd (f a b)) → ∀ st : PState K,
      AtLeast 0 2 st → Tame nd (binaryAction nd f st) := by
    intro f hf st hst
    have h2 : 2 ≤ st.s.terms.length := hst.2
    refine tame_bind (tame_assert _) fun _ _ => tame_bind (tame_back (by omega)) fun _ _ =>
      tame_bind (tame_back ?_) fun _ _ => tame_bind (hf _ _) fun _ _ => tame_bind (tame_assert _) fun _ _ => tame_ok _
    rw [List.length_dropLast]; omega
  have bin : ∀ key {f : Expr K → Expr K → Outcome (Expr K)}, (∀ a b, Tame nd (f a b)) →
      Tr nd Any (act (ifMust (kw key) (seq t t)) (binaryAction nd f)) Any := fun key f hf =>
    act_tr (ifMust_tr (lex_tr _) h2) fun st hst => ⟨bact hf st hst, fun _ _ => trivial⟩
  have nary : ∀ key {f : List (Expr K) → Outcome (Expr K)}, (∀ l, Tame nd (f l)) →
      Tr nd Any (act (ifMust (kw key) (plus t n)) (naryAction nd f)) Any := by
    intro key f hf
    refine act_tr (ifMust_tr (lex_tr _) hp) fun st hst => ⟨?_, fun _ _ => trivial⟩
    unfold naryAction
    split
    · exact tame_throw _
    · exact tame_bind (tame_assert _) fun _ _ => tame_bind (hf _) fun _ _ => tame_ok _
  refine sor_tr predicateTerm_tr <| sor_tr (un _ _ _) <| sor_tr (nary _ And_tame) <| sor_tr (nary _ Or_tame) <|
    sor_tr (bin _ fun _ _ => orOp_tame _ _) <|
    sor_tr (bin _ fun _ _ => tame_bind (andOp_tame _ _) fun _ _ => tame_bind (andOp_tame _ _) fun _ _ =>
      orOp_tame _ _) <|
    sor_tr (bin _ fun _ _ => tame_bind (orOp_tame _ _) fun _ _ => tame_bind (orOp_tame _ _) fun _ _ =>
      andOp_tame _ _) <|
    sor_tr (un _ _ _) <| sor_tr (un _ _ _) <| sor_tr ?_ (h1.weaken fun _ _ => trivial)
  exact act_tr (ifMust_tr (lex_tr _) hm) fun st hst => ⟨bact (fun _ _ => tame_ok _) st hst, fun _ _ => trivial⟩

theorem term_tr : ∀ n, TermTr (K := K) nd (term nd n)
  | 0 => fun i k inp st h => ⟨tame_diverge, by simp [term], by simp [term]⟩
  | n + 1 => by
    have ih := term_tr n
    have hb : Tr nd Any (act (sor (ifMust (lex (Lex.sym '(')) (until_ (lex (Lex.sym ')'))
        (expression nd n (term nd n)) n)) <| sor booleanLiteral identifier) termAction) (AtLeast (K := K) 0 1) := by
      refine act_tr (Q := Any) (sor_tr (ifMust_tr (lex_tr _) (until_tr (lex_tr _) (expression_tr n ih) n))
        (sor_tr booleanLiteral_tr (any_of identifier_tame))) fun st _ => ?_
      unfold termAction
      split
      · exact ⟨tame_ok _, fun st' e => by simp at e; subst e; exact ⟨by omega, by simp⟩⟩
      · split
        · constructor
          · refine tame_bind ?_ fun _ _ => tame_ok _
            unfold lookup; split
            · exact tame_ok _
            · exact tame_throw _
          · intro st' e
            obtain ⟨x, e1, e2⟩ := Outcome.bind_eq_ok.1 e
            simp at e2; subst e2; exact ⟨by omega, by simp⟩
        · exact ⟨tame_throw _, fun st' e => by simp at e⟩
    intro i k inp st hst
    obtain ⟨t1, q1, -⟩ := hb inp { g := st.g } trivial
    rw [term]
    unfold onNewState
    refine ⟨tame_bind t1 fun _ _ => tame_ok _, ?_, ?_⟩
    · intro rest st' e
      obtain ⟨⟨o, st1⟩, e1, e2⟩ := Outcome.bind_eq_ok.1 e
      simp only [Outcome.pure_eq_ok, Outcome.ok.injEq, Prod.mk.injEq] at e2
      obtain ⟨rfl, rfl⟩ := e2
      have h1 : 1 ≤ st1.s.terms.length := (q1 _ _ e1).2
      have h2 := hst.2
      exact ⟨hst.1, by simp only [List.length_append]; omega⟩
    · intro st' e
      obtain ⟨⟨o, st1⟩, e1, e2⟩ := Outcome.bind_eq_ok.1 e
      simp only [Outcome.pure_eq_ok, Outcome.ok.injEq, Prod.mk.injEq] at e2
      obtain ⟨rfl, rfl⟩ := e2
      have h2 := hst.2
      exact ⟨hst.1, by simp only [List.length_append]; omega⟩

theorem command_tr (n : Nat) (key : String) (ins : Specification K → String → Expr K → Specification K × Bool) :
    Tr nd Any (act (ifMust (kw key) (seq (must identifier) (must (term nd n)))) (commandAction nd ins)) Any := by
  have hb : Tr nd (AtLeast 0 0) (ifMust (kw key) (seq (must identifier) (must (term nd n)))) (AtLeast (K := K) 1 1) :=
    ifMust_tr (lex_tr _) (seq_tr (must_tr identifier_tr) (must_tr (term_tr n 1 0))
      fun st h => ⟨by omega, by omega⟩)
  have ha : Tr nd Any (ifMust (kw key) (seq (must identifier) (must (term nd n)))) (AtLeast (K := K) 1 1) :=
    fun inp st _ => ⟨(hb inp st ⟨by omega, by omega⟩).1, (hb inp st ⟨by omega, by omega⟩).2.1, fun _ _ => trivial⟩
  refine act_tr ha fun st hst => ⟨?_, fun _ _ => trivial⟩
  refine tame_bind (tame_assert _) fun _ _ => tame_bind (tame_assert _) fun _ _ =>
    tame_bind (tame_back hst.1) fun id _ => tame_bind (tame_back hst.2) fun e _ => ?_
  simp only
  split
  · exact tame_throw _
  · exact tame_bind (tame_assert _) fun _ _ => tame_ok _

theorem fromString_tame (nd : Bool) (fuel : Nat) (input : List Char) :
    Tame nd (fromString (K := K) nd fuel input) := by
  have hc : Tr nd Any (anyCommand (K := K) nd fuel) Any :=
    ifMust_tr (lex_tr _) (until_tr (lex_tr _) (must_tr (sor_tr (command_tr _ _ _) (command_tr _ _ _))) fuel)
  have hs : Tr nd Any (specificationFile (K := K) nd fuel) Any :=
    must_tr (seq_tr (lex_tr _) (until_tr (lex_tr _) (seq_tr hc (lex_tr _) fun _ h => h) fuel) fun _ h => h)
  refine tame_bind (hs input {} trivial).1 ?_
  rintro ⟨o, st⟩ -
  cases o
  · exact tame_throw _
  · exact tame_ok _

end
end
end Rule
end Verif
