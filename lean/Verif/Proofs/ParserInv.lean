import Verif.Model.Parser
import Verif.Spec.Formula
import Verif.Spec.Ast

/-!
# Invariants of the parser
-/

set_option linter.unusedSectionVars false

namespace Verif
open Spec
namespace Rule
variable {K : Type}

/-- The rule preserves the invariant `I`. -/
def Pres (I : PState K → Prop) (r : Rule K) : Prop := ∀ inp st p, I st → r inp st = .ok p → I p.2

/-- The action preserves the invariant `I`. -/
def PresA (I : PState K → Prop) (f : PState K → Outcome (PState K)) : Prop :=
  ∀ st st', I st → f st = .ok st' → I st'

variable {I : PState K → Prop}

theorem lex_pres (f : List Char → Option (List Char)) : Pres I (lex f) := by
  intro inp st p h e
  simp only [lex, Outcome.ok.injEq] at e
  subst e; exact h

theorem seq_pres {r1 r2 : Rule K} (h1 : Pres I r1) (h2 : Pres I r2) : Pres I (seq r1 r2) := by
  intro inp st p h e
  simp only [seq, Outcome.bind_eq_ok] at e
  obtain ⟨⟨o, st'⟩, e1, e2⟩ := e
  have := h1 _ _ _ h e1
  cases o with
  | none => cases e2; exact this
  | some rest => exact h2 _ _ _ this e2

theorem sor_pres {r1 r2 : Rule K} (h1 : Pres I r1) (h2 : Pres I r2) : Pres I (sor r1 r2) := by
  intro inp st p h e
  simp only [sor, Outcome.bind_eq_ok] at e
  obtain ⟨⟨o, st'⟩, e1, e2⟩ := e
  have := h1 _ _ _ h e1
  cases o with
  | none => exact h2 _ _ _ this e2
  | some rest => cases e2; exact this

theorem must_pres {r : Rule K} (h1 : Pres I r) : Pres I (must r) := by
  intro inp st p h e
  simp only [must, Outcome.bind_eq_ok] at e
  obtain ⟨⟨o, st'⟩, e1, e2⟩ := e
  have := h1 _ _ _ h e1
  cases o with
  | none => cases e2
  | some rest => cases e2; exact this

theorem ifMust_pres {r1 r2 : Rule K} (h1 : Pres I r1) (h2 : Pres I r2) : Pres I (ifMust r1 r2) :=
  seq_pres h1 (must_pres h2)

theorem act_pres {r : Rule K} {f : PState K → Outcome (PState K)} (h1 : Pres I r) (hf : PresA I f) :
    Pres I (act r f) := by
  intro inp st p h e
  simp only [act, Outcome.bind_eq_ok] at e
  obtain ⟨⟨o, st'⟩, e1, e2⟩ := e
  have := h1 _ _ _ h e1
  cases o with
  | none => cases e2; exact this
  | some rest =>
    simp only [Outcome.bind_eq_ok] at e2
    obtain ⟨s, e3, e4⟩ := e2
    cases e4
    exact hf _ _ this e3

theorem until_pres {c r : Rule K} (hc : Pres I c) (hr : Pres I r) : ∀ n, Pres I (until_ c r n)
  | 0 => fun _ _ _ _ e => by cases e
  | n + 1 => by
    intro inp st p h e
    simp only [until_, Outcome.bind_eq_ok] at e
    obtain ⟨⟨o, st'⟩, e1, e2⟩ := e
    have h1 := hc _ _ _ h e1
    cases o with
    | some rest => cases e2; exact h1
    | none =>
      simp only [Outcome.bind_eq_ok] at e2
      obtain ⟨⟨o, st''⟩, e3, e4⟩ := e2
      have h2 := hr _ _ _ h1 e3
      cases o with
      | none => cases e4; exact h2
      | some rest => exact until_pres hc hr n _ _ _ h2 e4

theorem star_pres {r : Rule K} (hr : Pres I r) : ∀ n, Pres I (star r n)
  | 0 => fun _ _ _ _ e => by cases e
  | n + 1 => by
    intro inp st p h e
    simp only [star, Outcome.bind_eq_ok] at e
    obtain ⟨⟨o, st'⟩, e1, e2⟩ := e
    have h1 := hr _ _ _ h e1
    cases o with
    | none => cases e2; exact h1
    | some rest => exact star_pres hr n _ _ _ h1 e2

theorem plus_pres {r : Rule K} (hr : Pres I r) (n : Nat) : Pres I (plus r n) := seq_pres hr (star_pres hr n)

section
variable [Field K] [LinearOrder K] [Arith K] [Strtod K]

/-- What an invariant must satisfy for all rules of the grammar to preserve it. -/
structure Invariant (nd : Bool) (I : PState K → Prop) : Prop where
  identifier : ∀ st id, I st → I { st with s := { st.s with identifiers := st.s.identifiers ++ [id] } }
  prim : ∀ st p, I st → I (setPrim p st)
  bool : ∀ st b, I st → I { st with s := { st.s with result := some (.Const b), primitive := none } }
  comparison : ∀ st op, I st → I { st with s := { st.s with comparison := op } }
  type : ∀ st t, I st → I { st with s := { st.s with predicateType := t } }
  predicate : PresA I predicateAction
  unary : ∀ one f, f = Expr.Not ∨ f = Expr.Always ∨ f = Expr.Eventually → PresA I (unaryAction nd one f)
  nary : ∀ f, f = Expr.And ∨ f = Expr.Or → PresA I (naryAction nd f)
  binary : ∀ f, f = Expr.Implies ∨ f = Expr.Iff ∨ f = Expr.Xor ∨ (f = fun a b => .ok (Expr.Until a b)) →
    PresA I (binaryAction nd f)
  term : PresA I termAction
  fresh : ∀ st, I st → I { g := st.g }
  join : ∀ st st', I st → I st' →
    I { g := st'.g, s := { st.s with terms := st.s.terms ++ st'.s.terms } }
  command : ∀ ins, ins = insertAssertion ∨ ins = insertFormula → PresA I (commandAction nd ins)

variable {nd : Bool}

theorem identifier_pres (h : Invariant nd I) : Pres I identifier := by
  intro inp st p hI e
  unfold identifier at e
  split at e
  · cases e; exact hI
  · cases e; exact h.identifier _ _ hI

theorem booleanLiteral_pres (h : Invariant nd I) : Pres I booleanLiteral := by
  refine act_pres (sor_pres (act_pres (lex_pres _) ?_) (act_pres (lex_pres _) ?_)) ?_
  · intro st st' hI e; cases e; exact h.prim _ _ hI
  · intro st st' hI e; cases e; exact h.prim _ _ hI
  · intro st st' hI e
    simp only at e
    split at e
    · cases e; exact hI
    · cases e; exact h.bool _ _ hI
    · cases e

theorem numeral_pres (h : Invariant nd I) : Pres I numeral := by
  refine sor_pres ?_ ?_
  · intro inp st p hI e
    simp only [doubleLiteral, Outcome.bind_eq_ok] at e
    obtain ⟨o, -, e⟩ := e
    cases o with
    | none => cases e; exact hI
    | some rest =>
      simp only [Outcome.bind_eq_ok] at e
      obtain ⟨d, -, e⟩ := e
      cases e; exact h.prim _ _ hI
  · intro inp st p hI e
    unfold integerLiteral at e
    split at e
    · cases e; exact hI
    · simp only [Outcome.bind_eq_ok] at e
      obtain ⟨d, -, e⟩ := e
      cases e; exact h.prim _ _ hI

theorem predicateTerm_pres (h : Invariant nd I) : Pres I predicateTerm := by
  have hc : ∀ f op, Pres I (cmpSym f op) := fun f op => act_pres (lex_pres _) fun st st' hI e => by
    cases e; exact h.comparison _ _ hI
  have ht : ∀ t, PresA I (setType t) := fun t st st' hI e => by cases e; exact h.type _ _ hI
  have hi := identifier_pres h
  have hn := numeral_pres h
  exact act_pres (ifMust_pres (sor_pres (hc _ _) (sor_pres (hc _ _) (sor_pres (hc _ _) (hc _ _))))
    (sor_pres (act_pres (seq_pres hi hn) (ht _)) (act_pres (seq_pres hn hi) (ht _)))) h.predicate

theorem expression_pres (h : Invariant nd I) (n : Nat) {t : Rule K} (ht : Pres I t) :
    Pres I (expression nd n t) := by
  have k : ∀ key, Pres I (kw key) := fun key => lex_pres _
  have h2 := seq_pres ht ht
  have hm := seq_pres (must_pres ht) (must_pres ht)
  have hp := plus_pres ht n
  exact sor_pres (predicateTerm_pres h) <|
    sor_pres (act_pres (ifMust_pres (k _) ht) (h.unary _ _ (by simp))) <|
    sor_pres (act_pres (ifMust_pres (k _) hp) (h.nary _ (by simp))) <|
    sor_pres (act_pres (ifMust_pres (k _) hp) (h.nary _ (by simp))) <|
    sor_pres (act_pres (ifMust_pres (k _) h2) (h.binary _ (by simp))) <|
    sor_pres (act_pres (ifMust_pres (k _) h2) (h.binary _ (by simp))) <|
    sor_pres (act_pres (ifMust_pres (k _) h2) (h.binary _ (by simp))) <|
    sor_pres (act_pres (ifMust_pres (k _) ht) (h.unary _ _ (by simp))) <|
    sor_pres (act_pres (ifMust_pres (k _) ht) (h.unary _ _ (by simp))) <|
    sor_pres (act_pres (ifMust_pres (k _) hm) (h.binary _ (by simp))) ht

theorem onNewState_pres (h : Invariant nd I) {r : Rule K} (hr : Pres I r) : Pres I (onNewState r) := by
  intro inp st p hI e
  simp only [onNewState, Outcome.bind_eq_ok] at e
  obtain ⟨⟨o, st'⟩, e1, e2⟩ := e
  cases e2
  exact h.join _ _ hI (hr _ _ _ (h.fresh _ hI) e1)

theorem term_pres (h : Invariant nd I) : ∀ n, Pres I (term nd n)
  | 0 => fun _ _ _ _ e => by cases e
  | n + 1 => by
    rw [term]
    exact onNewState_pres h (act_pres (sor_pres (ifMust_pres (lex_pres _)
      (until_pres (lex_pres _) (expression_pres h n (term_pres h n)) n))
      (sor_pres (booleanLiteral_pres h) (identifier_pres h))) h.term)

theorem specificationFile_pres (h : Invariant nd I) (n : Nat) : Pres I (specificationFile nd n) := by
  have hc := seq_pres (must_pres (identifier_pres h)) (must_pres (term_pres h n))
  exact must_pres (seq_pres (lex_pres _) (until_pres (lex_pres _) (seq_pres
    (ifMust_pres (lex_pres _) (until_pres (lex_pres _) (must_pres (sor_pres
      (act_pres (ifMust_pres (lex_pres _) hc) (h.command _ (by simp)))
      (act_pres (ifMust_pres (lex_pres _) hc) (h.command _ (by simp))))) n)) (lex_pres _)) n))

theorem fromString_inv (h : Invariant nd I) (h0 : I {}) {fuel : Nat} {input : List Char} {sp : Specification K}
    (e : fromString nd fuel input = .ok sp) : ∃ st, I st ∧ st.g = sp := by
  simp only [fromString, Outcome.bind_eq_ok] at e
  obtain ⟨⟨o, st⟩, e1, e2⟩ := e
  have := specificationFile_pres h fuel _ _ _ h0 e1
  cases o with
  | none => cases e2
  | some r => cases e2; exact ⟨st, this, rfl⟩

/-! ## All expressions have a property -/

/-- All expressions in the states satisfy `P`. -/
def AllE (P : Expr K → Prop) (st : PState K) : Prop :=
  (∀ p ∈ st.g.formulas, P p.2) ∧ (∀ p ∈ st.g.assertions, P p.2) ∧ (∀ e ∈ st.s.terms, P e) ∧
    ∀ e ∈ st.s.result, P e

/-- The property is preserved by the functions with which the parser builds expressions. -/
structure ClosedP (P : Expr K → Prop) : Prop where
  const : ∀ b, P (.Const b)
  pred : ∀ n op c, P (.withOp n op c)
  not : ∀ e, P e → P (.Not e)
  and : ∀ l r, (∀ e ∈ l, P e) → Expr.And l = .ok r → P r
  or : ∀ l r, (∀ e ∈ l, P e) → Expr.Or l = .ok r → P r
  implies : ∀ a b r, P a → P b → Expr.Implies a b = .ok r → P r
  iff : ∀ a b r, P a → P b → Expr.Iff a b = .ok r → P r
  xor : ∀ a b r, P a → P b → Expr.Xor a b = .ok r → P r
  always : ∀ e, P e → P (.Always e)
  eventually : ∀ e, P e → P (.Eventually e)
  untl : ∀ a b, P a → P b → P (.Until a b)

theorem back_ok {α : Type} {l : List α} {a : α} (h : back l = .ok a) : ∃ l', l = l' ++ [a] := by
  unfold back at h
  split at h
  · rename_i b hb
    cases h
    exact ⟨l.dropLast, by
      obtain ⟨h1, h2⟩ := List.getLast?_eq_some_iff.1 hb
      rw [h2]; simp⟩
  · cases h

theorem lookup_ok {m : List (String × Expr K)} {id : String} {e : Expr K} (h : lookup m id = .ok e) :
    ∃ p ∈ m, p.2 = e := by
  unfold lookup at h
  split at h
  · rename_i p hp
    cases h
    exact ⟨p, List.mem_of_find?_eq_some hp, rfl⟩
  · cases h

theorem insert_ok {m m' : List (String × Expr K)} {id : String} {e : Expr K} (h : insert m id e = (m', true)) :
    m' = m ++ [(id, e)] ∧ ∀ p ∈ m, p.1 ≠ id := by
  unfold insert at h
  split at h
  · simp at h
  · rename_i hn
    simp only [Prod.mk.injEq, and_true] at h
    refine ⟨h.symm, fun p hp he => hn ?_⟩
    simp only [List.any_eq_true]
    exact ⟨p, hp, by simp [he]⟩

/-- What `commandAction` does when it returns. -/
theorem commandAction_ok {ins : Specification K → String → Expr K → Specification K × Bool}
    {st st' : PState K} (h : commandAction nd ins st = .ok st') :
    ∃ ids id ts e g, st.s.identifiers = ids ++ [id] ∧ st.s.terms = ts ++ [e] ∧ ins st.g id e = (g, true) ∧
      st' = { g := g, s := { st.s with identifiers := ids, terms := ts } } := by
  simp only [commandAction, Outcome.bind_eq_ok] at h
  obtain ⟨_, -, _, -, id, h1, e, h2, h3⟩ := h
  obtain ⟨ids, hids⟩ := back_ok h1
  obtain ⟨ts, hts⟩ := back_ok h2
  split at h3
  · simp at h3
  · rename_i hc
    simp only [Outcome.bind_eq_ok] at h3
    obtain ⟨_, -, h3⟩ := h3
    simp only [Outcome.pure_eq_ok, Outcome.ok.injEq] at h3
    refine ⟨ids, id, ts, e, (ins st.g id e).1, hids, hts, ?_, ?_⟩
    · ext1
      · rfl
      · simpa using hc
    · rw [← h3, hids, hts]
      simp

/-- What `unaryAction` does when it returns. -/
theorem unaryAction_ok {one : Bool} {f : Expr K → Expr K} {st st' : PState K}
    (h : unaryAction nd one f st = .ok st') :
    ∃ ts e, st.s.terms = ts ++ [e] ∧ st' = setResult st ts (f e) := by
  simp only [unaryAction, Outcome.bind_eq_ok] at h
  obtain ⟨_, -, e, h1, _, -, h2⟩ := h
  obtain ⟨ts, hts⟩ := back_ok h1
  simp only [Outcome.pure_eq_ok, Outcome.ok.injEq] at h2
  exact ⟨ts, e, hts, by rw [← h2, hts]; simp⟩

/-- What `binaryAction` does when it returns. -/
theorem binaryAction_ok {f : Expr K → Expr K → Outcome (Expr K)} {st st' : PState K}
    (h : binaryAction nd f st = .ok st') :
    ∃ ts a b r, st.s.terms = ts ++ [a, b] ∧ f a b = .ok r ∧ st' = setResult st ts r := by
  simp only [binaryAction, Outcome.bind_eq_ok] at h
  obtain ⟨_, -, b, h1, a, h2, r, h3, _, -, h4⟩ := h
  obtain ⟨ts, hts⟩ := back_ok h1
  rw [hts, List.dropLast_concat] at h2 h4
  obtain ⟨ts', hts'⟩ := back_ok h2
  rw [hts'] at h4 hts
  simp only [Outcome.pure_eq_ok, Outcome.ok.injEq] at h4
  exact ⟨ts', a, b, r, by simpa using hts, h3, by rw [← h4]; simp⟩

/-- What `naryAction` does when it returns. -/
theorem naryAction_ok {f : List (Expr K) → Outcome (Expr K)} {st st' : PState K}
    (h : naryAction nd f st = .ok st') :
    ∃ r, f st.s.terms = .ok r ∧ st' = setResult st [] r := by
  unfold naryAction at h
  split at h
  · simp at h
  · simp only [Outcome.bind_eq_ok] at h
    obtain ⟨_, -, r, h1, h2⟩ := h
    simp only [Outcome.pure_eq_ok, Outcome.ok.injEq] at h2
    exact ⟨r, h1, h2.symm⟩

/-- What `predicateAction` does when it returns. -/
theorem predicateAction_ok {st st' : PState K} (h : predicateAction st = .ok st') :
    ∃ id op c, st' =
      ⟨st.g, ⟨some (.withOp id op c), none, st.s.identifiers.dropLast, none, none, st.s.terms⟩⟩ := by
  unfold predicateAction at h
  simp only at h
  split at h
  · simp at h
  · simp only [Outcome.bind_eq_ok] at h
    obtain ⟨id, -, op, -, c, -, h⟩ := h
    split at h
    · simp [value, Outcome.map'] at h
    · simp only [Outcome.bind_ok, Outcome.pure_eq_ok, Outcome.ok.injEq] at h
      exact ⟨id, op, c, h.symm⟩

/-- What `termAction` does when it returns. -/
theorem termAction_ok {st st' : PState K} (h : termAction st = .ok st') :
    (∃ e, st.s.result = some e ∧
      st' = { st with s := { st.s with terms := st.s.terms ++ [e], result := none } }) ∨
    ∃ id e, st.s.result = none ∧ st.s.identifiers.getLast? = some id ∧ lookup st.g.formulas id = .ok e ∧
      st' = { st with s := { st.s with identifiers := st.s.identifiers.dropLast, terms := st.s.terms ++ [e] } } := by
  unfold termAction at h
  split at h
  · rename_i e he
    cases h
    exact .inl ⟨e, he, rfl⟩
  · rename_i he
    split at h
    · rename_i id hid
      simp only [Outcome.bind_eq_ok] at h
      obtain ⟨e, h1, h2⟩ := h
      cases h2
      exact .inr ⟨id, e, he, hid, h1, rfl⟩
    · cases h

theorem AllE_invariant {P : Expr K → Prop} (c : ClosedP P) : Invariant nd (AllE P) where
  identifier := fun st id h => h
  prim := fun st p h => h
  bool := fun st b h => ⟨h.1, h.2.1, h.2.2.1, by
    intro e he; simp only [Option.mem_def, Option.some.injEq] at he; subst he; exact c.const b⟩
  comparison := fun st op h => h
  type := fun st t h => h
  predicate := by
    intro st st' h e
    obtain ⟨id, op, q, rfl⟩ := predicateAction_ok e
    exact ⟨h.1, h.2.1, h.2.2.1, by
      intro e he; simp only [Option.mem_def, Option.some.injEq] at he; subst he; exact c.pred _ _ _⟩
  unary := by
    intro one f hf st st' h e
    obtain ⟨ts, x, hts, rfl⟩ := unaryAction_ok e
    have h3 := h.2.2.1
    rw [hts] at h3
    refine ⟨h.1, h.2.1, fun y hy => h3 y (by simp [setResult] at hy; simp [hy]), ?_⟩
    intro e he
    simp only [setResult, Option.mem_def, Option.some.injEq] at he
    subst he
    have hx := h3 x (by simp)
    rcases hf with rfl | rfl | rfl
    · exact c.not _ hx
    · exact c.always _ hx
    · exact c.eventually _ hx
  nary := by
    intro f hf st st' h e
    obtain ⟨r, hr, rfl⟩ := naryAction_ok e
    refine ⟨h.1, h.2.1, fun y hy => by simp [setResult] at hy, ?_⟩
    intro e he
    simp only [setResult, Option.mem_def, Option.some.injEq] at he
    subst he
    rcases hf with rfl | rfl
    · exact c.and _ _ h.2.2.1 hr
    · exact c.or _ _ h.2.2.1 hr
  binary := by
    intro f hf st st' h e
    obtain ⟨ts, a, b, r, hts, hr, rfl⟩ := binaryAction_ok e
    have h3 := h.2.2.1
    rw [hts] at h3
    refine ⟨h.1, h.2.1, fun y hy => h3 y (by simp [setResult] at hy; simp [hy]), ?_⟩
    intro e he
    simp only [setResult, Option.mem_def, Option.some.injEq] at he
    subst he
    have ha := h3 a (by simp)
    have hb := h3 b (by simp)
    rcases hf with rfl | rfl | rfl | rfl
    · exact c.implies _ _ _ ha hb hr
    · exact c.iff _ _ _ ha hb hr
    · exact c.xor _ _ _ ha hb hr
    · cases hr; exact c.untl _ _ ha hb
  term := by
    intro st st' h e
    rcases termAction_ok e with ⟨x, hx, rfl⟩ | ⟨id, x, hn, -, hl, rfl⟩
    · refine ⟨h.1, h.2.1, ?_, by simp⟩
      intro y hy
      simp only [List.mem_append, List.mem_singleton] at hy
      rcases hy with hy | rfl
      · exact h.2.2.1 y hy
      · exact h.2.2.2 _ hx
    · refine ⟨h.1, h.2.1, ?_, by simp [hn]⟩
      intro y hy
      simp only [List.mem_append, List.mem_singleton] at hy
      rcases hy with hy | rfl
      · exact h.2.2.1 y hy
      · obtain ⟨p, hp, rfl⟩ := lookup_ok hl
        exact h.1 p hp
  fresh := fun st h => ⟨h.1, h.2.1, by simp, by simp⟩
  join := fun st st' h h' => ⟨h'.1, h'.2.1, by
    intro y hy
    simp only [List.mem_append] at hy
    exact hy.elim (h.2.2.1 y) (h'.2.2.1 y), h.2.2.2⟩
  command := by
    intro ins hins st st' h e
    obtain ⟨ids, id, ts, x, g, -, hts, hi, rfl⟩ := commandAction_ok e
    have h3 := h.2.2.1
    rw [hts] at h3
    have hx := h3 x (by simp)
    have h4 : ∀ y ∈ ts, P y := fun y hy => h3 y (by simp [hy])
    rcases hins with rfl | rfl
    · simp only [insertAssertion, Prod.mk.injEq] at hi
      obtain ⟨rfl, hb⟩ := hi
      obtain ⟨hm, -⟩ := insert_ok (m' := (insert st.g.assertions id x).1) (Prod.ext rfl hb)
      refine ⟨h.1, ?_, h4, h.2.2.2⟩
      simp only [hm]
      intro p hp
      simp only [List.mem_append, List.mem_singleton] at hp
      rcases hp with hp | rfl
      · exact h.2.1 p hp
      · exact hx
    · simp only [insertFormula, Prod.mk.injEq] at hi
      obtain ⟨rfl, hb⟩ := hi
      obtain ⟨hm, -⟩ := insert_ok (m' := (insert st.g.formulas id x).1) (Prod.ext rfl hb)
      refine ⟨?_, h.2.1, h4, h.2.2.2⟩
      simp only [hm]
      intro p hp
      simp only [List.mem_append, List.mem_singleton] at hp
      rcases hp with hp | rfl
      · exact h.1 p hp
      · exact hx

/-! ## No key is repeated -/

/-- The keys of both maps are distinct. -/
def DistinctKeys (st : PState K) : Prop :=
  (st.g.formulas.map Prod.fst).Nodup ∧ (st.g.assertions.map Prod.fst).Nodup

theorem DistinctKeys_invariant : Invariant nd (DistinctKeys (K := K)) where
  identifier := fun st id h => h
  prim := fun st p h => h
  bool := fun st b h => h
  comparison := fun st op h => h
  type := fun st t h => h
  predicate := by
    intro st st' h e
    obtain ⟨id, op, q, rfl⟩ := predicateAction_ok e
    exact h
  unary := by
    intro one f hf st st' h e
    obtain ⟨ts, x, hts, rfl⟩ := unaryAction_ok e
    exact h
  nary := by
    intro f hf st st' h e
    obtain ⟨r, hr, rfl⟩ := naryAction_ok e
    exact h
  binary := by
    intro f hf st st' h e
    obtain ⟨ts, a, b, r, hts, hr, rfl⟩ := binaryAction_ok e
    exact h
  term := by
    intro st st' h e
    rcases termAction_ok e with ⟨x, hx, rfl⟩ | ⟨id, x, hn, -, hl, rfl⟩ <;> exact h
  fresh := fun st h => h
  join := fun st st' h h' => h'
  command := by
    intro ins hins st st' h e
    obtain ⟨ids, id, ts, x, g, -, hts, hi, rfl⟩ := commandAction_ok e
    have key : ∀ m : List (String × Expr K), (m.map Prod.fst).Nodup → (insert m id x).2 = true →
        ((insert m id x).1.map Prod.fst).Nodup := by
      intro m hm hb
      obtain ⟨h1, h2⟩ := insert_ok (m' := (insert m id x).1) (Prod.ext rfl hb)
      rw [h1, List.map_append]
      refine List.nodup_append.2 ⟨hm, by simp, ?_⟩
      intro a ha b hb'
      simp only [List.map_cons, List.map_nil, List.mem_singleton] at hb'
      obtain ⟨p, hp, rfl⟩ := List.mem_map.1 ha
      subst hb'
      exact h2 p hp
    rcases hins with rfl | rfl
    · simp only [insertAssertion, Prod.mk.injEq] at hi
      obtain ⟨rfl, hb⟩ := hi
      exact ⟨h.1, key _ h.2 hb⟩
    · simp only [insertFormula, Prod.mk.injEq] at hi
      obtain ⟨rfl, hb⟩ := hi
      exact ⟨key _ h.1 hb, h.2⟩

end
end Rule
end Verif
