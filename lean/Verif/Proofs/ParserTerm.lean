import Verif.Proofs.ParserRound

/-!
# The parser on texts of terms
-/

set_option linter.unusedSectionVars false

namespace Verif
open Spec
open _root_.Verif.Lex

namespace Rule
variable {K : Type} [Field K] [LinearOrder K] [IsStrictOrderedRing K] [Arith K] [Strtod K]

/-- What the code makes of `(op constant signal)`. -/
def revThrow (_ : ComparisonOp) (_ : D K) (_ : String) : Outcome (Expr K) := .throw .badOptionalAccess

/-- The parser state after a term. -/
def push (st : PState K) (e : Expr K) : PState K := { st with s := { st.s with terms := st.s.terms ++ [e] } }

/-- The parser state inside parentheses. -/
def clean (g : Specification K) (res : Option (Expr K)) : PState K := { g := g, s := { result := res } }

/-! ## Predicates -/

theorem ok_map' {α β : Type} (a : α) (f : α → β) : (Outcome.ok a).map' f = .ok (f a) := rfl

theorem cmp_action (g : Specification K) (res : Option (Expr K)) (o : ComparisonOp) (nm : String) (c : NumLit) :
    ((litPrim c : Outcome (Primitive K)) >>= fun p =>
      predicateAction ⟨g, ⟨res, some p, [nm], some .ONE, some o, []⟩⟩) =
    (c.eval (K := K)).map' fun d => clean g (some (.pred nm o d)) := by
  cases c with
  | int n =>
    unfold litPrim NumLit.eval
    simp only
    split <;> rfl
  | dec i f e =>
    unfold litPrim
    simp only
    generalize (NumLit.dec i f e).eval (K := K) = x
    cases x <;> rfl
  | sci i dot e =>
    unfold litPrim
    simp only
    generalize (NumLit.sci i dot e).eval (K := K) = x
    cases x <;> rfl

theorem rcmp_action (g : Specification K) (res : Option (Expr K)) (o : ComparisonOp) (nm : String) (c : NumLit) :
    ((litPrim c : Outcome (Primitive K)) >>= fun p =>
      predicateAction ⟨g, ⟨res, some p, [nm], some .TWO, some o, []⟩⟩) =
    (c.eval (K := K)) >>= fun _ => .throw .badOptionalAccess := by
  cases c with
  | int n =>
    unfold litPrim NumLit.eval
    simp only
    split <;> rfl
  | dec i f e =>
    unfold litPrim
    simp only
    generalize (NumLit.dec i f e).eval (K := K) = x
    cases x <;> rfl
  | sci i dot e =>
    unfold litPrim
    simp only
    generalize (NumLit.sci i dot e).eval (K := K) = x
    cases x <;> rfl

theorem cmp_reads (o : ComparisonOp) (nm : String) (c : NumLit) (hn : IsName nm) :
    ∀ ts w, TX (inner (.cmp o nm c) ++ ts) w → ∃ w', TX ts w' ∧ w'.length < w.length ∧
      ∀ g res, predicateTerm w (clean g res) =
        ((c.eval (K := K)).map' fun d => clean g (some (.pred nm o d))).map' fun st' => (some w', st') := by
  intro ts w h
  simp only [inner, List.cons_append, List.nil_append] at h
  obtain ⟨w1, h1⟩ := next h
  obtain ⟨w2, h2⟩ := next h1.tx
  obtain ⟨w3, h3⟩ := next h2.tx
  have l1 := h1.lt; have l2 := h2.lt; have l3 := h3.lt
  refine ⟨w3, h3.tx, by omega, fun g res => ?_⟩
  rw [← cmp_action g res]
  unfold predicateTerm
  have hf : predicateForm w1 ⟨g, ⟨res, none, [], none, some o, []⟩⟩ =
      (litPrim c).map' fun p => (some w3, ⟨g, ⟨res, some p, [nm], some .ONE, some o, []⟩⟩) := by
    unfold predicateForm
    have hs : seq identifier numeral w1 ⟨g, ⟨res, none, [], none, some o, []⟩⟩ =
        (litPrim c).map' fun p => (some w3, ⟨g, ⟨res, some p, [nm], none, some o, []⟩⟩) := by
      rw [seq_run (o := .ok ()) (f := fun _ => _) (identifier_run _ hn h2)]
      rw [Outcome.bind_ok]
      exact numeral_run _ h3
    rw [sor_run (act_run (g := setType .ONE) hs |>.trans ?_)]
    rw [bind_map', map'_eq_bind]
    rfl
  refine act_run ?_
  unfold ifMust
  rw [seq_run (o := .ok ()) (f := fun _ => _) (comparisonSymbol_run _ rfl h1), Outcome.bind_ok]
  exact must_run hf

theorem rcmp_reads (o : ComparisonOp) (nm : String) (c : NumLit) (hn : IsName nm) :
    ∀ ts w, TX (inner (.rcmp o c nm) ++ ts) w → ∃ w', TX ts w' ∧ w'.length < w.length ∧
      ∀ g res, predicateTerm w (clean g res) =
        ((c.eval (K := K)) >>= fun _ => Outcome.throw .badOptionalAccess).map'
          fun (st' : PState K) => (some w', st') := by
  intro ts w h
  simp only [inner, List.cons_append, List.nil_append] at h
  obtain ⟨w1, h1⟩ := next h
  obtain ⟨w2, h2⟩ := next h1.tx
  obtain ⟨w3, h3⟩ := next h2.tx
  have l1 := h1.lt; have l2 := h2.lt; have l3 := h3.lt
  refine ⟨w3, h3.tx, by omega, fun g res => ?_⟩
  rw [← rcmp_action g res o nm]
  unfold predicateTerm
  have hf : predicateForm w1 ⟨g, ⟨res, none, [], none, some o, []⟩⟩ =
      (litPrim c).map' fun p => (some w3, ⟨g, ⟨res, some p, [nm], some .TWO, some o, []⟩⟩) := by
    unfold predicateForm
    rw [sor_skip (act_skip (seq_skip (identifier_skip _ (by simp) h2)))]
    have hs : seq numeral identifier w1 ⟨g, ⟨res, none, [], none, some o, []⟩⟩ =
        (litPrim c).map' fun p => (some w3, ⟨g, ⟨res, some p, [nm], none, some o, []⟩⟩) := by
      rw [seq_run (numeral_run _ h2), map'_eq_bind]
      congr 1
      funext p
      exact identifier_run _ hn h3
    rw [act_run (g := setType .TWO) hs, bind_map', map'_eq_bind]
    rfl
  refine act_run ?_
  unfold ifMust
  rw [seq_run (o := .ok ()) (f := fun _ => _) (comparisonSymbol_run _ rfl h1), Outcome.bind_ok]
  exact must_run hf

/-! ## Terms -/

/-- The environment of a state. -/
abbrev envOf (g : Specification K) : String → Option (Expr K) := find g.formulas

/-- `Term` reads the tokens `tk`, with the effect `ev`. -/
def TReads (K : Type) [Field K] [LinearOrder K] [Arith K] [Strtod K] (tk : List Tok)
    (ev : Specification K → Outcome (Expr K)) : Prop :=
  ∀ nd n ts w, TX (tk ++ ts) w → w.length < n → ∃ w', TX ts w' ∧ w'.length < w.length ∧
    ∀ st : PState K, term nd n w st = (ev st.g).map' fun e => (some w', push st e)

/-- `Term` reads the term `t`. -/
abbrev TermReads (K : Type) [Field K] [LinearOrder K] [Arith K] [Strtod K] (t : Syn) : Prop :=
  TReads K (toks t) fun g => denote revThrow (envOf g) t

/-- `Expression` reads what is between the parentheses of `t`.  If `any` is false, this is followed by a
closing parenthesis. -/
def ExprReads (K : Type) [Field K] [LinearOrder K] [Arith K] [Strtod K] (any : Bool) (t : Syn) : Prop :=
  ∀ nd n ts w, (any = false → ∃ ts', ts = .rp :: ts') → TX (inner t ++ ts) w → w.length < n →
    ∃ w', TX ts w' ∧ w'.length < w.length ∧
    ∀ (g : Specification K) (res : Option (Expr K)), expression nd n (term nd n) w (clean g res) =
      (denote revThrow (envOf g) t).map' fun e => (some w', clean g (some e))

/-- `Term` on the closing parenthesis does not match. -/
theorem term_rp (nd : Bool) (n : Nat) (hn : 0 < n) {ts : List Tok} {w : List Char} (h : TX (.rp :: ts) w)
    (st : PState K) : term nd n w st = .ok (none, st) := by
  obtain ⟨n, rfl⟩ : ∃ m, n = m + 1 := ⟨n - 1, by omega⟩
  obtain ⟨w1, h1⟩ := next h
  rw [term]
  unfold onNewState
  have hk : ∀ key : String, ∀ k ks, key.toList = k :: ks → isIdFirst k = true → keyword key w = none :=
    fun key k ks e hi => h1.kw_not (by simp) e hi
  have hb : booleanLiteral w ({ g := st.g } : PState K) = .ok (none, { g := st.g }) := by
    refine act_skip ?_
    rw [sor_skip (act_skip (lex_none _ (hk "true" 't' ['r', 'u', 'e'] (by decide) (by decide))))]
    exact act_skip (lex_none _ (hk "false" 'f' ['a', 'l', 's', 'e'] (by decide) (by decide)))
  have : act (sor (ifMust (lex (sym '(')) (until_ (lex (sym ')')) (expression nd n (term nd n)) n))
      (sor booleanLiteral identifier)) termAction w ({ g := st.g } : PState K) = .ok (none, { g := st.g }) := by
    refine act_skip ?_
    rw [sor_skip (ifMust_skip (lex_none _ (h1.not_lp (by simp)))), sor_skip hb]
    exact identifier_skip _ (by simp) h1
  rw [this]
  simp

/-- A parenthesised term, from what is between the parentheses. -/
theorem term_paren {t : Syn} (hc : toks t = .lp :: (inner t ++ [.rp])) {any : Bool} (he : ExprReads K any t)
    (hh : ∃ t0 tl, inner t = t0 :: tl ∧ t0 ≠ .rp) : TermReads K t := by
  intro nd n ts w h hl
  obtain ⟨n, rfl⟩ : ∃ m, n = m + 1 := ⟨n - 1, by omega⟩
  rw [hc, List.cons_append, List.append_assoc] at h
  obtain ⟨w1, h1⟩ := next h
  have l1 := h1.lt
  obtain ⟨w2, h2, l2, e2⟩ := he nd n _ w1 (fun _ => ⟨ts, rfl⟩) h1.tx (by omega)
  obtain ⟨w3, h3⟩ := next h2
  have l3 := h3.lt
  refine ⟨w3, h3.tx, by omega, fun st => ?_⟩
  obtain ⟨t0, tl, hin, hne⟩ := hh
  have hnr : sym ')' w1 = none := by
    have := h1.tx
    rw [hin, List.cons_append] at this
    obtain ⟨_, h0⟩ := next this
    exact h0.not_rp hne
  obtain ⟨n, rfl⟩ : ∃ m, n = m + 2 := ⟨n - 2, by omega⟩
  have hu : until_ (lex (sym ')')) (expression nd (n + 2) (term nd (n + 2))) (n + 2) w1 (clean st.g none) =
      (denote revThrow (envOf st.g) t).map' fun e => (some w3, clean st.g (some e)) := by
    rw [until_step (lex_none _ hnr) (e2 st.g none), map'_eq_bind]
    congr 1
    funext e
    exact until_stop (lex_some _ h3.rp)
  rw [term]
  unfold onNewState
  have ha : act (sor (ifMust (lex (sym '(')) (until_ (lex (sym ')')) (expression nd (n + 2) (term nd (n + 2)))
      (n + 2))) (sor booleanLiteral identifier)) termAction w ({ g := st.g } : PState K) =
      (denote revThrow (envOf st.g) t).map' fun e => (some w3, push { g := st.g } e) := by
    have hi : ifMust (lex (sym '(')) (until_ (lex (sym ')')) (expression nd (n + 2) (term nd (n + 2)))
        (n + 2)) w ({ g := st.g } : PState K) =
        (denote revThrow (envOf st.g) t).map' fun e => (some w3, clean st.g (some e)) := by
      unfold ifMust
      rw [seq_run (lex_some _ h1.lp), Outcome.bind_ok]
      exact must_run hu
    rw [act_run (sor_run hi), bind_map', map'_eq_bind]
    rfl
  rw [ha, map'_bind, map'_eq_bind]
  rfl

theorem tokOk_name {s : String} (h : IsName s) : TokOk (.word s) := by
  obtain ⟨c, cs, h1, h2, -⟩ := name_first h
  exact ⟨c, cs, h1, h2⟩

theorem lookup_eq (m : List (String × Expr K)) (n : String) :
    lookup m n = match find m n with
      | some e => .ok e
      | none => .throw .outOfRange := by
  unfold lookup find
  cases m.find? (fun e => e.1 == n) <;> rfl

theorem ref_reads {nm : String} (hn : IsName nm) (ht : nm ≠ "true") (hf : nm ≠ "false") :
    TermReads K (.ref nm) := by
  intro nd n ts w h hl
  obtain ⟨n, rfl⟩ : ∃ m, n = m + 1 := ⟨n - 1, by omega⟩
  simp only [toks, List.cons_append, List.nil_append] at h
  obtain ⟨w1, h1⟩ := next h
  refine ⟨w1, h1.tx, h1.lt, fun st => ?_⟩
  have hall := name_all hn
  rw [term]
  unfold onNewState
  have hb : booleanLiteral w ({ g := st.g } : PState K) = .ok (none, { g := st.g }) := by
    refine act_skip ?_
    rw [sor_skip (act_skip (lex_none _ (h1.kw_ne hall ht (by decide))))]
    exact act_skip (lex_none _ (h1.kw_ne hall hf (by decide)))
  have : act (sor (ifMust (lex (sym '(')) (until_ (lex (sym ')')) (expression nd n (term nd n)) n))
      (sor booleanLiteral identifier)) termAction w ({ g := st.g } : PState K) =
      (denote revThrow (envOf st.g) (.ref nm)).map' fun e => (some w1, push { g := st.g } e) := by
    have hs : sor (ifMust (lex (sym '(')) (until_ (lex (sym ')')) (expression nd n (term nd n)) n))
      (sor booleanLiteral identifier) w ({ g := st.g } : PState K) =
        .ok (some w1, { g := st.g, s := { identifiers := [nm] } }) := by
      rw [sor_skip (ifMust_skip (lex_none _ (h1.not_lp (by simp)))), sor_skip hb]
      exact identifier_run _ hn h1
    rw [act_run (o := .ok ()) (f := fun _ => _) hs, Outcome.bind_ok]
    unfold termAction
    simp only [List.getLast?_singleton]
    rw [lookup_eq]
    simp only [denote, envOf]
    cases find st.g.formulas nm <;> rfl
  rw [this, map'_bind, map'_eq_bind]
  rfl

theorem bool_reads (b : Bool) : TermReads K (if b then .tru else .fls) := by
  intro nd n ts w h hl
  obtain ⟨n, rfl⟩ : ∃ m, n = m + 1 := ⟨n - 1, by omega⟩
  have htk : toks (if b then Syn.tru else .fls) = [.word (if b then "true" else "false")] := by
    cases b <;> simp [toks]
  rw [htk, List.singleton_append] at h
  obtain ⟨w1, h1⟩ := next h
  refine ⟨w1, h1.tx, h1.lt, fun st => ?_⟩
  rw [term]
  unfold onNewState
  have hev : denote revThrow (envOf st.g) (if b then .tru else .fls) = .ok (.Const b) := by
    cases b <;> simp [denote]
  have hb : booleanLiteral w ({ g := st.g } : PState K) = .ok (some w1, clean st.g (some (.Const b))) := by
    unfold booleanLiteral
    cases b with
    | true =>
      simp only [if_true] at h1
      rw [act_run (sor_run (act_run (lex_some _ h1.kw)))]
      rfl
    | false =>
      simp only [Bool.false_eq_true, if_false] at h1
      rw [act_run ((sor_skip (act_skip (lex_none _ (h1.kw_ne (by decide) (by decide) (by decide))))).trans
        (act_run (lex_some _ h1.kw)))]
      rfl
  have : act (sor (ifMust (lex (sym '(')) (until_ (lex (sym ')')) (expression nd n (term nd n)) n))
      (sor booleanLiteral identifier)) termAction w ({ g := st.g } : PState K) =
      .ok (some w1, push { g := st.g } (.Const b)) := by
    have hs : sor (ifMust (lex (sym '(')) (until_ (lex (sym ')')) (expression nd n (term nd n)) n))
      (sor booleanLiteral identifier) w ({ g := st.g } : PState K) =
        .ok (some w1, clean st.g (some (.Const b))) := by
      rw [sor_skip (ifMust_skip (lex_none _ (h1.not_lp (by simp))))]
      exact sor_run (o := .ok ()) (f := fun _ => _) hb
    rw [act_run (o := .ok ()) (f := fun _ => _) hs, Outcome.bind_ok]
    rfl
  simp only [this, hev]
  rfl

/-! ## Expressions -/

/-- The keyword `k` at the beginning: no comparison symbol, and no other keyword. -/
theorem Next.kw_only {k : String} {ts : List Tok} {w w' : List Char} (h : Next (.word k) ts w w')
    (hk : ∀ d ∈ k.toList, isIdOther d = true) :
    (∀ c cs, w = c :: cs → c ≠ '<' ∧ c ≠ '>') ∧ ∀ key : String, k ≠ key →
      (∀ d ∈ key.toList, stopChar d = false) → keyword key w = none :=
  ⟨h.no_op (by simp), fun _ hne hkey => h.kw_ne hk hne hkey⟩

theorem two_reads {a b : Syn} (ha : TermReads K a) (hb : TermReads K b) (nd : Bool) (n : Nat) (ts : List Tok)
    (w : List Char) (h : TX (toks a ++ (toks b ++ ts)) w) (hl : w.length < n) :
    ∃ w', TX ts w' ∧ w'.length < w.length ∧ ∀ (g : Specification K) (res : Option (Expr K)),
      seq (term nd n) (term nd n) w (clean g res) =
        ((denote revThrow (envOf g) a) >>= fun x => (denote revThrow (envOf g) b) >>= fun y =>
          .ok (x, y)).map' fun p => (some w', ⟨g, ⟨res, none, [], none, none, [p.1, p.2]⟩⟩) := by
  obtain ⟨w1, h1, l1, e1⟩ := ha nd n _ w h hl
  obtain ⟨w2, h2, l2, e2⟩ := hb nd n _ w1 h1 (by omega)
  refine ⟨w2, h2, by omega, fun g res => ?_⟩
  rw [seq_run (e1 (clean g res))]
  show (denote revThrow (envOf g) a >>= _) = _
  cases denote revThrow (envOf g) a with
  | ok x =>
    simp only [Outcome.bind_ok]
    rw [e2 (push (clean g res) x)]
    show Outcome.map' _ (denote revThrow (envOf g) b) = _
    cases denote revThrow (envOf g) b <;> rfl
  | _ => rfl

theorem must_two {w : List Char} {nd : Bool} {n : Nat} {st : PState K} :
    must (seq (must (term nd n)) (must (term nd n))) w st = must (seq (term nd n) (term nd n)) w st := by
  have key : ∀ r : Rule K, must (seq (must r) (must r)) w st = must (seq r r) w st := by
    intro r
    unfold must seq
    simp only
    cases h1 : r w st with
    | ok p =>
      obtain ⟨o, st'⟩ := p
      cases o with
      | none => simp
      | some rest =>
        simp only [Outcome.bind_ok, Outcome.pure_eq_ok]
        cases h2 : r rest st' with
        | ok p => obtain ⟨o, st''⟩ := p; cases o <;> simp
        | _ => simp
    | _ => simp
  exact key _

theorem star_reads {nd : Bool} : ∀ {l : List Syn}, (∀ t ∈ l, TermReads K t) → ∀ (n m : Nat) (ts : List Tok)
    (w : List Char), TX (toksAll l ++ .rp :: ts) w → w.length < n → w.length < m →
    ∃ w', TX (.rp :: ts) w' ∧ w'.length ≤ w.length ∧ ∀ st : PState K,
      star (term nd n) m w st =
        (evalAll revThrow (envOf st.g) l).map' fun es =>
          (some w', { st with s := { st.s with terms := st.s.terms ++ es } })
  | [], _, n, m, ts, w, h, hn, hm => by
    simp only [toksAll, List.nil_append] at h
    refine ⟨w, h, le_rfl, fun st => ?_⟩
    obtain ⟨m, rfl⟩ : ∃ k, m = k + 1 := ⟨m - 1, by omega⟩
    rw [star_stop (term_rp nd n (by omega) h st)]
    simp [evalAll, Outcome.map']
  | t :: l, hall, n, m, ts, w, h, hn, hm => by
    simp only [toksAll, List.append_assoc] at h
    obtain ⟨w1, h1, l1, e1⟩ := hall t (by simp) nd n _ w h hn
    obtain ⟨m, rfl⟩ : ∃ k, m = k + 1 := ⟨m - 1, by omega⟩
    obtain ⟨w2, h2, l2, e2⟩ := star_reads (fun x hx => hall x (by simp [hx])) n m ts w1 h1 (by omega) (by omega)
    refine ⟨w2, h2, by omega, fun st => ?_⟩
    rw [star_step (e1 st)]
    simp only [evalAll]
    cases denote revThrow (envOf st.g) t with
    | ok x =>
      simp only [Outcome.bind_ok]
      rw [e2 (push st x)]
      show Outcome.map' _ (evalAll revThrow (envOf st.g) l) = _
      cases evalAll revThrow (envOf st.g) l with
      | ok es => simp [Outcome.map', push]
      | _ => rfl
    | _ => rfl

/-- The action of And and Or after the operands have been read. -/
theorem nary_action (nd : Bool) (f : List (Expr K) → Outcome (Expr K)) (g : Specification K)
    (res : Option (Expr K)) (es : List (Expr K)) :
    naryAction nd f ⟨g, ⟨res, none, [], none, none, es⟩⟩ =
      (if es.length < 2 then .throw .parseError else f es).map' fun e => clean g (some e) := by
  unfold naryAction
  simp only
  split
  · rfl
  · rename_i h
    have : assert_ nd (decide (2 ≤ es.length)) = .ok () := by
      unfold assert_; rw [if_pos]; simp; omega
    rw [this]
    simp only [Outcome.bind_ok]
    cases f es <;> rfl

theorem nary_reads {nd : Bool} {l : List Syn} (hl : ∀ t ∈ l, TermReads K t) (key : String)
    (f : List (Expr K) → Outcome (Expr K)) (n : Nat) (ts : List Tok) (w : List Char)
    (h : TX (.word key :: (toksAll l ++ .rp :: ts)) w) (hn : w.length < n) :
    ∃ w', TX (.rp :: ts) w' ∧ w'.length < w.length ∧ ∀ (g : Specification K) (res : Option (Expr K)),
      act (ifMust (kw key) (plus (term nd n) n)) (naryAction nd f) w (clean g res) =
        (evalAll revThrow (envOf g) l >>= fun es => if es.length < 2 then .throw .parseError else f es).map'
          fun e => (some w', clean g (some e)) := by
  obtain ⟨w1, h1⟩ := next h
  have l1 := h1.lt
  cases l with
  | nil =>
    simp only [toksAll, List.nil_append] at h1
    refine ⟨w1, h1.tx, l1, fun g res => ?_⟩
    unfold act ifMust kw
    rw [seq_run (lex_some _ h1.kw), Outcome.bind_ok]
    unfold must plus
    rw [seq_skip (term_rp nd n (by omega) h1.tx _)]
    rfl
  | cons t l =>
    have htx := h1.tx
    simp only [toksAll, List.append_assoc] at htx
    obtain ⟨w2, h2, l2, e2⟩ := hl t (by simp) nd n _ w1 htx (by omega)
    obtain ⟨w3, h3, l3, e3⟩ := star_reads (nd := nd) (fun x hx => hl x (by simp [hx])) n n ts w2 h2 (by omega)
      (by omega)
    refine ⟨w3, h3, by omega, fun g res => ?_⟩
    have hp : plus (term nd n) n w1 (clean g res) =
        (evalAll revThrow (envOf g) (t :: l)).map' fun es =>
          (some w3, ⟨g, ⟨res, none, [], none, none, es⟩⟩) := by
      unfold plus
      rw [seq_run (e2 _)]
      simp only [evalAll]
      show (denote revThrow (envOf g) t >>= _) = _
      cases denote revThrow (envOf g) t with
      | ok x =>
        simp only [Outcome.bind_ok]
        rw [e3 _]
        show Outcome.map' _ (evalAll revThrow (envOf g) l) = _
        cases evalAll revThrow (envOf g) l <;> rfl
      | _ => rfl
    rw [kw_run h1.kw hp, bind_map', bind_map']
    congr 1
    funext es
    rw [nary_action, map'_map']

theorem unary_action (nd one : Bool) (f : Expr K → Expr K) (g : Specification K) (res : Option (Expr K))
    (e : Expr K) : unaryAction nd one f ⟨g, ⟨res, none, [], none, none, [e]⟩⟩ = .ok (clean g (some (f e))) := by
  unfold unaryAction assert_
  cases one <;> cases nd <;> rfl

theorem binary_action (nd : Bool) (f : Expr K → Expr K → Outcome (Expr K)) (g : Specification K)
    (res : Option (Expr K)) (a b : Expr K) :
    binaryAction nd f ⟨g, ⟨res, none, [], none, none, [a, b]⟩⟩ =
      (f a b).map' fun e => clean g (some e) := by
  unfold binaryAction assert_
  simp only [back]
  cases nd <;> simp <;> cases f a b <;> rfl

theorem unary_reads {nd one : Bool} {t : Syn} (ht : TermReads K t) (key : String) (f : Expr K → Expr K) (n : Nat)
    (ts : List Tok) (w : List Char) (h : TX (.word key :: (toks t ++ ts)) w) (hn : w.length < n) :
    ∃ w', TX ts w' ∧ w'.length < w.length ∧ ∀ (g : Specification K) (res : Option (Expr K)),
      act (ifMust (kw key) (term nd n)) (unaryAction nd one f) w (clean g res) =
        (denote revThrow (envOf g) t >>= fun e => .ok (f e)).map' fun e => (some w', clean g (some e)) := by
  obtain ⟨w1, h1⟩ := next h
  have l1 := h1.lt
  obtain ⟨w2, h2, l2, e2⟩ := ht nd n _ w1 h1.tx (by omega)
  refine ⟨w2, h2, by omega, fun g res => ?_⟩
  rw [kw_run h1.kw (e2 _), bind_map', bind_map']
  congr 1
  funext e
  show Outcome.map' _ (unaryAction nd one f ⟨g, ⟨res, none, [], none, none, [e]⟩⟩) = _
  rw [unary_action]
  rfl

theorem binary_reads {nd : Bool} {a b : Syn} (ha : TermReads K a) (hb : TermReads K b) (key : String)
    (f : Expr K → Expr K → Outcome (Expr K)) (n : Nat) (ts : List Tok) (w : List Char)
    (h : TX (.word key :: (toks a ++ (toks b ++ ts))) w) (hn : w.length < n) :
    ∃ w', TX ts w' ∧ w'.length < w.length ∧ ∀ (g : Specification K) (res : Option (Expr K)),
      act (ifMust (kw key) (seq (term nd n) (term nd n))) (binaryAction nd f) w (clean g res) =
        (denote revThrow (envOf g) a >>= fun x => denote revThrow (envOf g) b >>= fun y => f x y).map'
          fun e => (some w', clean g (some e)) := by
  obtain ⟨w1, h1⟩ := next h
  have l1 := h1.lt
  obtain ⟨w2, h2, l2, e2⟩ := two_reads ha hb nd n _ w1 h1.tx (by omega)
  refine ⟨w2, h2, by omega, fun g res => ?_⟩
  rw [kw_run h1.kw (e2 g res)]
  cases denote revThrow (envOf g) a with
  | ok x =>
    simp only [Outcome.bind_ok]
    cases denote revThrow (envOf g) b with
    | ok y => simp only [Outcome.bind_ok]; rw [binary_action, map'_map']
    | _ => rfl
  | _ => rfl

theorem act_congr {r r' : Rule K} {f : PState K → Outcome (PState K)} {w : List Char} {st : PState K}
    (h : r w st = r' w st) : act r f w st = act r' f w st := by unfold act; rw [h]

theorem until_binary (nd : Bool) (n : Nat) (f : PState K → Outcome (PState K)) (w : List Char) (st : PState K) :
    act (ifMust (kw "until") (seq (must (term nd n)) (must (term nd n)))) f w st =
      act (ifMust (kw "until") (seq (term nd n) (term nd n))) f w st := by
  refine act_congr ?_
  unfold ifMust seq kw lex
  simp only [Outcome.bind_ok]
  split
  · exact must_two
  · rfl

end Rule
end Verif
