import Verif.Proofs.ParserTerm
import Verif.Proofs.ParserFuel

/-!
# The parser on texts of specifications
-/

set_option linter.unusedSectionVars false

namespace Verif
open Spec
open _root_.Verif.Lex

namespace Rule
variable {K : Type} [Field K] [LinearOrder K] [IsStrictOrderedRing K] [Arith K] [Strtod K]

/-! ## What is between parentheses -/

theorem pred_eval (g : Specification K) (o : ComparisonOp) (nm : String) (c : NumLit) :
    denote revThrow (envOf g) (.cmp o nm c) = (c.eval (K := K)).map' fun d => .pred nm o d := by
  simp only [denote]; rw [map'_eq_bind]; rfl

theorem cmp_expr (o : ComparisonOp) (nm : String) (c : NumLit) (hn : IsName nm) :
    ExprReads K true (.cmp o nm c) := by
  intro nd n ts w _ h hl
  obtain ⟨w', h1, h2, h3⟩ := cmp_reads (K := K) o nm c hn ts w h
  refine ⟨w', h1, h2, fun g res => ?_⟩
  unfold expression
  rw [sor_run (h3 g res), pred_eval]
  simp only [map'_map']

theorem rcmp_expr (o : ComparisonOp) (nm : String) (c : NumLit) (hn : IsName nm) :
    ExprReads K true (.rcmp o c nm) := by
  intro nd n ts w _ h hl
  obtain ⟨w', h1, h2, h3⟩ := rcmp_reads (K := K) o nm c hn ts w h
  refine ⟨w', h1, h2, fun g res => ?_⟩
  unfold expression
  rw [sor_run (h3 g res)]
  simp only [denote, revThrow]
  cases c.eval (K := K) <;> rfl

section
variable {k : String} {ts : List Tok} {w w' : List Char}

/-- All keywords but `k` are skipped. -/
theorem skips (h : Next (.word k) ts w w') (hk : ∀ d ∈ k.toList, isIdOther d = true) (key : String)
    (hne : k ≠ key) (hkey : ∀ d ∈ key.toList, stopChar d = false) (r : Rule K)
    (f : PState K → Outcome (PState K)) (st : PState K) :
    act (ifMust (kw key) r) f w st = .ok (none, st) := kw_skip (h.kw_ne hk hne hkey)

end

theorem not_expr {t : Syn} (ht : TermReads K t) : ExprReads K true (.not t) := by
  intro nd n ts w _ h hl
  simp only [inner, List.cons_append] at h
  obtain ⟨w1, h1⟩ := next h
  obtain ⟨w', h2, l2, e2⟩ := unary_reads (nd := nd) (one := false) ht "not" Expr.Not n ts w h hl
  refine ⟨w', h2, l2, fun g res => ?_⟩
  unfold expression
  rw [sor_skip (predicateTerm_skip _ (h1.no_op (by simp))), sor_run (e2 g res)]
  simp only [denote]; rfl

theorem always_expr {t : Syn} (ht : TermReads K t) : ExprReads K true (.always t) := by
  intro nd n ts w _ h hl
  simp only [inner, List.cons_append] at h
  obtain ⟨w1, h1⟩ := next h
  obtain ⟨w', h2, l2, e2⟩ := unary_reads (nd := nd) (one := true) ht "always" Expr.Always n ts w h hl
  refine ⟨w', h2, l2, fun g res => ?_⟩
  unfold expression
  rw [sor_skip (predicateTerm_skip _ (h1.no_op (by simp)))]
  iterate 6 rw [sor_skip (skips h1 (by decide) _ (by decide) (by decide) _ _ _)]
  rw [sor_run (e2 g res)]
  simp only [denote]; rfl

theorem eventually_expr {t : Syn} (ht : TermReads K t) : ExprReads K true (.eventually t) := by
  intro nd n ts w _ h hl
  simp only [inner, List.cons_append] at h
  obtain ⟨w1, h1⟩ := next h
  obtain ⟨w', h2, l2, e2⟩ := unary_reads (nd := nd) (one := true) ht "eventually" Expr.Eventually n ts w h hl
  refine ⟨w', h2, l2, fun g res => ?_⟩
  unfold expression
  rw [sor_skip (predicateTerm_skip _ (h1.no_op (by simp)))]
  iterate 7 rw [sor_skip (skips h1 (by decide) _ (by decide) (by decide) _ _ _)]
  rw [sor_run (e2 g res)]
  simp only [denote]; rfl

theorem and_expr {l : List Syn} (ht : ∀ t ∈ l, TermReads K t) : ExprReads K false (.and l) := by
  intro nd n ts w hrp h hl
  obtain ⟨ts, rfl⟩ := hrp rfl
  simp only [inner, List.cons_append] at h
  obtain ⟨w1, h1⟩ := next h
  obtain ⟨w', h2, l2, e2⟩ := nary_reads (nd := nd) ht "and" Expr.And n ts w h hl
  refine ⟨w', h2, l2, fun g res => ?_⟩
  unfold expression
  rw [sor_skip (predicateTerm_skip _ (h1.no_op (by simp)))]
  iterate 1 rw [sor_skip (skips h1 (by decide) _ (by decide) (by decide) _ _ _)]
  rw [sor_run (e2 g res)]
  simp only [denote]

theorem or_expr {l : List Syn} (ht : ∀ t ∈ l, TermReads K t) : ExprReads K false (.or l) := by
  intro nd n ts w hrp h hl
  obtain ⟨ts, rfl⟩ := hrp rfl
  simp only [inner, List.cons_append] at h
  obtain ⟨w1, h1⟩ := next h
  obtain ⟨w', h2, l2, e2⟩ := nary_reads (nd := nd) ht "or" Expr.Or n ts w h hl
  refine ⟨w', h2, l2, fun g res => ?_⟩
  unfold expression
  rw [sor_skip (predicateTerm_skip _ (h1.no_op (by simp)))]
  iterate 2 rw [sor_skip (skips h1 (by decide) _ (by decide) (by decide) _ _ _)]
  rw [sor_run (e2 g res)]
  simp only [denote]

theorem implies_expr {a b : Syn} (ha : TermReads K a) (hb : TermReads K b) :
    ExprReads K true (.implies a b) := by
  intro nd n ts w _ h hl
  simp only [inner, List.cons_append, List.append_assoc] at h
  obtain ⟨w1, h1⟩ := next h
  obtain ⟨w', h2, l2, e2⟩ := binary_reads (nd := nd) ha hb "implies" Expr.Implies n ts w h hl
  refine ⟨w', h2, l2, fun g res => ?_⟩
  unfold expression
  rw [sor_skip (predicateTerm_skip _ (h1.no_op (by simp)))]
  iterate 3 rw [sor_skip (skips h1 (by decide) _ (by decide) (by decide) _ _ _)]
  rw [sor_run (e2 g res)]
  simp only [denote]

theorem iff_expr {a b : Syn} (ha : TermReads K a) (hb : TermReads K b) :
    ExprReads K true (.iff a b) := by
  intro nd n ts w _ h hl
  simp only [inner, List.cons_append, List.append_assoc] at h
  obtain ⟨w1, h1⟩ := next h
  obtain ⟨w', h2, l2, e2⟩ := binary_reads (nd := nd) ha hb "iff" Expr.Iff n ts w h hl
  refine ⟨w', h2, l2, fun g res => ?_⟩
  unfold expression
  rw [sor_skip (predicateTerm_skip _ (h1.no_op (by simp)))]
  iterate 4 rw [sor_skip (skips h1 (by decide) _ (by decide) (by decide) _ _ _)]
  rw [sor_run (e2 g res)]
  simp only [denote]

theorem xor_expr {a b : Syn} (ha : TermReads K a) (hb : TermReads K b) :
    ExprReads K true (.xor a b) := by
  intro nd n ts w _ h hl
  simp only [inner, List.cons_append, List.append_assoc] at h
  obtain ⟨w1, h1⟩ := next h
  obtain ⟨w', h2, l2, e2⟩ := binary_reads (nd := nd) ha hb "xor" Expr.Xor n ts w h hl
  refine ⟨w', h2, l2, fun g res => ?_⟩
  unfold expression
  rw [sor_skip (predicateTerm_skip _ (h1.no_op (by simp)))]
  iterate 5 rw [sor_skip (skips h1 (by decide) _ (by decide) (by decide) _ _ _)]
  rw [sor_run (e2 g res)]
  simp only [denote]

theorem untl_expr {a b : Syn} (ha : TermReads K a) (hb : TermReads K b) :
    ExprReads K true (.untl a b) := by
  intro nd n ts w _ h hl
  simp only [inner, List.cons_append, List.append_assoc] at h
  obtain ⟨w1, h1⟩ := next h
  obtain ⟨w', h2, l2, e2⟩ := binary_reads (nd := nd) ha hb "until" (fun a b => .ok (Expr.Until a b)) n ts w h hl
  refine ⟨w', h2, l2, fun g res => ?_⟩
  unfold expression
  rw [sor_skip (predicateTerm_skip _ (h1.no_op (by simp)))]
  iterate 8 rw [sor_skip (skips h1 (by decide) _ (by decide) (by decide) _ _ _)]
  rw [sor_run ((until_binary nd n _ w _).trans (e2 g res))]
  simp only [denote]; rfl

/-! ## All terms -/

/-- Operators with a fixed number of operands. -/
def fixed : Syn → Bool
  | .and _ => false
  | .or _ => false
  | _ => true

/-- Terms with parentheses. -/
def compound : Syn → Bool
  | .tru => false
  | .fls => false
  | .ref _ => false
  | _ => true

theorem toks_compound {t : Syn} (h : compound t = true) : toks t = .lp :: (inner t ++ [.rp]) := by
  cases t <;> first | (simp [compound] at h; done) | simp [toks, inner]

theorem inner_head {t : Syn} (h : compound t = true) : ∃ t0 tl, inner t = t0 :: tl ∧ t0 ≠ .rp := by
  cases t <;> first | (simp [compound] at h; done) | simp [inner]

theorem reads_paren {t : Syn} (h : compound t = true) {any : Bool} (he : ExprReads K any t) : TermReads K t :=
  term_paren (toks_compound h) he (inner_head h)

theorem term_reads : ∀ t : Syn, SynOk t → TermReads K t
  | .tru, _ => bool_reads true
  | .fls, _ => bool_reads false
  | .ref _, .ref hn ht hf => ref_reads hn ht hf
  | .cmp o n c, .cmp hn => reads_paren rfl (cmp_expr o n c hn)
  | .rcmp o c n, .rcmp hn => reads_paren rfl (rcmp_expr o n c hn)
  | .not t, .not h => reads_paren rfl (not_expr (term_reads t h))
  | .always t, .always h => reads_paren rfl (always_expr (term_reads t h))
  | .eventually t, .eventually h => reads_paren rfl (eventually_expr (term_reads t h))
  | .and _, .and h => reads_paren rfl (and_expr fun t ht => term_reads t (h t ht))
  | .or _, .or h => reads_paren rfl (or_expr fun t ht => term_reads t (h t ht))
  | .implies a b, .implies ha hb => reads_paren rfl (implies_expr (term_reads a ha) (term_reads b hb))
  | .iff a b, .iff ha hb => reads_paren rfl (iff_expr (term_reads a ha) (term_reads b hb))
  | .xor a b, .xor ha hb => reads_paren rfl (xor_expr (term_reads a ha) (term_reads b hb))
  | .untl a b, .untl ha hb => reads_paren rfl (untl_expr (term_reads a ha) (term_reads b hb))

theorem expr_reads {t : Syn} (h : SynOk t) (hc : compound t = true) : ExprReads K (fixed t) t := by
  cases h with
  | cmp hn => exact cmp_expr _ _ _ hn
  | rcmp hn => exact rcmp_expr _ _ _ hn
  | not h => exact not_expr (term_reads _ h)
  | always h => exact always_expr (term_reads _ h)
  | eventually h => exact eventually_expr (term_reads _ h)
  | and h => exact and_expr fun t ht => term_reads t (h t ht)
  | or h => exact or_expr fun t ht => term_reads t (h t ht)
  | implies ha hb => exact implies_expr (term_reads _ ha) (term_reads _ hb)
  | iff ha hb => exact iff_expr (term_reads _ ha) (term_reads _ hb)
  | xor ha hb => exact xor_expr (term_reads _ ha) (term_reads _ hb)
  | untl ha hb => exact untl_expr (term_reads _ ha) (term_reads _ hb)
  | _ => simp [compound] at hc

/-! ## Commands -/

theorem insert_eq (m : List (String × Expr K)) (n : String) (e : Expr K) :
    insert m n e = if n ∈ m.map Prod.fst then (m, false) else (m ++ [(n, e)], true) := by
  unfold insert
  have : (m.any fun p => p.1 == n) = decide (n ∈ m.map Prod.fst) := by
    rw [Bool.eq_iff_iff]; simp
  by_cases h : n ∈ m.map Prod.fst <;> simp [this, h]

theorem define_action (nd : Bool) (g : Specification K) (n : String) (e : Expr K) :
    commandAction nd insertFormula ⟨g, { identifiers := [n], terms := [e] }⟩ =
      (addNew g.formulas n e).map' fun m => ⟨{ g with formulas := m }, {}⟩ := by
  unfold commandAction assert_ insertFormula addNew
  cases nd <;> by_cases h : n ∈ g.formulas.map Prod.fst <;> simp [back, insert_eq, h, Outcome.map']

theorem assert_action (nd : Bool) (g : Specification K) (n : String) (e : Expr K) :
    commandAction nd insertAssertion ⟨g, { identifiers := [n], terms := [e] }⟩ =
      (addNew g.assertions n e).map' fun m => ⟨{ g with assertions := m }, {}⟩ := by
  unfold commandAction assert_ insertAssertion addNew
  cases nd <;> by_cases h : n ∈ g.assertions.map Prod.fst <;> simp [back, insert_eq, h, Outcome.map']

/-- Name and term of a command. -/
theorem body_reads {tk : List Tok} {ev : Specification K → Outcome (Expr K)} {nm : String} (hn : IsName nm)
    (ht : TReads K tk ev) (nd : Bool) (n : Nat) (ts : List Tok) (w : List Char)
    (h : TX (.word nm :: (tk ++ ts)) w) (hl : w.length < n) :
    ∃ w', TX ts w' ∧ w'.length < w.length ∧ ∀ g : Specification K,
      seq (must identifier) (must (term nd n)) w { g := g } =
        (ev g).map' fun e => (some w', ⟨g, { identifiers := [nm], terms := [e] }⟩) := by
  obtain ⟨w1, h1⟩ := next h
  have l1 := h1.lt
  obtain ⟨w2, h2, l2, e2⟩ := ht nd n _ w1 h1.tx (by omega)
  refine ⟨w2, h2, by omega, fun g => ?_⟩
  rw [seq_run (must_run (o := .ok ()) (f := fun _ => _) (identifier_run _ hn h1)), Outcome.bind_ok]
  exact must_run (e2 _)

theorem define_reads {tk : List Tok} {ev : Specification K → Outcome (Expr K)} {nm : String} (hn : IsName nm)
    (ht : TReads K tk ev) (nd : Bool) (n : Nat) (ts : List Tok) (w : List Char)
    (h : TX (.lp :: .word "define-formula" :: .word nm :: (tk ++ .rp :: ts)) w) (hl : w.length < n) :
    ∃ w', TX ts w' ∧ w'.length < w.length ∧ ∀ g : Specification K,
      anyCommand nd n w { g := g } = (ev g >>= fun e => addNew g.formulas nm e).map'
        fun m => (some w', { g := { g with formulas := m } }) := by
  obtain ⟨w1, h1⟩ := next h
  obtain ⟨w2, h2⟩ := next h1.tx
  have l1 := h1.lt; have l2 := h2.lt
  obtain ⟨w3, h3, l3, e3⟩ := body_reads hn ht nd n _ w2 h2.tx (by omega)
  obtain ⟨w4, h4⟩ := next h3
  have l4 := h4.lt
  refine ⟨w4, h4.tx, by omega, fun g => ?_⟩
  obtain ⟨n, rfl⟩ : ∃ m, n = m + 2 := ⟨n - 2, by omega⟩
  have hd : defineFormula nd (n + 2) w1 { g := g } = (ev g >>= fun e => addNew g.formulas nm e).map'
      fun m => (some w3, { g := { g with formulas := m } }) := by
    unfold defineFormula
    rw [kw_run h2.kw (e3 g)]
    cases ev g with
    | ok e =>
      simp only [Outcome.bind_ok]
      rw [define_action]
      cases addNew g.formulas nm e <;> rfl
    | _ => rfl
  have hk : keyword "assert" w1 = none := by
    obtain ⟨r, hr, -⟩ := h2.ex
    rw [hr]
    exact keyword_cons_ne (k := 'a') (ks := ['s', 's', 'e', 'r', 't']) (by decide) (by decide)
  have hm : must (sor (assertion nd (n + 2)) (defineFormula nd (n + 2))) w1 { g := g } =
      (ev g >>= fun e => addNew g.formulas nm e).map'
        fun m => (some w3, { g := { g with formulas := m } }) := by
    refine must_run ?_
    unfold assertion
    rw [sor_skip (kw_skip hk)]
    exact hd
  unfold anyCommand ifMust
  rw [seq_run (lex_some _ h1.lp), Outcome.bind_ok]
  refine must_run ?_
  rw [until_step (lex_none _ (h2.not_rp (by simp))) hm, map'_eq_bind]
  congr 1
  funext g'
  exact until_stop (lex_some _ h4.rp)

theorem assert_reads {tk : List Tok} {ev : Specification K → Outcome (Expr K)} {nm : String} (hn : IsName nm)
    (ht : TReads K tk ev) (nd : Bool) (n : Nat) (ts : List Tok) (w : List Char)
    (h : TX (.lp :: .word "assert" :: .word nm :: (tk ++ .rp :: ts)) w) (hl : w.length < n) :
    ∃ w', TX ts w' ∧ w'.length < w.length ∧ ∀ g : Specification K,
      anyCommand nd n w { g := g } = (ev g >>= fun e => addNew g.assertions nm e).map'
        fun m => (some w', { g := { g with assertions := m } }) := by
  obtain ⟨w1, h1⟩ := next h
  obtain ⟨w2, h2⟩ := next h1.tx
  have l1 := h1.lt; have l2 := h2.lt
  obtain ⟨w3, h3, l3, e3⟩ := body_reads hn ht nd n _ w2 h2.tx (by omega)
  obtain ⟨w4, h4⟩ := next h3
  have l4 := h4.lt
  refine ⟨w4, h4.tx, by omega, fun g => ?_⟩
  obtain ⟨n, rfl⟩ : ∃ m, n = m + 2 := ⟨n - 2, by omega⟩
  have hd : assertion nd (n + 2) w1 { g := g } = (ev g >>= fun e => addNew g.assertions nm e).map'
      fun m => (some w3, { g := { g with assertions := m } }) := by
    unfold assertion
    rw [kw_run h2.kw (e3 g)]
    cases ev g with
    | ok e =>
      simp only [Outcome.bind_ok]
      rw [assert_action]
      cases addNew g.assertions nm e <;> rfl
    | _ => rfl
  have hm : must (sor (assertion nd (n + 2)) (defineFormula nd (n + 2))) w1 { g := g } =
      (ev g >>= fun e => addNew g.assertions nm e).map'
        fun m => (some w3, { g := { g with assertions := m } }) := must_run (sor_run hd)
  unfold anyCommand ifMust
  rw [seq_run (lex_some _ h1.lp), Outcome.bind_ok]
  refine must_run ?_
  rw [until_step (lex_none _ (h2.not_rp (by simp))) hm, map'_eq_bind]
  congr 1
  funext g'
  exact until_stop (lex_some _ h4.rp)

theorem cmd_reads {c : Cmd} (hc : CmdOk c) (nd : Bool) (n : Nat) (ts : List Tok) (w : List Char)
    (h : TX (c.toks ++ ts) w) (hl : w.length < n) :
    ∃ w', TX ts w' ∧ w'.length < w.length ∧ ∀ g : Specification K,
      anyCommand nd n w { g := g } = (evalCmd revThrow g c).map' fun g' => (some w', { g := g' }) := by
  cases hc with
  | @define nm t hn hs =>
    simp only [Cmd.toks, List.cons_append, List.append_assoc] at h
    obtain ⟨w', h1, l1, e1⟩ := define_reads hn (term_reads (K := K) t hs) nd n ts w h hl
    refine ⟨w', h1, l1, fun g => ?_⟩
    rw [e1 g]
    simp only [evalCmd]
    cases denote revThrow (find g.formulas) t with
    | ok e =>
      simp only [Outcome.bind_ok]
      cases addNew g.formulas nm e <;> rfl
    | _ => rfl
  | @assert nm t hn hs =>
    simp only [Cmd.toks, List.cons_append, List.append_assoc] at h
    obtain ⟨w', h1, l1, e1⟩ := assert_reads hn (term_reads (K := K) t hs) nd n ts w h hl
    refine ⟨w', h1, l1, fun g => ?_⟩
    rw [e1 g]
    simp only [evalCmd]
    cases denote revThrow (find g.formulas) t with
    | ok e =>
      simp only [Outcome.bind_ok]
      cases addNew g.assertions nm e <;> rfl
    | _ => rfl

/-! ## More than one expression in parentheses, and redundant parentheses -/

/-- Several expressions between one pair of parentheses: the last one counts. -/
theorem many_until (nd : Bool) (n : Nat) {t : Syn} (ht : SynOk t) (hct : compound t = true) (ts : List Tok) :
    ∀ (l : List Syn), (∀ x ∈ l, SynOk x ∧ compound x = true ∧ fixed x = true) → ∀ (m : Nat) (w : List Char),
    TX (l.flatMap inner ++ (inner t ++ .rp :: ts)) w → w.length < n → w.length < m →
    ∃ w', TX ts w' ∧ w'.length < w.length ∧ ∀ (g : Specification K) (res : Option (Expr K)),
      until_ (lex (sym ')')) (expression nd n (term nd n)) m w (clean g res) =
        (evalAll revThrow (envOf g) l >>= fun _ => denote revThrow (envOf g) t).map'
          fun e => (some w', clean g (some e))
  | [], _, m, w, h, hn, hm => by
    simp only [List.flatMap_nil, List.nil_append] at h
    obtain ⟨t0, tl, hin, hne⟩ := inner_head hct
    have hnr : sym ')' w = none := by
      have h' := h
      rw [hin, List.cons_append] at h'
      obtain ⟨_, h0⟩ := next h'
      exact h0.not_rp hne
    obtain ⟨w2, h2, l2, e2⟩ := expr_reads (K := K) ht hct nd n _ w (fun _ => ⟨ts, rfl⟩) h hn
    obtain ⟨w3, h3⟩ := next h2
    have l3 := h3.lt
    refine ⟨w3, h3.tx, by omega, fun g res => ?_⟩
    obtain ⟨m, rfl⟩ : ∃ k, m = k + 2 := ⟨m - 2, by omega⟩
    rw [until_step (lex_none _ hnr) (e2 g res)]
    simp only [evalAll, Outcome.bind_ok]
    rw [map'_eq_bind]
    congr 1
    funext e
    exact until_stop (lex_some _ h3.rp)
  | x :: l, hall, m, w, h, hn, hm => by
    rw [List.flatMap_cons, List.append_assoc] at h
    obtain ⟨hx, hcx, hfx⟩ := hall x (by simp)
    obtain ⟨t0, tl, hin, hne⟩ := inner_head hcx
    have hnr : sym ')' w = none := by
      have h' := h
      rw [hin, List.cons_append] at h'
      obtain ⟨_, h0⟩ := next h'
      exact h0.not_rp hne
    obtain ⟨w2, h2, l2, e2⟩ := expr_reads (K := K) hx hcx nd n _ w (fun e => by rw [hfx] at e; cases e) h hn
    obtain ⟨m, rfl⟩ : ∃ k, m = k + 1 := ⟨m - 1, by omega⟩
    obtain ⟨w3, h3, l3, e3⟩ := many_until nd n ht hct ts l (fun y hy => hall y (by simp [hy])) m w2 h2 (by omega)
      (by omega)
    refine ⟨w3, h3, by omega, fun g res => ?_⟩
    rw [until_step (lex_none _ hnr) (e2 g res)]
    simp only [evalAll]
    cases denote revThrow (envOf g) x with
    | ok e =>
      simp only [Outcome.bind_ok]
      rw [e3 g (some e)]
      cases evalAll revThrow (envOf g) l <;> rfl
    | _ => rfl

theorem many_reads {t : Syn} (ht : SynOk t) (hct : compound t = true) {l : List Syn}
    (hl : ∀ x ∈ l, SynOk x ∧ compound x = true ∧ fixed x = true) :
    TReads K (.lp :: (l.flatMap inner ++ (inner t ++ [.rp])))
      fun g => evalAll revThrow (envOf g) l >>= fun _ => denote revThrow (envOf g) t := by
  intro nd n ts w h hlen
  obtain ⟨n, rfl⟩ : ∃ m, n = m + 1 := ⟨n - 1, by omega⟩
  simp only [List.cons_append, List.append_assoc, List.nil_append] at h
  obtain ⟨w1, h1⟩ := next h
  have l1 := h1.lt
  obtain ⟨w3, h3, l3, e3⟩ := many_until (K := K) nd n ht hct ts l hl n w1 h1.tx (by omega) (by omega)
  refine ⟨w3, h3, by omega, fun st => ?_⟩
  rw [term]
  unfold onNewState
  have hi : ifMust (lex (sym '(')) (until_ (lex (sym ')')) (expression nd n (term nd n)) n) w
      ({ g := st.g } : PState K) =
      (evalAll revThrow (envOf st.g) l >>= fun _ => denote revThrow (envOf st.g) t).map'
        fun e => (some w3, clean st.g (some e)) := by
    unfold ifMust
    rw [seq_run (lex_some _ h1.lp), Outcome.bind_ok]
    exact must_run (e3 st.g none)
  rw [act_run (sor_run hi)]
  beta_reduce
  cases (evalAll revThrow (envOf st.g) l >>= fun _ => denote revThrow (envOf st.g) t) <;> rfl

/-- The keywords of the operators. -/
def operators : List String :=
  ["not", "and", "or", "implies", "iff", "xor", "always", "eventually", "until"]

/-- `Expression` on a term that is not the rest of a compound term. -/
theorem expr_term {t : Syn} (ht : SynOk t) (hr : ∀ r, t = .ref r → r ∉ operators) (nd : Bool) (n : Nat) (ts : List Tok) (w : List Char)
    (h : TX (toks t ++ ts) w) (st : PState K) :
    expression nd n (term nd n) w st = term nd n w st := by
  have key : (∀ c cs, w = c :: cs → c ≠ '<' ∧ c ≠ '>') ∧ ∀ k ∈ operators, keyword k w = none := by
    by_cases hc : compound t = true
    · rw [toks_compound hc, List.cons_append] at h
      obtain ⟨w1, h1⟩ := next h
      refine ⟨h1.no_op (by simp), fun k hk => ?_⟩
      obtain ⟨c, cs, hcs, hi⟩ : ∃ c cs, k.toList = c :: cs ∧ isIdFirst c = true := by
        simp only [operators, List.mem_cons, List.not_mem_nil, or_false] at hk
        rcases hk with rfl | rfl | rfl | rfl | rfl | rfl | rfl | rfl | rfl <;> exact ⟨_, _, rfl, by decide⟩
      exact h1.kw_not (by simp) hcs hi
    · obtain ⟨s, hs, hall, hne⟩ : ∃ s, toks t = [.word s] ∧ (∀ d ∈ s.toList, isIdOther d = true) ∧ s ∉ operators := by
        cases ht with
        | tru => exact ⟨"true", by simp [toks], by decide, by decide⟩
        | fls => exact ⟨"false", by simp [toks], by decide, by decide⟩
        | ref hn _ _ => exact ⟨_, by simp [toks], name_all hn, hr _ rfl⟩
        | _ => simp [compound] at hc
      rw [hs, List.singleton_append] at h
      obtain ⟨w1, h1⟩ := next h
      refine ⟨h1.no_op (by simp), fun k hk => h1.kw_ne hall (fun e => hne (e ▸ hk)) ?_⟩
      revert k; decide
  obtain ⟨h1, h2⟩ := key
  unfold expression
  rw [sor_skip (predicateTerm_skip _ h1)]
  rw [sor_skip (kw_skip (h2 _ (by simp [operators])))]
  rw [sor_skip (kw_skip (h2 _ (by simp [operators])))]
  rw [sor_skip (kw_skip (h2 _ (by simp [operators])))]
  rw [sor_skip (kw_skip (h2 _ (by simp [operators])))]
  rw [sor_skip (kw_skip (h2 _ (by simp [operators])))]
  rw [sor_skip (kw_skip (h2 _ (by simp [operators])))]
  rw [sor_skip (kw_skip (h2 _ (by simp [operators])))]
  rw [sor_skip (kw_skip (h2 _ (by simp [operators])))]
  rw [sor_skip (kw_skip (h2 _ (by simp [operators])))]

theorem toks_head (t : Syn) : ∃ t0 tl, toks t = t0 :: tl ∧ t0 ≠ .rp := by
  cases t <;> simp [toks]

/-- A term in redundant parentheses is rejected. -/
theorem redundant_reads {t : Syn} (ht : SynOk t) (hr : ∀ r, t = .ref r → r ∉ operators) :
    TReads K (.lp :: (toks t ++ [.rp])) fun g => denote revThrow (envOf g) t >>= fun _ => .throw .logicError := by
  intro nd n ts w h hlen
  obtain ⟨n, rfl⟩ : ∃ m, n = m + 1 := ⟨n - 1, by omega⟩
  simp only [List.cons_append, List.append_assoc, List.nil_append] at h
  obtain ⟨w1, h1⟩ := next h
  have l1 := h1.lt
  obtain ⟨w2, h2, l2, e2⟩ := term_reads (K := K) t ht nd n _ w1 h1.tx (by omega)
  obtain ⟨w3, h3⟩ := next h2
  have l3 := h3.lt
  refine ⟨w3, h3.tx, by omega, fun st => ?_⟩
  have hnr : sym ')' w1 = none := by
    obtain ⟨t0, tl, hin, hne⟩ := toks_head t
    have h' := h1.tx
    rw [hin, List.cons_append] at h'
    obtain ⟨_, h0⟩ := next h'
    exact h0.not_rp hne
  obtain ⟨n, rfl⟩ : ∃ m, n = m + 2 := ⟨n - 2, by omega⟩
  have hu : until_ (lex (sym ')')) (expression nd (n + 2) (term nd (n + 2))) (n + 2) w1 ({ g := st.g } : PState K) =
      (denote revThrow (envOf st.g) t).map' fun e => (some w3, push { g := st.g } e) := by
    rw [until_step (lex_none _ hnr) ((expr_term ht hr nd _ _ w1 h1.tx _).trans (e2 _)), map'_eq_bind]
    congr 1
    funext e
    exact until_stop (lex_some _ h3.rp)
  rw [term]
  unfold onNewState
  have hi : ifMust (lex (sym '(')) (until_ (lex (sym ')')) (expression nd (n + 2) (term nd (n + 2))) (n + 2)) w
      ({ g := st.g } : PState K) =
      (denote revThrow (envOf st.g) t).map' fun e => (some w3, push { g := st.g } e) := by
    unfold ifMust
    rw [seq_run (lex_some _ h1.lp), Outcome.bind_ok]
    exact must_run hu
  rw [act_run (sor_run hi)]
  beta_reduce
  cases denote revThrow (envOf st.g) t <;> rfl

/-! ## Specifications -/

theorem eof_nil (st : PState K) : eof [] st = .ok (some [], st) := rfl

theorem eof_cons (c : Char) (cs : List Char) (st : PState K) : eof (c :: cs) st = .ok (none, st) := rfl

theorem cmds_step (nd : Bool) (n : Nat) (ts : List Tok) : ∀ (cs : List Cmd), (∀ c ∈ cs, CmdOk c) →
    ∀ (m : Nat) (w : List Char), TX (cs.flatMap Cmd.toks ++ ts) w → w.length < n → w.length < m →
    ∃ w' m', TX ts w' ∧ w'.length < n ∧ w'.length < m' ∧ ∀ g : Specification K,
      until_ eof (seq (anyCommand nd n) (lex fun inp => some (skip inp))) m w { g := g } =
        evalSpec revThrow g cs >>= fun g' =>
          until_ eof (seq (anyCommand nd n) (lex fun inp => some (skip inp))) m' w' { g := g' }
  | [], _, m, w, h, hn, hm => ⟨w, m, h, hn, hm, fun g => rfl⟩
  | c :: cs, hall, m, w, h, hn, hm => by
    obtain ⟨m, rfl⟩ : ∃ k, m = k + 1 := ⟨m - 1, by omega⟩
    rw [List.flatMap_cons, List.append_assoc] at h
    obtain ⟨w1, h1, l1, e1⟩ := cmd_reads (K := K) (hall c (by simp)) nd n _ w h hn
    obtain ⟨w2, m2, h2, l2, l3, e2⟩ := cmds_step nd n ts cs (fun c hc => hall c (by simp [hc])) m w1 h1 (by omega)
      (by omega)
    refine ⟨w2, m2, h2, l2, l3, fun g => ?_⟩
    have hseq : seq (anyCommand nd n) (lex fun inp => some (skip inp)) w { g := g } =
        (evalCmd revThrow g c).map' fun g' => (some w1, ({ g := g' } : PState K)) := by
      rw [seq_run (e1 g), map'_eq_bind]
      congr 1
      funext g'
      exact lex_some _ (by rw [skip_start h1.start])
    have hne : eof w ({ g := g } : PState K) = .ok (none, { g := g }) := by
      cases w with
      | nil => simp at l1
      | cons => rfl
    rw [until_step hne hseq]
    simp only [evalSpec]
    cases evalCmd revThrow g c with
    | ok g' =>
      simp only [Outcome.bind_ok]
      exact e2 g'
    | _ => rfl

theorem cmds_read (nd : Bool) (n : Nat) (cs : List Cmd) (hall : ∀ c ∈ cs, CmdOk c) (m : Nat) (w : List Char)
    (h : TX (cs.flatMap Cmd.toks) w) (hn : w.length < n) (hm : w.length < m) (g : Specification K) :
    until_ eof (seq (anyCommand nd n) (lex fun inp => some (skip inp))) m w { g := g } =
        (evalSpec revThrow g cs).map' fun g' => (some [], { g := g' }) := by
  obtain ⟨w', m', h1, l1, l2, e1⟩ := cmds_step (K := K) nd n [] cs hall m w (by simpa using h) hn hm
  have := h1.nil_eq
  subst this
  obtain ⟨m', rfl⟩ : ∃ k, m' = k + 1 := ⟨m' - 1, by omega⟩
  rw [e1 g, map'_eq_bind]
  congr 1

/-- Commands, then a definition whose term is any text that `Term` reads. -/
theorem define_last (nd : Bool) (n : Nat) {cs : List Cmd} (hall : ∀ c ∈ cs, CmdOk c) {nm : String}
    (hnm : IsName nm) {tk : List Tok} {ev : Specification K → Outcome (Expr K)} (ht : TReads K tk ev)
    (w : List Char)
    (h : TX (cs.flatMap Cmd.toks ++ (.lp :: .word "define-formula" :: .word nm :: (tk ++ [.rp]))) w)
    (hn : w.length < n) :
    fromString nd n w = evalSpec revThrow {} cs >>= fun g => ev g >>= fun e =>
      (addNew g.formulas nm e).map' fun m => { g with formulas := m } := by
  obtain ⟨w', m', h1, l1, l2, e1⟩ := cmds_step (K := K) nd n _ cs hall n w h hn hn
  obtain ⟨w2, h2, l3, e2⟩ := define_reads hnm ht nd n [] w' h1 l1
  have := h2.nil_eq
  subst this
  obtain ⟨m', rfl⟩ : ∃ k, m' = k + 2 := ⟨m' - 2, by simp at l3; omega⟩
  have hlast : ∀ g : Specification K,
      until_ eof (seq (anyCommand nd n) (lex fun inp => some (skip inp))) (m' + 2) w' { g := g } =
      (ev g >>= fun e => addNew g.formulas nm e).map'
        fun m => (some [], { g := { g with formulas := m } }) := by
    intro g
    have hseq : seq (anyCommand nd n) (lex fun inp => some (skip inp)) w' { g := g } =
        (ev g >>= fun e => addNew g.formulas nm e).map'
          fun m => (some [], ({ g := { g with formulas := m } } : PState K)) := by
      rw [seq_run (e2 g), map'_eq_bind]
      congr 1
    have hne : eof w' ({ g := g } : PState K) = .ok (none, { g := g }) := by
      cases w' with
      | nil => simp at l3
      | cons => rfl
    rw [until_step hne hseq, map'_eq_bind]
    congr 1
  unfold fromString specificationFile
  have hs : skip w = w := skip_start h.start
  have : must (seq (lex fun inp => some (skip inp))
      (until_ eof (seq (anyCommand nd n) (lex fun inp => some (skip inp))) n)) w ({} : PState K) =
      (evalSpec revThrow {} cs >>= fun g => ev g >>= fun e =>
        (addNew g.formulas nm e).map' fun m => { g with formulas := m }).map'
        fun g => (some [], ({ g := g } : PState K)) := by
    refine must_run ?_
    rw [seq_run (lex_some (f := fun inp => some (skip inp)) (w1 := w) _ (by rw [hs])), Outcome.bind_ok]
    refine (e1 {}).trans ?_
    cases evalSpec revThrow ({} : Specification K) cs with
    | ok g =>
      simp only [Outcome.bind_ok]
      rw [hlast g]
      cases ev g with
      | ok e =>
        simp only [Outcome.bind_ok]
        cases addNew g.formulas nm e <;> rfl
      | _ => rfl
    | _ => rfl
  rw [this]
  generalize (evalSpec revThrow ({} : Specification K) cs >>= fun g => ev g >>= fun e =>
        (addNew g.formulas nm e).map' fun m => { g with formulas := m }) = x
  cases x <;> rfl

mutual
theorem toks_ok : ∀ t : Syn, SynOk t → ∀ x ∈ toks t, TokOk x
  | .tru, _ => by simp only [toks, List.mem_singleton, forall_eq]; exact ⟨'t', ['r', 'u', 'e'], by decide, by decide⟩
  | .fls, _ => by
    simp only [toks, List.mem_singleton, forall_eq]; exact ⟨'f', ['a', 'l', 's', 'e'], by decide, by decide⟩
  | .ref _, .ref hn _ _ => by simp only [toks, List.mem_singleton, forall_eq]; exact tokOk_name hn
  | .cmp o n c, .cmp hn => by
    simp only [toks, inner]
    intro x hx
    simp at hx
    rcases hx with rfl | rfl | rfl | rfl | rfl <;> first | trivial | exact tokOk_name hn
  | .rcmp o c n, .rcmp hn => by
    simp only [toks, inner]
    intro x hx
    simp at hx
    rcases hx with rfl | rfl | rfl | rfl | rfl <;> first | trivial | exact tokOk_name hn
  | .not t, .not h => by
    have := toks_ok t h
    simp only [toks]
    intro x hx
    simp at hx
    rcases hx with rfl | rfl | hx | rfl
    · trivial
    · exact ⟨'n', ['o', 't'], by decide, by decide⟩
    · exact this x hx
    · trivial
  | .always t, .always h => by
    have := toks_ok t h
    simp only [toks]
    intro x hx
    simp at hx
    rcases hx with rfl | rfl | hx | rfl
    · trivial
    · exact ⟨'a', ['l', 'w', 'a', 'y', 's'], by decide, by decide⟩
    · exact this x hx
    · trivial
  | .eventually t, .eventually h => by
    have := toks_ok t h
    simp only [toks]
    intro x hx
    simp at hx
    rcases hx with rfl | rfl | hx | rfl
    · trivial
    · exact ⟨'e', "ventually".toList, by decide, by decide⟩
    · exact this x hx
    · trivial
  | .and l, .and h => by
    have := toksAll_ok l h
    simp only [toks]
    intro x hx
    simp at hx
    rcases hx with rfl | rfl | hx | rfl
    · trivial
    · exact ⟨'a', ['n', 'd'], by decide, by decide⟩
    · exact this x hx
    · trivial
  | .or l, .or h => by
    have := toksAll_ok l h
    simp only [toks]
    intro x hx
    simp at hx
    rcases hx with rfl | rfl | hx | rfl
    · trivial
    · exact ⟨'o', ['r'], by decide, by decide⟩
    · exact this x hx
    · trivial
  | .implies a b, .implies ha hb => by
    have h1 := toks_ok a ha
    have h2 := toks_ok b hb
    simp only [toks]
    intro x hx
    simp at hx
    rcases hx with rfl | rfl | hx | hx | rfl
    · trivial
    · exact ⟨'i', "mplies".toList, by decide, by decide⟩
    · exact h1 x hx
    · exact h2 x hx
    · trivial
  | .iff a b, .iff ha hb => by
    have h1 := toks_ok a ha
    have h2 := toks_ok b hb
    simp only [toks]
    intro x hx
    simp at hx
    rcases hx with rfl | rfl | hx | hx | rfl
    · trivial
    · exact ⟨'i', "ff".toList, by decide, by decide⟩
    · exact h1 x hx
    · exact h2 x hx
    · trivial
  | .xor a b, .xor ha hb => by
    have h1 := toks_ok a ha
    have h2 := toks_ok b hb
    simp only [toks]
    intro x hx
    simp at hx
    rcases hx with rfl | rfl | hx | hx | rfl
    · trivial
    · exact ⟨'x', "or".toList, by decide, by decide⟩
    · exact h1 x hx
    · exact h2 x hx
    · trivial
  | .untl a b, .untl ha hb => by
    have h1 := toks_ok a ha
    have h2 := toks_ok b hb
    simp only [toks]
    intro x hx
    simp at hx
    rcases hx with rfl | rfl | hx | hx | rfl
    · trivial
    · exact ⟨'u', "ntil".toList, by decide, by decide⟩
    · exact h1 x hx
    · exact h2 x hx
    · trivial
theorem toksAll_ok : ∀ l : List Syn, (∀ t ∈ l, SynOk t) → ∀ x ∈ toksAll l, TokOk x
  | [], _ => by simp [toksAll]
  | t :: l, h => by
    have h1 := toks_ok t (h t (by simp))
    have h2 := toksAll_ok l fun t ht => h t (by simp [ht])
    intro x hx
    simp only [toksAll, List.mem_append] at hx
    exact hx.elim (h1 x) (h2 x)
end

theorem cmd_toks_ok {c : Cmd} (h : CmdOk c) : ∀ x ∈ c.toks, TokOk x := by
  cases h with
  | define hn hs =>
    intro x hx
    simp [Cmd.toks] at hx
    rcases hx with rfl | rfl | rfl | hx | rfl
    · trivial
    · exact ⟨'d', "efine-formula".toList, by decide, by decide⟩
    · exact tokOk_name hn
    · exact toks_ok _ hs x hx
    · trivial
  | assert hn hs =>
    intro x hx
    simp [Cmd.toks] at hx
    rcases hx with rfl | rfl | rfl | hx | rfl
    · trivial
    · exact ⟨'a', "ssert".toList, by decide, by decide⟩
    · exact tokOk_name hn
    · exact toks_ok _ hs x hx
    · trivial

/-- What the parser makes of every text of every specification. -/
theorem fromString_text {cs : List Cmd} (hcs : ∀ c ∈ cs, CmdOk c) {w : List Char} (h : Text cs w) (nd : Bool)
    {n : Nat} (hn : w.length < n) : fromString (K := K) nd n w = evalSpec revThrow {} cs := by
  have key : ∀ v : List Char, skip w = v → TX (cs.flatMap Cmd.toks) v →
      fromString (K := K) nd n w = evalSpec revThrow {} cs := by
    intro v hv htx
    have hle : v.length ≤ w.length := by rw [← hv]; exact skip_le w
    have hseq : specificationFile nd n w ({} : PState K) =
        (evalSpec revThrow ({} : Specification K) cs).map' fun g' => (some [], { g := g' }) := by
      unfold specificationFile
      refine must_run ?_
      rw [seq_run (lex_some (f := fun inp => some (skip inp)) (w1 := v) _ (by rw [hv])), Outcome.bind_ok]
      exact cmds_read nd n cs hcs n v htx (by omega) (by omega) {}
    unfold fromString
    rw [hseq]
    cases evalSpec revThrow ({} : Specification K) cs <;> rfl
  cases h with
  | mk hg htx =>
    have htx' : TX (cs.flatMap Cmd.toks) _ := ⟨htx, fun x hx => by
      obtain ⟨c, hc, hx⟩ := List.mem_flatMap.1 hx
      exact cmd_toks_ok (hcs c hc) x hx⟩
    exact key _ (skip_layout hg htx'.start) htx'
  | empty hg hnil =>
    subst hnil
    exact key [] (skip_final hg) ⟨.nil, by simp⟩

end Rule
end Verif
