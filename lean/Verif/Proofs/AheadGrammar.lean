import Verif.Proofs.AheadRules

/-! # Lemmas about how far the parser looks ahead: the grammar -/

set_option linter.unusedSectionVars false
set_option linter.ambiguousOpen false

namespace Verif
open Spec Lex

namespace Ahead

section
variable {K : Type} [Field K] [LinearOrder K]

theorem local_boolean : Local (RuleM.booleanLiteral (K := K)) :=
  local_act _ (local_sor (local_act _ (local_lex (lex_keyword "true" (word_chars (by decide)))))
    (head_act head_lex) (local_act _ (local_lex (lex_keyword "false" (word_chars (by decide))))))

theorem head_boolean : Head (RuleM.booleanLiteral (K := K)) := head_act (head_sor (head_act head_lex))

theorem local_cmp (f : List Char → Option (List Char)) (hf : Lex1 f) (op : ComparisonOp) :
    Local (RuleM.cmpSym (K := K) f op) := local_act _ (local_lex hf)

theorem head_cmp (f : List Char → Option (List Char)) (op : ComparisonOp) : Head (RuleM.cmpSym (K := K) f op) :=
  head_act head_lex

theorem not_word_lt : ¬ WordChar '<' := by
  simp only [WordChar, NameChar]
  decide

theorem not_word_gt : ¬ WordChar '>' := by
  simp only [WordChar, NameChar]
  decide

theorem local_comparison : Local (RuleM.comparisonSymbol (K := K)) :=
  local_sor (local_cmp _ (lex_strict '<' not_word_lt) _) (head_cmp _ _) <|
  local_sor (local_cmp _ (lex_strict '>' not_word_gt) _) (head_cmp _ _) <|
  local_sor (local_cmp _ (lex_weak '<' not_word_lt) _) (head_cmp _ _) (local_cmp _ (lex_weak '>' not_word_gt) _)

theorem head_comparison : Head (RuleM.comparisonSymbol (K := K)) :=
  head_sor (head_sor (head_sor (head_cmp _ _)))

variable [Arith K] [Strtod K]

theorem ident_isName {inp text r : List Char} (h : ident inp = some (text, r)) : IsName (String.ofList text) :=
  (ident_inv h).2.2

/-- Name and number. -/
def form1 : RuleM K := .act (.seq .identifier .numeral) (Rule.setType .ONE)

/-- Number and name. -/
def form2 : RuleM K := .act (.seq .numeral .identifier) (Rule.setType .TWO)

theorem local_form1 : Local (form1 (K := K)) := local_act _ (local_seq local_identifier local_numeral)

theorem local_form2 : Local (form2 (K := K)) := local_act _ (local_seq local_numeral local_identifier)

theorem predicateForm_eq : RuleM.predicateForm (K := K) = .sor form1 form2 := rfl

/-- No name: what happens is the second form. -/
theorem form1_none {inp : List Char} {st : PState K} (h : ident inp = none) :
    form1 inp st = .does (.ok (.error inp, st)) := by
  rw [form1, RuleM.act, seq_of_fail (identifier_none' h)]
  rfl

theorem form2_name {inp text r : List Char} (h : ident inp = some (text, r)) (st : PState K) :
    form2 inp st = .does (.ok (.error inp, st)) := by
  rw [form2, RuleM.act, seq_of_fail (numeral_name h st)]
  rfl

theorem local_form : Local (RuleM.must (K := K) .predicateForm RuleM.predicateForm) where
  ok {inp rest st st'} h := by
    have h := mustM_ok h
    rw [predicateForm_eq] at h
    rcases sorM_ok h with e1 | ⟨q, st1, e1, e2⟩
    · obtain ⟨c, rfl, h3⟩ := local_form1.ok e1
      exact ⟨c, rfl, fun p hp => must_of_ok (sor_of_ok (h3 p hp))⟩
    · rcases hi : ident inp with _ | ⟨text, r⟩
      · rw [form1_none hi] at e1
        cases e1
        obtain ⟨c, rfl, h3⟩ := local_form2.ok e2
        refine ⟨c, rfl, fun p hp => must_of_ok ?_⟩
        rw [predicateForm_eq, sor_of_fail (form1_none (ident_none_same hi (head (append c hp))))]
        exact h3 p hp
      · rw [form2_name hi] at e2
        cases e2
  fail h := (mustM_fail h).elim
  err {inp m s p st} h hm := by
    rcases mustM_err h with e1 | ⟨st1, e1, rfl, rfl⟩
    · rw [predicateForm_eq] at e1
      rcases sorM_err e1 with e1 | ⟨q, st1, e1, e2⟩
      · obtain ⟨c, d, x, e, rfl, rfl, rfl, h3, h4⟩ := local_form1.err e1 hm
        exact ⟨c, d, x, e, rfl, rfl, rfl, h3, fun e' he => must_of_err (sor_of_err (h4 e' he))⟩
      · rcases hi : ident inp with _ | ⟨text, r⟩
        · rw [form1_none hi] at e1
          cases e1
          obtain ⟨c, d, x, e, rfl, rfl, rfl, h3, h4⟩ := local_form2.err e2 hm
          refine ⟨c, d, x, e, rfl, rfl, rfl, h3, fun e' he => must_of_err ?_⟩
          rw [predicateForm_eq, sor_of_fail (form1_none (ident_none_same hi (head (append c (append d (append x he))))))]
          exact h4 e' he
        · rw [form2_name hi] at e2
          cases e2
    · rw [predicateForm_eq] at e1
      obtain ⟨q, st2, e1, e2⟩ := sorM_fail e1
      rcases hi : ident s with _ | ⟨text, r⟩
      · rw [form1_none hi] at e1
        cases e1
        obtain ⟨c, rfl, h3⟩ := local_form2.fail e2
        refine ⟨[], c, [], p, rfl, rfl, rfl, .inl rfl, fun e' he => ?_⟩
        simp only [List.nil_append]
        refine must_of_fail (st1 := st1) ?_
        rw [predicateForm_eq, sor_of_fail (form1_none (ident_none_same hi (head (append c he))))]
        exact h3 e' he
      · rw [form2_name hi] at e2
        cases e2
        obtain ⟨h1, h2, hn⟩ := ident_inv hi
        obtain ⟨g, h4, h5⟩ := skip_same r
        have e3 := actM_fail e1
        rcases seqM_fail e3 with e4 | ⟨mid, st3, e4, e5⟩
        · rw [identifier_eq hi] at e4
          cases e4
        · rw [identifier_eq hi] at e4
          cases e4
          refine ⟨[], [], text ++ g, skip r, ?_, ?_, ?_, .inr ⟨rfl, String.ofList text, g, hn, ?_, by simp⟩, fun e' he => ?_⟩
          · simp [h1, ← h4]
          · simp [h1, ← h4]
          · simp [h1, ← h4]
          · obtain ⟨g', h6, h7⟩ := gap_skip r
            have : g' = g := List.append_cancel_right (h6.symm.trans h4)
            rwa [← this]
          · have h6 : Same1 r (g ++ e') := by
              conv_lhs => rw [h4]
              exact same1_append g (head he)
            have h7 : ident (text ++ (g ++ e')) = some (text, g ++ e') := ident_some_same hi h6
            have h8 := local_numeral.at_ head_numeral e5 he
            simp only [List.nil_append, List.append_assoc]
            refine must_of_fail (st1 := st1) ?_
            rw [predicateForm_eq, sor_of_fail (p := e') (st1 := st1), form2_name h7]
            rw [form1, RuleM.act, seq_of_ok (identifier_eq h7), h5 e' (head he), h8]
            rfl

theorem local_predicate : Local (RuleM.predicateTerm (K := K)) :=
  local_act _ (local_seq local_comparison local_form)

theorem head_predicate : Head (RuleM.predicateTerm (K := K)) := head_act (head_seq head_comparison firm_must)

theorem nary_same (nd : Bool) (f : List (Expr K) → Outcome (Expr K)) (inp inp' : List Char) (st st' : PState K)
    (h : RuleM.naryAction nd f inp st = .does (.ok st')) : RuleM.naryAction nd f inp' st = .does (.ok st') := by
  unfold RuleM.naryAction at h ⊢
  split at h
  · cases h
  · simp [*]

theorem nary_msg (nd : Bool) (f : List (Expr K) → Outcome (Expr K)) (inp : List Char) (st : PState K) (m : Msg)
    (s p : List Char) (h : RuleM.naryAction nd f inp st = .error m s p) : ¬ OfGrammar m := by
  unfold RuleM.naryAction at h
  split at h
  · cases h; exact fun h => h
  · cases h

theorem command_same (nd : Bool) (ins : Specification K → String → Expr K → Specification K × Bool)
    (again : String → Msg) (inp inp' : List Char) (st st' : PState K)
    (h : RuleM.commandAction nd ins again inp st = .does (.ok st')) :
    RuleM.commandAction nd ins again inp' st = .does (.ok st') := by
  unfold RuleM.commandAction at h ⊢
  rcases h1 : assert_ nd (st.s.terms.length == 1) with _ | _ | _ | _ | _ <;> rw [h1] at h <;> try cases h
  rcases h2 : assert_ nd (!st.s.identifiers.isEmpty) with _ | _ | _ | _ | _ <;> rw [h2] at h <;> try cases h
  rcases h3 : Rule.back st.s.identifiers with id | _ | _ | _ | _ <;> rw [h3] at h <;> try cases h
  rcases h4 : Rule.back st.s.terms with e | _ | _ | _ | _ <;> rw [h4] at h <;> try cases h
  simp only [Said.bind] at h ⊢
  rcases h5 : ins st.g id e with ⟨g, _ | _⟩ <;> rw [h5] at h
  · cases h
  · exact h

theorem command_msg (nd : Bool) (ins : Specification K → String → Expr K → Specification K × Bool)
    (again : String → Msg) (ha : ∀ id, ¬ OfGrammar (again id)) (inp : List Char) (st : PState K) (m : Msg)
    (s p : List Char) (h : RuleM.commandAction nd ins again inp st = .error m s p) : ¬ OfGrammar m := by
  unfold RuleM.commandAction at h
  rcases h1 : assert_ nd (st.s.terms.length == 1) with _ | _ | _ | _ | _ <;> rw [h1] at h <;> try cases h
  rcases h2 : assert_ nd (!st.s.identifiers.isEmpty) with _ | _ | _ | _ | _ <;> rw [h2] at h <;> try cases h
  rcases h3 : Rule.back st.s.identifiers with id | _ | _ | _ | _ <;> rw [h3] at h <;> try cases h
  rcases h4 : Rule.back st.s.terms with e | _ | _ | _ | _ <;> rw [h4] at h <;> try cases h
  simp only [Said.bind] at h
  rcases h5 : ins st.g id e with ⟨g, _ | _⟩ <;> rw [h5] at h
  · cases h; exact ha id
  · simp only at h
    rcases h6 : assert_ nd st.s.terms.dropLast.isEmpty with _ | _ | _ | _ | _ <;> rw [h6] at h <;> cases h

theorem head_kw (k : String) : Head (RuleM.kw (K := K) k) := head_lex

theorem local_expression (nd : Bool) (n : Nat) {t : RuleM K} (ht : Local t) (hh : Head t) :
    Local (RuleM.expression nd n t) ∧ Head (RuleM.expression nd n t) := by
  have un : ∀ (k : String) (f : PState K → Outcome (PState K)), k.toList.all (fun c => isIdOther c || c == '-') = true →
      Local (RuleM.act (RuleM.ifMust .term (RuleM.kw k) t) f) ∧ Head (RuleM.act (RuleM.ifMust .term (RuleM.kw k) t) f) :=
    fun k f hk => ⟨local_act _ (local_seq (local_kw k hk) (local_must _ ht)), head_act (head_seq (head_kw k) firm_must)⟩
  have nary : ∀ (k : String) (f : List (Expr K) → Outcome (Expr K)), k.toList.all (fun c => isIdOther c || c == '-') = true →
      Local (RuleM.actIn (RuleM.ifMust .naryTail (RuleM.kw k) (RuleM.plus t n)) (RuleM.naryAction nd f)) ∧
      Head (RuleM.actIn (RuleM.ifMust .naryTail (RuleM.kw k) (RuleM.plus t n)) (RuleM.naryAction nd f)) :=
    fun k f hk => ⟨local_actIn (nary_same nd f) (nary_msg nd f)
      (local_seq (local_kw k hk) (local_must _ (local_plus ht hh n))) (head_seq (head_kw k) firm_must), head_actIn⟩
  have bin : ∀ (k : String) (f : PState K → Outcome (PState K)), k.toList.all (fun c => isIdOther c || c == '-') = true →
      Local (RuleM.act (RuleM.ifMust .binaryTail (RuleM.kw k) (RuleM.seq t t)) f) ∧
      Head (RuleM.act (RuleM.ifMust .binaryTail (RuleM.kw k) (RuleM.seq t t)) f) :=
    fun k f hk => ⟨local_act _ (local_seq (local_kw k hk) (local_must _ (local_seq ht ht))),
      head_act (head_seq (head_kw k) firm_must)⟩
  have unt : ∀ (f : PState K → Outcome (PState K)),
      Local (RuleM.act (RuleM.seq (RuleM.kw "until") (RuleM.seq (RuleM.must .term t) (RuleM.must .term t))) f) ∧
      Head (RuleM.act (RuleM.seq (RuleM.kw "until") (RuleM.seq (RuleM.must .term t) (RuleM.must .term t))) f) :=
    fun f => ⟨local_act _ (local_seq (local_kw _ (by decide)) (local_seq (local_must _ ht) (local_must _ ht))),
      head_act (head_seq (head_kw _) (firm_seq firm_must firm_must))⟩
  have go : ∀ {a b : RuleM K}, Local a ∧ Head a → Local b ∧ Head b → Local (RuleM.sor a b) ∧ Head (RuleM.sor a b) :=
    fun ha hb => ⟨local_sor ha.1 ha.2 hb.1, head_sor hb.2⟩
  exact go ⟨local_predicate, head_predicate⟩ <| go (un "not" _ (by decide)) <| go (nary "and" _ (by decide)) <|
    go (nary "or" _ (by decide)) <| go (bin "implies" _ (by decide)) <| go (bin "iff" _ (by decide)) <|
    go (bin "xor" _ (by decide)) <| go (un "always" _ (by decide)) <| go (un "eventually" _ (by decide)) <|
    go (unt _) ⟨ht, hh⟩

theorem local_term (nd : Bool) : ∀ n : Nat, Local (RuleM.term (K := K) nd n) ∧ Head (RuleM.term (K := K) nd n)
  | 0 => ⟨⟨fun h => (by cases h), fun h => (by cases h), fun h _ => (by cases h)⟩, fun h => by cases h⟩
  | n + 1 => by
    obtain ⟨h1, h2⟩ := local_term nd n
    obtain ⟨h3, h4⟩ := local_expression nd n h1 h2
    rw [RuleM.term]
    refine ⟨local_new (local_act _ (local_sor (local_seq (local_lex (lex_sym '(')) (local_must _
      (local_until (local_lex (lex_sym ')')) head_lex h3 n))) (head_seq head_lex firm_must)
      (local_sor local_boolean head_boolean local_identifier))), head_new (head_act ?_)⟩
    exact head_sor (head_sor head_identifier)

theorem local_arguments (nd : Bool) (n : Nat) : Local (RuleM.arguments (K := K) nd n) ∧ Firm (RuleM.arguments (K := K) nd n) :=
  ⟨local_seq (local_must _ local_identifier) (local_must _ (local_term nd n).1), firm_seq firm_must firm_must⟩

theorem local_command (nd : Bool) (n : Nat) :
    Local (RuleM.sor (RuleM.assertion (K := K) nd n) (RuleM.defineFormula nd n)) := by
  refine local_sor (local_actIn (command_same nd _ _) (command_msg nd _ _ fun id h => h)
    (local_seq (local_kw _ (by decide)) (local_arguments nd n).1) (head_seq (head_kw _) (local_arguments nd n).2)) head_actIn
    (local_actIn (command_same nd _ _) (command_msg nd _ _ fun id h => h)
    (local_seq (local_kw _ (by decide)) (local_arguments nd n).1) (head_seq (head_kw _) (local_arguments nd n).2))

theorem local_anyCommand (nd : Bool) (n : Nat) : Local (RuleM.anyCommand (K := K) nd n) :=
  local_seq (local_lex (lex_sym '(')) (local_must _
    (local_until (local_lex (lex_sym ')')) head_lex (local_must _ (local_command nd n)) n))

theorem local_file (nd : Bool) (n : Nat) : Local (RuleM.specificationFile (K := K) nd n) :=
  local_must _ (local_seq (local_lex lex_skip) (local_until (local_lex lex_eof) head_lex
    (local_seq (local_anyCommand nd n) (local_lex lex_skip)) n))

theorem from_err {nd : Bool} {n : Nat} {text s p : List Char} {m : Msg} :
    fromStringM (K := K) nd n text = .error m s p ↔ RuleM.specificationFile (K := K) nd n text {} = .error m s p := by
  unfold fromStringM
  rcases RuleM.specificationFile (K := K) nd n text {} with ⟨m', s', p'⟩ | (⟨q | q, st1⟩ | _ | _ | _ | _) <;>
    simp [Said.bind]

theorem from_local {nd : Bool} {n : Nat} {text s p : List Char} {m : Msg}
    (h : fromStringM (K := K) nd n text = .error m s p) (hm : OfGrammar m) :
    ∃ c d x e, text = c ++ (d ++ (x ++ e)) ∧ s = d ++ (x ++ e) ∧ p = x ++ e ∧ ReadOn m x e ∧
      ∀ e', SameAhead e e' →
        fromStringM (K := K) nd n (c ++ (d ++ (x ++ e'))) = .error m (d ++ (x ++ e')) (x ++ e') := by
  obtain ⟨c, d, x, e, h1, h2, h3, h4, h5⟩ := (local_file nd n).err (from_err.1 h) hm
  exact ⟨c, d, x, e, h1, h2, h3, h4, fun e' he => from_err.2 (h5 e' he)⟩

end
end Ahead
end Verif
