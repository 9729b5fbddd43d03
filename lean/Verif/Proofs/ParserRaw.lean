import Verif.Spec.Grammar
import Verif.Proofs.ParserSpec

/-!
# The parser on texts of the accepted language
-/

set_option linter.unusedSectionVars false

namespace Verif
open Spec
open _root_.Verif.Lex

namespace Rule
variable {K : Type} [Field K] [LinearOrder K] [IsStrictOrderedRing K] [Arith K] [Strtod K]

/-- The parser state after a term. -/
def pushAll (st : PState K) (es : List (Expr K)) : PState K :=
  { st with s := { st.s with terms := st.s.terms ++ es } }

/-- The parser state inside parentheses. -/
def inn (g : Specification K) (l : Left K) : PState K := { g := g, s := { result := l.value, terms := l.terms } }

/-- `Term` reads `r`. -/
def RawReads (K : Type) [Field K] [LinearOrder K] [Arith K] [Strtod K] (r : Raw) : Prop :=
  ∀ nd n ts w, TX (r.toks ++ ts) w → w.length < n → ∃ w', TX ts w' ∧ w'.length < w.length ∧
    ∀ st : PState K, term nd n w st = (r.eval nd (envOf st.g)).map' fun es => (some w', pushAll st es)

/-- `Expression` reads `i`, if nothing follows that could be an operand. -/
def ItemReads (K : Type) [Field K] [LinearOrder K] [Arith K] [Strtod K] (i : Item) : Prop :=
  ∀ nd n ts w, (∀ o l, i = .nary o l → ∃ t ts', ts = t :: ts' ∧ t ≠ .lp ∧ ∀ s, t ≠ .word s) →
    TX (i.toks ++ ts) w → w.length < n → ∃ w', TX ts w' ∧ w'.length < w.length ∧
    ∀ (g : Specification K) (l : Left K), expression nd n (term nd n) w (inn g l) =
      (i.eval nd (envOf g) l).map' fun l' => (some w', inn g l')

/-- What is between parentheses is read. -/
def ItemsRead (K : Type) [Field K] [LinearOrder K] [Arith K] [Strtod K] (is : List Item) : Prop :=
  ∀ nd n m ts w, TX (Item.toksAll is ++ .rp :: ts) w → w.length < n → w.length < m →
    ∃ w', TX ts w' ∧ w'.length < w.length ∧ ∀ (g : Specification K) (l : Left K),
      until_ (lex (sym ')')) (expression nd n (term nd n)) m w (inn g l) =
        (Item.evalAll nd (envOf g) is l).map' fun l' => (some w', inn g l')

/-! ## Predicates -/

theorem cmp_action' (g : Specification K) (l : Left K) (o : ComparisonOp) (nm : String) (c : NumLit) :
    ((litPrim c : Outcome (Primitive K)) >>= fun p =>
      predicateAction ⟨g, ⟨l.value, some p, [nm], some .ONE, some o, l.terms⟩⟩) =
    (c.eval (K := K)).map' fun d => inn g { l with value := some (.pred nm o d) } := by
  cases c with
  | int n =>
    unfold litPrim NumLit.eval
    simp only
    split <;> rfl
  | dec i f e =>
    unfold litPrim
    simp only
    generalize (NumLit.dec i f e).eval (K := K) = x
    cases x <;> rfl
  | sci i dot e =>
    unfold litPrim
    simp only
    generalize (NumLit.sci i dot e).eval (K := K) = x
    cases x <;> rfl

theorem cmp_item (o : ComparisonOp) (nm : String) (c : NumLit) (hn : IsName nm) : ItemReads K (.cmp o nm c) := by
  intro nd n ts w _ h hl
  simp only [Item.toks, List.cons_append, List.nil_append] at h
  obtain ⟨w1, h1⟩ := next h
  obtain ⟨w2, h2⟩ := next h1.tx
  obtain ⟨w3, h3⟩ := next h2.tx
  have l1 := h1.lt; have l2 := h2.lt; have l3 := h3.lt
  refine ⟨w3, h3.tx, by omega, fun g l => ?_⟩
  have hf : predicateForm w1 ⟨g, ⟨l.value, none, [], none, some o, l.terms⟩⟩ =
      (litPrim c).map' fun p => (some w3, ⟨g, ⟨l.value, some p, [nm], some .ONE, some o, l.terms⟩⟩) := by
    unfold predicateForm
    have hs : seq identifier numeral w1 ⟨g, ⟨l.value, none, [], none, some o, l.terms⟩⟩ =
        (litPrim c).map' fun p => (some w3, ⟨g, ⟨l.value, some p, [nm], none, some o, l.terms⟩⟩) := by
      rw [seq_run (o := .ok ()) (f := fun _ => _) (identifier_run _ hn h2)]
      rw [Outcome.bind_ok]
      exact numeral_run _ h3
    rw [sor_run (act_run (g := setType .ONE) hs |>.trans ?_)]
    rw [bind_map', map'_eq_bind]
    rfl
  have hp : predicateTerm w (inn g l) =
      ((c.eval (K := K)).map' fun d => inn g { l with value := some (.pred nm o d) }).map' fun st' => (some w3, st') := by
    rw [← cmp_action']
    unfold predicateTerm
    refine act_run ?_
    unfold ifMust
    rw [seq_run (o := .ok ()) (f := fun _ => _) (comparisonSymbol_run _ rfl h1), Outcome.bind_ok]
    exact must_run hf
  unfold expression
  rw [sor_run hp]
  simp only [Item.eval, map'_map']
  cases c.eval (K := K) <;> rfl

/-! ## Terms without parentheses -/

/-- `Term` does not match what begins neither with a parenthesis nor with a word. -/
theorem term_stop (nd : Bool) (n : Nat) (hn : 0 < n) {t : Tok} {ts : List Tok} {w : List Char} (h : TX (t :: ts) w)
    (hlp : t ≠ .lp) (hw : ∀ s, t ≠ .word s) (st : PState K) : term nd n w st = .ok (none, st) := by
  obtain ⟨n, rfl⟩ : ∃ m, n = m + 1 := ⟨n - 1, by omega⟩
  obtain ⟨w1, h1⟩ := next h
  rw [term]
  unfold onNewState
  have hk : ∀ key : String, ∀ k ks, key.toList = k :: ks → isIdFirst k = true → keyword key w = none :=
    fun key k ks e hi => h1.kw_not hw e hi
  have hb : booleanLiteral w ({ g := st.g } : PState K) = .ok (none, { g := st.g }) := by
    refine act_skip ?_
    rw [sor_skip (act_skip (lex_none _ (hk "true" 't' ['r', 'u', 'e'] (by decide) (by decide))))]
    exact act_skip (lex_none _ (hk "false" 'f' ['a', 'l', 's', 'e'] (by decide) (by decide)))
  have : act (sor (ifMust (lex (sym '(')) (until_ (lex (sym ')')) (expression nd n (term nd n)) n))
      (sor booleanLiteral identifier)) termAction w ({ g := st.g } : PState K) = .ok (none, { g := st.g }) := by
    refine act_skip ?_
    rw [sor_skip (ifMust_skip (lex_none _ (h1.not_lp hlp))), sor_skip hb]
    exact identifier_skip _ hw h1
  rw [this]
  simp

theorem raw_of_syn {r : Raw} {t : Syn} (ht : TermReads K t) (hk : r.toks = toks t)
    (he : ∀ nd (env : String → Option (Expr K)), r.eval nd env = (denote revThrow env t).map' fun e => [e]) :
    RawReads K r := by
  intro nd n ts w h hl
  rw [hk] at h
  obtain ⟨w', h1, l1, e1⟩ := ht nd n ts w h hl
  refine ⟨w', h1, l1, fun st => ?_⟩
  rw [e1 st, he, map'_map']
  rfl

theorem raw_tru : RawReads K .tru :=
  raw_of_syn (bool_reads true) (by simp [Raw.toks, toks]) fun nd env => by simp [Raw.eval, denote, Outcome.map']

theorem raw_fls : RawReads K .fls :=
  raw_of_syn (bool_reads false) (by simp [Raw.toks, toks]) fun nd env => by simp [Raw.eval, denote, Outcome.map']

theorem raw_ref {nm : String} (hn : IsName nm) (ht : nm ≠ "true") (hf : nm ≠ "false") : RawReads K (.ref nm) :=
  raw_of_syn (ref_reads hn ht hf) (by simp [Raw.toks, toks]) fun nd env => by
    simp only [Raw.eval, denote]
    cases env nm <;> rfl

/-! ## Parentheses -/

theorem raw_paren {is : List Item} (hi : ItemsRead K is) : RawReads K (.paren is) := by
  intro nd n ts w h hl
  obtain ⟨n, rfl⟩ : ∃ m, n = m + 1 := ⟨n - 1, by omega⟩
  simp only [Raw.toks, List.cons_append, List.append_assoc, List.nil_append] at h
  obtain ⟨w1, h1⟩ := next h
  have l1 := h1.lt
  obtain ⟨w2, h2, l2, e2⟩ := hi nd n n ts w1 h1.tx (by omega) (by omega)
  refine ⟨w2, h2, by omega, fun st => ?_⟩
  rw [term]
  unfold onNewState
  have hi : ifMust (lex (sym '(')) (until_ (lex (sym ')')) (expression nd n (term nd n)) n) w
      ({ g := st.g } : PState K) =
      (Item.evalAll nd (envOf st.g) is {}).map' fun l' => (some w2, inn st.g l') := by
    unfold ifMust
    rw [seq_run (lex_some _ h1.lp), Outcome.bind_ok]
    exact must_run (e2 st.g {})
  rw [act_run (sor_run hi)]
  simp only [Raw.eval]
  cases Item.evalAll nd (envOf st.g) is {} with
  | ok l =>
    obtain ⟨v, tm⟩ := l
    cases v <;> rfl
  | _ => rfl

/-! ## Operators -/

theorem star_raws {nd : Bool} : ∀ {l : List Raw}, (∀ t ∈ l, RawReads K t) → ∀ (n m : Nat) (ts : List Tok)
    (w : List Char), (∃ t ts', ts = t :: ts' ∧ t ≠ .lp ∧ ∀ s, t ≠ .word s) → TX (Raw.toksAll l ++ ts) w →
    w.length < n → w.length < m →
    ∃ w', TX ts w' ∧ w'.length ≤ w.length ∧ ∀ st : PState K,
      star (term nd n) m w st =
        (Raw.evalAll nd (envOf st.g) l).map' fun es => (some w', pushAll st es)
  | [], _, n, m, ts, w, hs, h, hn, hm => by
    simp only [Raw.toksAll, List.nil_append] at h
    refine ⟨w, h, le_rfl, fun st => ?_⟩
    obtain ⟨m, rfl⟩ : ∃ k, m = k + 1 := ⟨m - 1, by omega⟩
    obtain ⟨t, ts, rfl, h1, h2⟩ := hs
    rw [star_stop (term_stop nd n (by omega) h h1 h2 st)]
    simp [Raw.evalAll, Outcome.map', pushAll]
  | t :: l, hall, n, m, ts, w, hs, h, hn, hm => by
    simp only [Raw.toksAll, List.append_assoc] at h
    obtain ⟨w1, h1, l1, e1⟩ := hall t (by simp) nd n _ w h hn
    obtain ⟨m, rfl⟩ : ∃ k, m = k + 1 := ⟨m - 1, by omega⟩
    obtain ⟨w2, h2, l2, e2⟩ := star_raws (fun x hx => hall x (by simp [hx])) n m ts w1 hs h1 (by omega) (by omega)
    refine ⟨w2, h2, by omega, fun st => ?_⟩
    rw [star_step (e1 st)]
    simp only [Raw.evalAll]
    cases Raw.eval nd (envOf st.g) t with
    | ok x =>
      simp only [Outcome.bind_ok]
      rw [e2 (pushAll st x)]
      show Outcome.map' _ (Raw.evalAll nd (envOf st.g) l) = _
      cases Raw.evalAll nd (envOf st.g) l with
      | ok es => simp [Outcome.map', pushAll]
      | _ => rfl
    | _ => rfl

theorem nary_item_action (nd : Bool) (o : NaryOp) (g : Specification K) (l : Left K) :
    naryAction nd o.apply (inn g l) = (Left.nary o l).map' fun l' => inn g l' := by
  unfold naryAction inn Left.nary
  simp only
  split
  · rfl
  · rename_i h
    have : assert_ nd (decide (2 ≤ l.terms.length)) = .ok () := by
      unfold assert_; rw [if_pos]; simp; omega
    rw [this]
    simp only [Outcome.bind_ok]
    cases o.apply l.terms <;> rfl

theorem reverse_snoc {α : Type} (l : List α) : l = [] ∨ ∃ m a, l = m ++ [a] := by
  rcases List.eq_nil_or_concat l with h | ⟨m, a, h⟩
  · exact .inl h
  · exact .inr ⟨m, a, by simpa using h⟩

theorem un_item_action (nd one : Bool) (o : UnOp) (g : Specification K) (l : Left K) :
    unaryAction nd one o.apply (inn g l) = (Left.un nd o l).map' fun l' => inn g l' := by
  obtain ⟨v, tm⟩ := l
  unfold unaryAction inn Left.un assert_
  rcases reverse_snoc tm with rfl | ⟨m, a, rfl⟩
  · cases nd <;> cases one <;> rfl
  · have hb : back (m ++ [a]) = .ok a := by simp [back]
    cases m with
    | nil => cases nd <;> cases one <;> rfl
    | cons b m =>
      have hd : (b :: m ++ [a]).dropLast = b :: m := List.dropLast_concat
      simp only [hb, hd]
      cases nd <;> cases one <;> simp [setResult, Outcome.map']

theorem bin_item_action (nd : Bool) (o : BinOp) (g : Specification K) (l : Left K) :
    binaryAction nd o.apply (inn g l) = (Left.bin nd o l).map' fun l' => inn g l' := by
  obtain ⟨v, tm⟩ := l
  unfold binaryAction inn Left.bin assert_
  rcases reverse_snoc tm with rfl | ⟨m, b, rfl⟩
  · cases nd <;> rfl
  · have hb : back (m ++ [b]) = .ok b := by simp [back]
    rcases reverse_snoc m with rfl | ⟨m', a, rfl⟩
    · cases nd <;> rfl
    · have ha : back (m' ++ [a]) = .ok a := by simp [back]
      cases m' with
      | nil =>
        cases nd <;> simp [hb, back, setResult] <;> cases o.apply a b <;> simp [Outcome.map']
      | cons c m' =>
        cases nd
        · simp [Outcome.map']
        · simp only [List.dropLast_concat, hb, ha, Outcome.bind_ok]
          simp [setResult]
          cases o.apply a b <;> simp [Outcome.map']

theorem opKey_other {k : String} (h : k ∈ opKeys) : (∀ d ∈ k.toList, isIdOther d = true) ∧
    (∀ d ∈ k.toList, stopChar d = false) ∧ ∃ c cs, k.toList = c :: cs ∧ isIdFirst c = true := by
  simp only [opKeys, List.mem_cons, List.not_mem_nil, or_false] at h
  rcases h with rfl | rfl | rfl | rfl | rfl | rfl | rfl | rfl | rfl <;>
    exact ⟨by decide, by decide, _, _, rfl, by decide⟩

/-- One operator. -/
def opRule (nd : Bool) (n : Nat) (tm : Rule K) : Nat → Rule K
  | 0 => act (ifMust (kw "not") tm) (unaryAction nd false Expr.Not)
  | 1 => act (ifMust (kw "and") (plus tm n)) (naryAction nd Expr.And)
  | 2 => act (ifMust (kw "or") (plus tm n)) (naryAction nd Expr.Or)
  | 3 => act (ifMust (kw "implies") (seq tm tm)) (binaryAction nd Expr.Implies)
  | 4 => act (ifMust (kw "iff") (seq tm tm)) (binaryAction nd Expr.Iff)
  | 5 => act (ifMust (kw "xor") (seq tm tm)) (binaryAction nd Expr.Xor)
  | 6 => act (ifMust (kw "always") tm) (unaryAction nd true Expr.Always)
  | 7 => act (ifMust (kw "eventually") tm) (unaryAction nd true Expr.Eventually)
  | _ => act (ifMust (kw "until") (seq (must tm) (must tm)))
    (binaryAction nd fun a b => .ok (Expr.Until a b))

theorem expression_eq (nd : Bool) (n : Nat) (tm : Rule K) : expression nd n tm =
    sor predicateTerm (sor (opRule nd n tm 0) (sor (opRule nd n tm 1) (sor (opRule nd n tm 2)
      (sor (opRule nd n tm 3) (sor (opRule nd n tm 4) (sor (opRule nd n tm 5) (sor (opRule nd n tm 6)
        (sor (opRule nd n tm 7) (sor (opRule nd n tm 8) tm))))))))) := rfl

/-- The operator with the given number, if the others do not match. -/
theorem expression_op {α : Type} {nd : Bool} {n : Nat} {tm : Rule K} {w w' : List Char} {st : PState K} {o : Outcome α}
    {f : α → PState K} (hp : predicateTerm w st = .ok (none, st)) (j : Nat) (hj : j < 9)
    (hs : ∀ i < j, opRule nd n tm i w st = .ok (none, st))
    (h : opRule nd n tm j w st = o.map' fun a => (some w', f a)) :
    expression nd n tm w st = o.map' fun a => (some w', f a) := by
  rw [expression_eq, sor_skip hp]
  have hcase : j = 0 ∨ j = 1 ∨ j = 2 ∨ j = 3 ∨ j = 4 ∨ j = 5 ∨ j = 6 ∨ j = 7 ∨ j = 8 := by omega
  rcases hcase with rfl | rfl | rfl | rfl | rfl | rfl | rfl | rfl | rfl <;>
  · try rw [sor_skip (hs 0 (by omega))]
    try rw [sor_skip (hs 1 (by omega))]
    try rw [sor_skip (hs 2 (by omega))]
    try rw [sor_skip (hs 3 (by omega))]
    try rw [sor_skip (hs 4 (by omega))]
    try rw [sor_skip (hs 5 (by omega))]
    try rw [sor_skip (hs 6 (by omega))]
    try rw [sor_skip (hs 7 (by omega))]
    rw [sor_run h]

/-- The keywords in the order of the rules. -/
def opKey : Nat → String
  | 0 => "not"
  | 1 => "and"
  | 2 => "or"
  | 3 => "implies"
  | 4 => "iff"
  | 5 => "xor"
  | 6 => "always"
  | 7 => "eventually"
  | _ => "until"

theorem opRule_skip {nd : Bool} {n : Nat} {tm : Rule K} {w : List Char} (st : PState K) (j : Nat) (hj : j < 9)
    (h : keyword (opKey j) w = none) : opRule nd n tm j w st = .ok (none, st) := by
  have hcase : j = 0 ∨ j = 1 ∨ j = 2 ∨ j = 3 ∨ j = 4 ∨ j = 5 ∨ j = 6 ∨ j = 7 ∨ j = 8 := by omega
  rcases hcase with rfl | rfl | rfl | rfl | rfl | rfl | rfl | rfl | rfl <;> exact kw_skip h

theorem opKey_mem (j : Nat) (hj : j < 9) : opKey j ∈ opKeys := by
  have hcase : j = 0 ∨ j = 1 ∨ j = 2 ∨ j = 3 ∨ j = 4 ∨ j = 5 ∨ j = 6 ∨ j = 7 ∨ j = 8 := by omega
  rcases hcase with rfl | rfl | rfl | rfl | rfl | rfl | rfl | rfl | rfl <;> decide

theorem opKey_inj : ∀ i < 9, ∀ j < 9, opKey i = opKey j → i = j := by decide

theorem expression_key {α : Type} {nd : Bool} {n : Nat} {tm : Rule K} {w w' w1 : List Char} {st : PState K}
    {ts : List Tok} {o : Outcome α} {f : α → PState K} (j : Nat) (hj : j < 9) (hn : Next (.word (opKey j)) ts w w1)
    (h : opRule nd n tm j w st = o.map' fun a => (some w', f a)) :
    expression nd n tm w st = o.map' fun a => (some w', f a) := by
  obtain ⟨h1, h2, -⟩ := opKey_other (opKey_mem j hj)
  refine expression_op (predicateTerm_skip _ (hn.no_op (by simp))) j hj (fun i hi => ?_) h
  refine opRule_skip st i (by omega) (hn.kw_ne h1 (fun e => ?_) (opKey_other (opKey_mem i (by omega))).2.1)
  have := opKey_inj j hj i (by omega) e
  omega

theorem expression_none {nd : Bool} {n : Nat} {tm : Rule K} {w : List Char} {st : PState K}
    (hp : predicateTerm w st = .ok (none, st)) (hs : ∀ k ∈ opKeys, keyword k w = none) :
    expression nd n tm w st = tm w st := by
  have hs : ∀ i < 9, opRule nd n tm i w st = .ok (none, st) := fun i hi => opRule_skip st i hi (hs _ (opKey_mem i hi))
  rw [expression_eq, sor_skip hp, sor_skip (hs 0 (by omega)), sor_skip (hs 1 (by omega)), sor_skip (hs 2 (by omega)),
    sor_skip (hs 3 (by omega)), sor_skip (hs 4 (by omega)), sor_skip (hs 5 (by omega)), sor_skip (hs 6 (by omega)),
    sor_skip (hs 7 (by omega)), sor_skip (hs 8 (by omega))]

theorem un_run {o : UnOp} {t : Raw} (ht : RawReads K t) (nd one : Bool) (n : Nat) (ts : List Tok) (w : List Char)
    (h : TX (.word o.key :: (t.toks ++ ts)) w) (hl : w.length < n) :
    ∃ w', TX ts w' ∧ w'.length < w.length ∧ ∀ (g : Specification K) (l : Left K),
      act (ifMust (kw o.key) (term nd n)) (unaryAction nd one o.apply) w (inn g l) =
        (Item.eval nd (envOf g) (.un o t) l).map' fun l' => (some w', inn g l') := by
  obtain ⟨w1, h1⟩ := next h
  have l1 := h1.lt
  obtain ⟨w2, h2, l2, e2⟩ := ht nd n ts w1 h1.tx (by omega)
  refine ⟨w2, h2, by omega, fun g l => ?_⟩
  rw [kw_run h1.kw (e2 _)]
  simp only [Item.eval, bind_map']
  show (Raw.eval nd (envOf g) t >>= _) = (Raw.eval nd (envOf g) t >>= _)
  congr 1
  funext es
  have := un_item_action nd one o g { l with terms := l.terms ++ es }
  rw [show pushAll (inn g l) es = inn g { l with terms := l.terms ++ es } from rfl, this, map'_map']

theorem un_item {o : UnOp} {t : Raw} (ht : RawReads K t) : ItemReads K (.un o t) := by
  intro nd n ts w _ h hl
  simp only [Item.toks, List.cons_append] at h
  obtain ⟨w1, h1⟩ := next h
  cases o with
  | not =>
    obtain ⟨w2, h2, l2, e2⟩ := un_run (o := .not) ht nd false n ts w h hl
    exact ⟨w2, h2, l2, fun g l => expression_key 0 (by omega) h1 (e2 g l)⟩
  | always =>
    obtain ⟨w2, h2, l2, e2⟩ := un_run (o := .always) ht nd true n ts w h hl
    exact ⟨w2, h2, l2, fun g l => expression_key 6 (by omega) h1 (e2 g l)⟩
  | eventually =>
    obtain ⟨w2, h2, l2, e2⟩ := un_run (o := .eventually) ht nd true n ts w h hl
    exact ⟨w2, h2, l2, fun g l => expression_key 7 (by omega) h1 (e2 g l)⟩

theorem nary_run {o : NaryOp} {l : List Raw} (hne : l ≠ []) (hl : ∀ t ∈ l, RawReads K t) (nd : Bool) (n : Nat)
    (ts : List Tok) (w : List Char) (hs : ∃ t ts', ts = t :: ts' ∧ t ≠ .lp ∧ ∀ s, t ≠ .word s)
    (h : TX (.word o.key :: (Raw.toksAll l ++ ts)) w) (hn : w.length < n) :
    ∃ w', TX ts w' ∧ w'.length < w.length ∧ ∀ (g : Specification K) (k : Left K),
      act (ifMust (kw o.key) (plus (term nd n) n)) (naryAction nd o.apply) w (inn g k) =
        (Item.eval nd (envOf g) (.nary o l) k).map' fun l' => (some w', inn g l') := by
  obtain ⟨w1, h1⟩ := next h
  have l1 := h1.lt
  cases l with
  | nil => exact absurd rfl hne
  | cons t l =>
    have htx := h1.tx
    simp only [Raw.toksAll, List.append_assoc] at htx
    obtain ⟨w2, h2, l2, e2⟩ := hl t (by simp) nd n _ w1 htx (by omega)
    obtain ⟨w3, h3, l3, e3⟩ := star_raws (nd := nd) (fun x hx => hl x (by simp [hx])) n n ts w2 hs h2 (by omega)
      (by omega)
    refine ⟨w3, h3, by omega, fun g k => ?_⟩
    have hp : plus (term nd n) n w1 (inn g k) =
        (Raw.evalAll nd (envOf g) (t :: l)).map' fun es => (some w3, pushAll (inn g k) es) := by
      unfold plus
      rw [seq_run (e2 _)]
      simp only [Raw.evalAll]
      show (Raw.eval nd (envOf g) t >>= _) = _
      cases Raw.eval nd (envOf g) t with
      | ok x =>
        simp only [Outcome.bind_ok]
        rw [e3 _]
        show Outcome.map' _ (Raw.evalAll nd (envOf g) l) = _
        cases Raw.evalAll nd (envOf g) l with
        | ok es => simp [Outcome.map', pushAll]
        | _ => rfl
      | _ => rfl
    rw [kw_run h1.kw hp]
    simp only [Item.eval, bind_map']
    congr 1
    funext es
    have := nary_item_action nd o g { k with terms := k.terms ++ es }
    rw [show pushAll (inn g k) es = inn g { k with terms := k.terms ++ es } from rfl, this, map'_map']

theorem nary_item {o : NaryOp} {l : List Raw} (hne : l ≠ []) (hl : ∀ t ∈ l, RawReads K t) : ItemReads K (.nary o l) := by
  intro nd n ts w hs h hn
  simp only [Item.toks, List.cons_append] at h
  obtain ⟨w1, h1⟩ := next h
  cases o with
  | and =>
    obtain ⟨w2, h2, l2, e2⟩ := nary_run (o := .and) hne hl nd n ts w (hs _ _ rfl) h hn
    exact ⟨w2, h2, l2, fun g l => expression_key 1 (by omega) h1 (e2 g l)⟩
  | or =>
    obtain ⟨w2, h2, l2, e2⟩ := nary_run (o := .or) hne hl nd n ts w (hs _ _ rfl) h hn
    exact ⟨w2, h2, l2, fun g l => expression_key 2 (by omega) h1 (e2 g l)⟩

theorem bin_run {o : BinOp} {a b : Raw} (ha : RawReads K a) (hb : RawReads K b) (nd : Bool) (n : Nat) (ts : List Tok)
    (w : List Char) (h : TX (.word o.key :: (a.toks ++ (b.toks ++ ts))) w) (hl : w.length < n) :
    ∃ w', TX ts w' ∧ w'.length < w.length ∧ ∀ (g : Specification K) (l : Left K),
      act (ifMust (kw o.key) (seq (term nd n) (term nd n))) (binaryAction nd o.apply) w (inn g l) =
        (Item.eval nd (envOf g) (.bin o a b) l).map' fun l' => (some w', inn g l') := by
  obtain ⟨w1, h1⟩ := next h
  have l1 := h1.lt
  obtain ⟨w2, h2, l2, e2⟩ := ha nd n _ w1 h1.tx (by omega)
  obtain ⟨w3, h3, l3, e3⟩ := hb nd n _ w2 h2 (by omega)
  refine ⟨w3, h3, by omega, fun g l => ?_⟩
  have hseq : seq (term nd n) (term nd n) w1 (inn g l) =
      ((Raw.eval nd (envOf g) a) >>= fun x => (Raw.eval nd (envOf g) b) >>= fun y => Outcome.ok (x, y)).map'
        fun p => (some w3, inn g { l with terms := l.terms ++ p.1 ++ p.2 }) := by
    rw [seq_run (e2 _)]
    show (Raw.eval nd (envOf g) a >>= _) = _
    cases Raw.eval nd (envOf g) a with
    | ok x =>
      simp only [Outcome.bind_ok]
      rw [e3 _]
      show Outcome.map' _ (Raw.eval nd (envOf g) b) = _
      cases Raw.eval nd (envOf g) b <;> rfl
    | _ => rfl
  rw [kw_run h1.kw hseq]
  simp only [Item.eval]
  cases Raw.eval nd (envOf g) a with
  | ok x =>
    simp only [Outcome.bind_ok]
    cases Raw.eval nd (envOf g) b with
    | ok y =>
      simp only [Outcome.bind_ok]
      rw [bin_item_action, map'_map']
    | _ => rfl
  | _ => rfl

theorem bin_item {o : BinOp} {a b : Raw} (ha : RawReads K a) (hb : RawReads K b) : ItemReads K (.bin o a b) := by
  intro nd n ts w _ h hl
  simp only [Item.toks, List.cons_append, List.append_assoc] at h
  obtain ⟨w1, h1⟩ := next h
  obtain ⟨w2, h2, l2, e2⟩ := bin_run ha hb nd n ts w h hl
  refine ⟨w2, h2, l2, fun g l => ?_⟩
  cases o with
  | implies => exact expression_key 3 (by omega) h1 (e2 g l)
  | iff => exact expression_key 4 (by omega) h1 (e2 g l)
  | xor => exact expression_key 5 (by omega) h1 (e2 g l)
  | untl => exact expression_key 8 (by omega) h1 ((until_binary nd n _ w _).trans (e2 g l))

theorem raw_head (t : Raw) : ∃ t0 tl, t.toks = t0 :: tl ∧ t0 ≠ .rp ∧ (∀ o, t0 ≠ .op o) ∧ (∀ l, t0 ≠ .num l) := by
  cases t <;> simp [Raw.toks]

theorem term_item {t : Raw} (ht : RawOk t) (hr : ∀ n, t = .ref n → n ∉ opKeys) (h : RawReads K t) :
    ItemReads K (.term t) := by
  intro nd n ts w _ htx hl
  simp only [Item.toks] at htx
  obtain ⟨w', h1, l1, e1⟩ := h nd n ts w htx hl
  refine ⟨w', h1, l1, fun g l => ?_⟩
  have key : (∀ c cs, w = c :: cs → c ≠ '<' ∧ c ≠ '>') ∧ ∀ k ∈ opKeys, keyword k w = none := by
    have word : ∀ s, t.toks = [.word s] → (∀ d ∈ s.toList, isIdOther d = true) → s ∉ opKeys →
        (∀ c cs, w = c :: cs → c ≠ '<' ∧ c ≠ '>') ∧ ∀ k ∈ opKeys, keyword k w = none := by
      intro s hs hall hne
      rw [hs, List.singleton_append] at htx
      obtain ⟨w1, h1⟩ := next htx
      exact ⟨h1.no_op (by simp), fun k hk => h1.kw_ne hall (fun e => hne (e ▸ hk)) (opKey_other hk).2.1⟩
    cases ht with
    | tru => exact word "true" (by simp [Raw.toks]) (by decide) (by decide)
    | fls => exact word "false" (by simp [Raw.toks]) (by decide) (by decide)
    | ref hn _ _ => exact word _ (by simp [Raw.toks]) (name_all hn) (hr _ rfl)
    | paren _ =>
      simp only [Raw.toks, List.cons_append] at htx
      obtain ⟨w1, h1⟩ := next htx
      refine ⟨h1.no_op (by simp), fun k hk => ?_⟩
      obtain ⟨-, -, c, cs, hcs, hi⟩ := opKey_other hk
      exact h1.kw_not (by simp) hcs hi
  rw [expression_none (predicateTerm_skip _ key.1) key.2, e1]
  simp only [Item.eval]
  show Outcome.map' _ (Raw.eval nd (envOf g) t) = _
  cases Raw.eval nd (envOf g) t <;> rfl

theorem item_head (i : Item) : ∃ t0 tl, i.toks = t0 :: tl ∧ t0 ≠ .rp := by
  cases i with
  | term t =>
    obtain ⟨t0, tl, h1, h2, -⟩ := raw_head t
    exact ⟨t0, tl, by simpa [Item.toks] using h1, h2⟩
  | _ => simp [Item.toks]

theorem items_nil : ItemsRead K [] := by
  intro nd n m ts w h hn hm
  simp only [Item.toksAll, List.nil_append] at h
  obtain ⟨w1, h1⟩ := next h
  refine ⟨w1, h1.tx, h1.lt, fun g l => ?_⟩
  obtain ⟨m, rfl⟩ : ∃ k, m = k + 1 := ⟨m - 1, by omega⟩
  simp only [Item.evalAll]
  exact until_stop (lex_some _ h1.rp)

theorem items_cons {i : Item} {is : List Item} (hi : ItemReads K i) (his : ItemsRead K is)
    (hs : ∀ o ts, i = .nary o ts → ∀ j js, is = j :: js → j.isCmp = true) : ItemsRead K (i :: is) := by
  intro nd n m ts w h hn hm
  simp only [Item.toksAll, List.append_assoc] at h
  have hnr : sym ')' w = none := by
    obtain ⟨t0, tl, hin, hne⟩ := item_head i
    have h' := h
    rw [hin, List.cons_append] at h'
    obtain ⟨_, h0⟩ := next h'
    exact h0.not_rp hne
  obtain ⟨w1, h1, l1, e1⟩ := hi nd n _ w (by
    intro o l hl
    cases is with
    | nil => exact ⟨.rp, ts, by simp [Item.toksAll], by simp, by simp⟩
    | cons j js =>
      have hj := hs o l hl j js rfl
      cases j with
      | cmp o n c => exact ⟨.op o, _, by rw [Item.toksAll, Item.toks]; rfl, by simp, by simp⟩
      | _ => simp [Item.isCmp] at hj) h hn
  obtain ⟨m, rfl⟩ : ∃ k, m = k + 1 := ⟨m - 1, by omega⟩
  obtain ⟨w2, h2, l2, e2⟩ := his nd n m ts w1 h1 (by omega) (by omega)
  refine ⟨w2, h2, by omega, fun g l => ?_⟩
  rw [until_step (lex_none _ hnr) (e1 g l)]
  simp only [Item.evalAll]
  cases Item.eval nd (envOf g) i l with
  | ok l' =>
    simp only [Outcome.bind_ok]
    exact e2 g l'
  | _ => rfl

mutual
theorem raw_reads : ∀ {r : Raw}, RawOk r → RawReads K r
  | _, .tru => raw_tru
  | _, .fls => raw_fls
  | _, .ref hn ht hf => raw_ref hn ht hf
  | _, .paren h => raw_paren (items_read h)
theorem raws_read : ∀ {l : List Raw}, RawsOk l → ∀ t ∈ l, RawReads K t
  | _, .nil => fun _ h => by simp at h
  | _, .cons h1 h2 => List.forall_mem_cons.2 ⟨raw_reads h1, raws_read h2⟩
theorem item_reads : ∀ {i : Item}, ItemOk i → ItemReads K i
  | _, .cmp hn => cmp_item _ _ _ hn
  | _, .un h => un_item (raw_reads h)
  | _, .nary hne h => nary_item hne (raws_read h)
  | _, .bin h1 h2 => bin_item (raw_reads h1) (raw_reads h2)
  | _, .term h hr => term_item h hr (raw_reads h)
theorem items_read : ∀ {is : List Item}, ItemsOk is → ItemsRead K is
  | _, .nil => items_nil
  | _, .cons h1 h2 hs => items_cons (item_reads h1) (items_read h2) hs
end

/-! ## Commands -/

/-- A term denotes at least one expression. -/
theorem eval_ne_nil {nd : Bool} {env : String → Option (Expr K)} {r : Raw} {es : List (Expr K)}
    (h : r.eval nd env = .ok es) : es ≠ [] := by
  cases r with
  | tru => simp only [Raw.eval, Outcome.ok.injEq] at h; rw [← h]; simp
  | fls => simp only [Raw.eval, Outcome.ok.injEq] at h; rw [← h]; simp
  | ref n =>
    simp only [Raw.eval] at h
    split at h
    · cases h; simp
    · cases h
  | paren is =>
    simp only [Raw.eval] at h
    obtain ⟨l, -, h⟩ := Outcome.bind_eq_ok.1 h
    split at h
    · cases h; simp
    · cases h

/-- Name and term. -/
def RawCmd.name : RawCmd → String
  | .define n _ => n
  | .assert n _ => n

/-- The term of a command. -/
def RawCmd.term : RawCmd → Raw
  | .define _ t => t
  | .assert _ t => t

/-- The last step of a command. -/
def RawCmd.put (g : Specification K) (e : Expr K) : RawCmd → Outcome (Specification K)
  | .define n _ => (addNew g.formulas n e).map' fun m => { g with formulas := m }
  | .assert n _ => (addNew g.assertions n e).map' fun m => { g with assertions := m }

theorem cmd_eval (nd : Bool) (g : Specification K) (c : RawCmd) :
    c.eval nd g = ((RawCmd.term c).eval nd (find g.formulas) >>= fun es => theTerm nd es >>= fun e => RawCmd.put g e c) := by
  cases c with
  | define n t =>
    simp only [RawCmd.eval, RawCmd.term, RawCmd.put, map'_eq_bind]
    rfl
  | assert n t =>
    simp only [RawCmd.eval, RawCmd.term, RawCmd.put, map'_eq_bind]
    rfl

/-- The state between commands: only unused terms are left. -/
def btw (g : Specification K) (tm : List (Expr K)) : PState K := { g := g, s := { terms := tm } }

/-- The effect of a command on this state. -/
def cmdStep (nd : Bool) (p : Specification K × List (Expr K)) (c : RawCmd) :
    Outcome (Specification K × List (Expr K)) :=
  (RawCmd.term c).eval nd (find p.1.formulas) >>= fun es => theTerm nd es >>= fun e =>
    (RawCmd.put p.1 e c).map' fun g => (g, p.2 ++ es.dropLast)

/-- Several commands. -/
def cmdsStep (nd : Bool) (p : Specification K × List (Expr K)) : List RawCmd →
    Outcome (Specification K × List (Expr K))
  | [] => .ok p
  | c :: cs => cmdStep nd p c >>= fun p' => cmdsStep nd p' cs

theorem cmdStep_fst (nd : Bool) (p : Specification K × List (Expr K)) (c : RawCmd) :
    (cmdStep nd p c).map' Prod.fst = c.eval nd p.1 := by
  rw [cmd_eval]
  unfold cmdStep
  simp only [bind_map', map'_map']
  congr 1
  funext es
  congr 1
  funext e
  cases RawCmd.put p.1 e c <;> rfl

theorem cmdsStep_fst (nd : Bool) : ∀ (cs : List RawCmd) (p : Specification K × List (Expr K)),
    (cmdsStep nd p cs).map' Prod.fst = evalRaws nd p.1 cs
  | [], p => rfl
  | c :: cs, p => by
    rw [evalRaws, ← cmdStep_fst, cmdsStep, bind_map']
    cases cmdStep nd p c with
    | ok p' => exact cmdsStep_fst nd cs p'
    | _ => rfl

theorem cmdsStep_append (nd : Bool) : ∀ (cs cs' : List RawCmd) (p : Specification K × List (Expr K)),
    cmdsStep nd p (cs ++ cs') = cmdsStep nd p cs >>= fun p' => cmdsStep nd p' cs'
  | [], cs', p => rfl
  | c :: cs, cs', p => by
    rw [List.cons_append, cmdsStep, cmdsStep]
    cases cmdStep nd p c with
    | ok p' => exact cmdsStep_append nd cs cs' p'
    | _ => rfl

/-- With assertions enabled nothing is left. -/
theorem cmdStep_nil {p p' : Specification K × List (Expr K)} {c : RawCmd} (h : cmdStep false p c = .ok p')
    (hp : p.2 = []) : p'.2 = [] := by
  unfold cmdStep at h
  obtain ⟨es, -, h⟩ := Outcome.bind_eq_ok.1 h
  obtain ⟨e, he, h⟩ := Outcome.bind_eq_ok.1 h
  unfold theTerm at he
  split at he
  · cases he
  · rename_i hl
    have : es.length = 1 := by simpa using hl
    obtain ⟨x, rfl⟩ := List.length_eq_one_iff.1 this
    cases hput : RawCmd.put p.1 e c with
    | ok g => rw [hput] at h; cases h; simp [hp]
    | _ => rw [hput] at h; cases h

theorem cmd_action (nd : Bool) (g : Specification K) (tm es : List (Expr K)) (hes : es ≠ []) (htm : nd = false → tm = [])
    (c : RawCmd) (ins : Specification K → String → Expr K → Specification K × Bool)
    (hins : ∀ e, (if (ins g (RawCmd.name c) e).2 then Outcome.ok (ins g (RawCmd.name c) e).1 else .throw .parseError) =
      RawCmd.put g e c) :
    commandAction nd ins ⟨g, { identifiers := [RawCmd.name c], terms := tm ++ es }⟩ =
      (theTerm nd es >>= fun e => (RawCmd.put g e c).map' fun g' => (g', tm ++ es.dropLast)).map'
        fun p => btw p.1 p.2 := by
  rcases reverse_snoc es with rfl | ⟨m, a, rfl⟩
  · exact absurd rfl hes
  have hb : back (tm ++ (m ++ [a])) = .ok a := by rw [← List.append_assoc]; simp [back]
  have hd : (tm ++ (m ++ [a])).dropLast = tm ++ m := by rw [← List.append_assoc, List.dropLast_concat]
  unfold commandAction theTerm assert_
  simp only [hb, hd]
  have hput := hins a
  cases nd with
  | false =>
    obtain rfl := htm rfl
    cases m with
    | nil =>
      simp only [List.nil_append, List.length_singleton, back, List.getLast?_singleton, List.dropLast_singleton]
      simp
      rw [← hput]
      by_cases hc : (ins g (RawCmd.name c) a).2 = true
      · simp [hc, Outcome.map', btw]
      · simp [hc, Outcome.map']
    | cons b m => simp [Outcome.map']
  | true =>
    simp [back]
    rw [← hput]
    by_cases hc : (ins g (RawCmd.name c) a).2 = true
    · simp [hc, Outcome.map', btw]
    · simp [hc, Outcome.map']

theorem insertFormula_put (g : Specification K) (n : String) (t : Raw) (e : Expr K) :
    (if (insertFormula g n e).2 then Outcome.ok (insertFormula g n e).1 else .throw .parseError) =
      RawCmd.put g e (.define n t) := by
  unfold insertFormula RawCmd.put addNew
  by_cases h : n ∈ g.formulas.map Prod.fst <;> simp [insert_eq, h, Outcome.map']

theorem insertAssertion_put (g : Specification K) (n : String) (t : Raw) (e : Expr K) :
    (if (insertAssertion g n e).2 then Outcome.ok (insertAssertion g n e).1 else .throw .parseError) =
      RawCmd.put g e (.assert n t) := by
  unfold insertAssertion RawCmd.put addNew
  by_cases h : n ∈ g.assertions.map Prod.fst <;> simp [insert_eq, h, Outcome.map']

theorem body_run {nm : String} {t : Raw} (hn : IsName nm) (ht : RawReads K t) (nd : Bool) (n : Nat) (ts : List Tok)
    (w : List Char) (h : TX (.word nm :: (t.toks ++ ts)) w) (hl : w.length < n) :
    ∃ w', TX ts w' ∧ w'.length < w.length ∧ ∀ (g : Specification K) (tm : List (Expr K)),
      seq (must identifier) (must (term nd n)) w (btw g tm) =
        (t.eval nd (envOf g)).map' fun es => (some w', ⟨g, { identifiers := [nm], terms := tm ++ es }⟩) := by
  obtain ⟨w1, h1⟩ := next h
  have l1 := h1.lt
  obtain ⟨w2, h2, l2, e2⟩ := ht nd n _ w1 h1.tx (by omega)
  refine ⟨w2, h2, by omega, fun g tm => ?_⟩
  rw [seq_run (must_run (o := .ok ()) (f := fun _ => _) (identifier_run _ hn h1)), Outcome.bind_ok]
  exact must_run (e2 _)

theorem cmd_run {c : RawCmd} (hc : RawCmdOk c) (nd : Bool) (n : Nat) (ts : List Tok) (w : List Char)
    (h : TX (c.toks ++ ts) w) (hl : w.length < n) :
    ∃ w', TX ts w' ∧ w'.length < w.length ∧ sym ')' w = none ∧
      ∀ (g : Specification K) (tm : List (Expr K)), (nd = false → tm = []) →
      must (sor (assertion nd n) (defineFormula nd n)) w (btw g tm) =
        (cmdStep nd (g, tm) c).map' fun p => (some w', btw p.1 p.2) := by
  have act_eq : ∀ (key : String) (nm : String) (t : Raw) (ins : Specification K → String → Expr K → Specification K × Bool)
      (w1 w2 : List Char) (g : Specification K) (tm : List (Expr K)), (nd = false → tm = []) → RawCmd.name c = nm →
      RawCmd.term c = t → keyword key w = some w1 →
      seq (must identifier) (must (term nd n)) w1 (btw g tm) =
        (t.eval nd (envOf g)).map' (fun es => (some w2, ⟨g, { identifiers := [nm], terms := tm ++ es }⟩)) →
      (∀ e, (if (ins g nm e).2 then Outcome.ok (ins g nm e).1 else .throw .parseError) = RawCmd.put g e c) →
      act (ifMust (kw key) (seq (must identifier) (must (term nd n)))) (commandAction nd ins) w (btw g tm) =
        (cmdStep nd (g, tm) c).map' fun p => (some w2, btw p.1 p.2) := by
    intro key nm t ins w1 w2 g tm htm hnm ht hk hb hins
    subst hnm ht
    rw [kw_run hk hb]
    unfold cmdStep
    simp only [bind_map']
    show ((RawCmd.term c).eval nd (find g.formulas) >>= _) = _
    cases he : (RawCmd.term c).eval nd (find g.formulas) with
    | ok es =>
      simp only [Outcome.bind_ok]
      rw [cmd_action nd g tm es (eval_ne_nil he) htm c ins hins]
      cases theTerm nd es with
      | ok e => simp only [Outcome.bind_ok, map'_map']
      | _ => rfl
    | _ => rfl
  cases hc with
  | @define nm t hn ht =>
    simp only [RawCmd.toks, List.cons_append] at h
    obtain ⟨w1, h1⟩ := next h
    have l1 := h1.lt
    obtain ⟨w2, h2, l2, e2⟩ := body_run hn (raw_reads (K := K) ht) nd n ts w1 h1.tx (by omega)
    refine ⟨w2, h2, by omega, h1.not_rp (by simp), fun g tm htm => ?_⟩
    have hk : keyword "assert" w = none := by
      obtain ⟨r, hr, -⟩ := h1.ex
      rw [hr]
      exact keyword_cons_ne (k := 'a') (ks := ['s', 's', 'e', 'r', 't']) (by decide) (by decide)
    refine must_run ?_
    unfold assertion
    rw [sor_skip (kw_skip hk)]
    exact act_eq "define-formula" nm t insertFormula w1 w2 g tm htm rfl rfl h1.kw (e2 g tm) (insertFormula_put g nm t)
  | @assert nm t hn ht =>
    simp only [RawCmd.toks, List.cons_append] at h
    obtain ⟨w1, h1⟩ := next h
    have l1 := h1.lt
    obtain ⟨w2, h2, l2, e2⟩ := body_run hn (raw_reads (K := K) ht) nd n ts w1 h1.tx (by omega)
    refine ⟨w2, h2, by omega, h1.not_rp (by simp), fun g tm htm => ?_⟩
    refine must_run (sor_run ?_)
    exact act_eq "assert" nm t insertAssertion w1 w2 g tm htm rfl rfl h1.kw (e2 g tm) (insertAssertion_put g nm t)

theorem cmds_run (nd : Bool) (n : Nat) (ts : List Tok) : ∀ (cs : List RawCmd), (∀ c ∈ cs, RawCmdOk c) →
    ∀ (m : Nat) (w : List Char), TX (cs.flatMap RawCmd.toks ++ .rp :: ts) w → w.length < n → w.length < m →
    ∃ w', TX ts w' ∧ w'.length < w.length ∧ ∀ (g : Specification K) (tm : List (Expr K)), (nd = false → tm = []) →
      until_ (lex (sym ')')) (must (sor (assertion nd n) (defineFormula nd n))) m w (btw g tm) =
        (cmdsStep nd (g, tm) cs).map' fun p => (some w', btw p.1 p.2)
  | [], _, m, w, h, hn, hm => by
    simp only [List.flatMap_nil, List.nil_append] at h
    obtain ⟨w1, h1⟩ := next h
    refine ⟨w1, h1.tx, h1.lt, fun g tm _ => ?_⟩
    obtain ⟨m, rfl⟩ : ∃ k, m = k + 1 := ⟨m - 1, by omega⟩
    exact until_stop (lex_some _ h1.rp)
  | c :: cs, hall, m, w, h, hn, hm => by
    rw [List.flatMap_cons, List.append_assoc] at h
    obtain ⟨w1, h1, l1, hs, e1⟩ := cmd_run (K := K) (hall c (by simp)) nd n _ w h hn
    obtain ⟨m, rfl⟩ : ∃ k, m = k + 1 := ⟨m - 1, by omega⟩
    obtain ⟨w2, h2, l2, e2⟩ := cmds_run nd n ts cs (fun c hc => hall c (by simp [hc])) m w1 h1 (by omega) (by omega)
    refine ⟨w2, h2, by omega, fun g tm htm => ?_⟩
    rw [until_step (lex_none _ hs) (e1 g tm htm)]
    simp only [cmdsStep]
    cases hc : cmdStep nd (g, tm) c with
    | ok p =>
      simp only [Outcome.bind_ok]
      refine e2 p.1 p.2 fun hnd => ?_
      subst hnd
      exact cmdStep_nil hc (htm rfl)
    | _ => rfl

theorem group_run {cs : List RawCmd} (hcs : ∀ c ∈ cs, RawCmdOk c) (nd : Bool) (n : Nat) (ts : List Tok) (w : List Char)
    (h : TX (groupToks cs ++ ts) w) (hl : w.length < n) :
    ∃ w', TX ts w' ∧ w'.length < w.length ∧ ∀ (g : Specification K) (tm : List (Expr K)), (nd = false → tm = []) →
      anyCommand nd n w (btw g tm) = (cmdsStep nd (g, tm) cs).map' fun p => (some w', btw p.1 p.2) := by
  simp only [groupToks, List.cons_append, List.append_assoc, List.nil_append] at h
  obtain ⟨w1, h1⟩ := next h
  have l1 := h1.lt
  obtain ⟨w2, h2, l2, e2⟩ := cmds_run (K := K) nd n ts cs hcs n w1 h1.tx (by omega) (by omega)
  refine ⟨w2, h2, by omega, fun g tm htm => ?_⟩
  unfold anyCommand ifMust
  rw [seq_run (lex_some _ h1.lp), Outcome.bind_ok]
  exact must_run (e2 g tm htm)

theorem cmdsStep_nil : ∀ {cs : List RawCmd} {p p' : Specification K × List (Expr K)},
    cmdsStep false p cs = .ok p' → p.2 = [] → p'.2 = []
  | [], p, p', h, hp => by cases h; exact hp
  | c :: cs, p, p', h, hp => by
    rw [cmdsStep] at h
    obtain ⟨q, hq, h⟩ := Outcome.bind_eq_ok.1 h
    exact cmdsStep_nil h (cmdStep_nil hq hp)

theorem groups_run (nd : Bool) (n : Nat) : ∀ (gs : List (List RawCmd)), (∀ cs ∈ gs, ∀ c ∈ cs, RawCmdOk c) →
    ∀ (m : Nat) (w : List Char), TX (gs.flatMap groupToks) w → w.length < n → w.length < m →
    ∀ (g : Specification K) (tm : List (Expr K)), (nd = false → tm = []) →
      until_ eof (seq (anyCommand nd n) (lex fun inp => some (skip inp))) m w (btw g tm) =
        (cmdsStep nd (g, tm) gs.flatten).map' fun p => (some [], btw p.1 p.2)
  | [], _, m, w, h, hn, hm, g, tm, htm => by
    obtain rfl := h.nil_eq
    obtain ⟨m, rfl⟩ : ∃ k, m = k + 1 := ⟨m - 1, by omega⟩
    rfl
  | cs :: gs, hall, m, w, h, hn, hm, g, tm, htm => by
    obtain ⟨m, rfl⟩ : ∃ k, m = k + 1 := ⟨m - 1, by omega⟩
    rw [List.flatMap_cons] at h
    obtain ⟨w1, h1, l1, e1⟩ := group_run (K := K) (hall cs (by simp)) nd n _ w h hn
    have hseq : seq (anyCommand nd n) (lex fun inp => some (skip inp)) w (btw g tm) =
        (cmdsStep nd (g, tm) cs).map' fun p => (some w1, btw p.1 p.2) := by
      rw [seq_run (e1 g tm htm), map'_eq_bind]
      congr 1
      funext g'
      exact lex_some _ (by rw [skip_start h1.start])
    have hne : eof w (btw g tm) = .ok (none, btw g tm) := by
      cases w with
      | nil => simp at l1
      | cons => rfl
    rw [until_step hne hseq, List.flatten_cons, cmdsStep_append]
    cases hp : cmdsStep nd (g, tm) cs with
    | ok p =>
      simp only [Outcome.bind_ok]
      refine groups_run nd n gs (fun c hc => hall c (by simp [hc])) m w1 h1 (by omega) (by omega) p.1 p.2 ?_
      intro hnd
      subst hnd
      exact cmdsStep_nil hp (htm rfl)
    | _ => rfl

/-! ## Valid tokens -/

theorem key_ok {k : String} (h : k ∈ opKeys) : TokOk (.word k) := (opKey_other h).2.2

theorem un_key (o : UnOp) : o.key ∈ opKeys := by cases o <;> decide
theorem nary_key (o : NaryOp) : o.key ∈ opKeys := by cases o <;> decide
theorem bin_key (o : BinOp) : o.key ∈ opKeys := by cases o <;> decide

mutual
theorem raw_toks_ok : ∀ {r : Raw}, RawOk r → ∀ x ∈ r.toks, TokOk x
  | _, .tru => by simp only [Raw.toks, List.mem_singleton, forall_eq]; exact ⟨'t', ['r', 'u', 'e'], by decide, by decide⟩
  | _, .fls => by
    simp only [Raw.toks, List.mem_singleton, forall_eq]; exact ⟨'f', ['a', 'l', 's', 'e'], by decide, by decide⟩
  | _, .ref hn _ _ => by simp only [Raw.toks, List.mem_singleton, forall_eq]; exact tokOk_name hn
  | _, .paren h => by
    have := items_toks_ok h
    simp only [Raw.toks, List.forall_mem_cons, List.forall_mem_append]
    exact ⟨trivial, this, trivial, by simp⟩
theorem raws_toks_ok : ∀ {l : List Raw}, RawsOk l → ∀ x ∈ Raw.toksAll l, TokOk x
  | _, .nil => by simp [Raw.toksAll]
  | _, .cons h1 h2 => by
    have h1 := raw_toks_ok h1
    have h2 := raws_toks_ok h2
    simp only [Raw.toksAll, List.forall_mem_append]
    exact ⟨h1, h2⟩
theorem item_toks_ok : ∀ {i : Item}, ItemOk i → ∀ x ∈ i.toks, TokOk x
  | _, .cmp hn => by
    simp only [Item.toks, List.forall_mem_cons]
    exact ⟨trivial, tokOk_name hn, trivial, by simp⟩
  | _, .un h => by
    have := raw_toks_ok h
    simp only [Item.toks, List.forall_mem_cons]
    exact ⟨key_ok (un_key _), this⟩
  | _, .nary _ h => by
    have := raws_toks_ok h
    simp only [Item.toks, List.forall_mem_cons]
    exact ⟨key_ok (nary_key _), this⟩
  | _, .bin h1 h2 => by
    have h1 := raw_toks_ok h1
    have h2 := raw_toks_ok h2
    simp only [Item.toks, List.forall_mem_cons, List.forall_mem_append]
    exact ⟨key_ok (bin_key _), h1, h2⟩
  | _, .term h _ => by
    have := raw_toks_ok h
    simp only [Item.toks]
    exact this
theorem items_toks_ok : ∀ {is : List Item}, ItemsOk is → ∀ x ∈ Item.toksAll is, TokOk x
  | _, .nil => by simp [Item.toksAll]
  | _, .cons h1 h2 _ => by
    have h1 := item_toks_ok h1
    have h2 := items_toks_ok h2
    simp only [Item.toksAll, List.forall_mem_append]
    exact ⟨h1, h2⟩
end

theorem group_toks_ok {cs : List RawCmd} (h : ∀ c ∈ cs, RawCmdOk c) : ∀ x ∈ groupToks cs, TokOk x := by
  simp only [groupToks, List.forall_mem_cons, List.forall_mem_append]
  refine ⟨trivial, fun x hx => ?_, trivial, by simp⟩
  obtain ⟨c, hc, hx⟩ := List.mem_flatMap.1 hx
  cases h c hc with
  | define hn ht =>
    simp only [RawCmd.toks, List.mem_cons] at hx
    rcases hx with rfl | rfl | hx
    · exact ⟨'d', "efine-formula".toList, by decide, by decide⟩
    · exact tokOk_name hn
    · exact raw_toks_ok ht x hx
  | assert hn ht =>
    simp only [RawCmd.toks, List.mem_cons] at hx
    rcases hx with rfl | rfl | hx
    · exact ⟨'a', "ssert".toList, by decide, by decide⟩
    · exact tokOk_name hn
    · exact raw_toks_ok ht x hx

/-- What the parser makes of every text of the accepted language. -/
theorem fromString_rawText {gs : List (List RawCmd)} (hgs : ∀ cs ∈ gs, ∀ c ∈ cs, RawCmdOk c) {w : List Char}
    (h : RawText gs w) (nd : Bool) {n : Nat} (hn : w.length < n) :
    fromString (K := K) nd n w = evalRaws nd {} gs.flatten := by
  have key : ∀ v : List Char, skip w = v → TX (gs.flatMap groupToks) v →
      fromString (K := K) nd n w = evalRaws nd {} gs.flatten := by
    intro v hv htx
    have hle : v.length ≤ w.length := by rw [← hv]; exact skip_le w
    have hseq : specificationFile nd n w ({} : PState K) =
        (cmdsStep nd (({} : Specification K), []) gs.flatten).map' fun p => (some [], btw p.1 p.2) := by
      unfold specificationFile
      refine must_run ?_
      rw [seq_run (lex_some (f := fun inp => some (skip inp)) (w1 := v) _ (by rw [hv])), Outcome.bind_ok]
      exact groups_run nd n gs hgs n v htx (by omega) (by omega) {} [] fun _ => rfl
    have hfst := cmdsStep_fst nd gs.flatten (({} : Specification K), [])
    unfold fromString
    rw [hseq, ← hfst]
    cases cmdsStep nd (({} : Specification K), []) gs.flatten <;> rfl
  cases h with
  | mk hg htx =>
    have htx' : TX (gs.flatMap groupToks) _ := ⟨htx, fun x hx => by
      obtain ⟨c, hc, hx⟩ := List.mem_flatMap.1 hx
      exact group_toks_ok (hgs c hc) x hx⟩
    exact key _ (skip_layout hg htx'.start) htx'
  | empty hg hnil =>
    subst hnil
    exact key [] (skip_final hg) ⟨.nil, by simp⟩

end Rule
end Verif
