import Verif.Proofs.ParserMessages
import Verif.Proofs.ParserErrors

/-!
# There is no parse error without a message
-/

set_option linter.unusedSectionVars false

namespace Verif

variable {K : Type}

/-- There is no parse error without a message. -/
def Never {K : Type} (r : RuleM K) : Prop := ∀ inp st, r inp st ≠ .does (.throw .parseError)

section
variable {c r r1 r2 : RuleM K}

theorem Never.lex (f : List Char → Option (List Char)) : Never (K := K) (RuleM.lex f) := fun inp st h => by
  unfold RuleM.lex at h
  split at h <;> cases h

theorem Never.seq (h1 : Never r1) (h2 : Never r2) : Never (RuleM.seq r1 r2) := fun inp st h => by
  unfold RuleM.seq at h
  rcases e : r1 inp st with ⟨m', s', p'⟩ | (⟨q | q, st'⟩ | _ | _ | _ | _) <;> rw [e] at h
  case does.ok.ok => exact h2 _ _ h
  case does.throw => cases h; exact h1 _ _ e
  all_goals cases h

theorem Never.sor (h1 : Never r1) (h2 : Never r2) : Never (RuleM.sor r1 r2) := fun inp st h => by
  unfold RuleM.sor at h
  rcases e : r1 inp st with ⟨m', s', p'⟩ | (⟨q | q, st'⟩ | _ | _ | _ | _) <;> rw [e] at h
  case does.ok.error => exact h2 _ _ h
  case does.throw => cases h; exact h1 _ _ e
  all_goals cases h

theorem Never.must (m : Msg) (h1 : Never r) : Never (RuleM.must m r) := fun inp st h => by
  unfold RuleM.must at h
  rcases e : r inp st with ⟨m', s', p'⟩ | (⟨q | q, st'⟩ | _ | _ | _ | _) <;> rw [e] at h
  case does.throw => cases h; exact h1 _ _ e
  all_goals cases h

theorem Never.act (h1 : Never r) {f : PState K → Outcome (PState K)} (hf : ∀ st, f st ≠ .throw .parseError) :
    Never (RuleM.act r f) := fun inp st h => by
  unfold RuleM.act at h
  rcases e : r inp st with ⟨m', s', p'⟩ | (⟨q | q, st'⟩ | _ | _ | _ | _) <;> rw [e] at h
  case does.ok.ok =>
    simp only [Said.bind] at h
    rcases h2 : f st' with _ | _ | _ | _ | _ <;> rw [h2] at h <;> cases h
    exact hf _ h2
  case does.throw => cases h; exact h1 _ _ e
  all_goals cases h

theorem Never.actIn (h1 : Never r) {f : List Char → PState K → Said (PState K)}
    (hf : ∀ inp st, f inp st ≠ .does (.throw .parseError)) : Never (RuleM.actIn r f) := fun inp st h => by
  unfold RuleM.actIn at h
  rcases e : r inp st with ⟨m', s', p'⟩ | (⟨q | q, st'⟩ | _ | _ | _ | _) <;> rw [e] at h
  case does.ok.ok =>
    simp only [Said.bind] at h
    rcases h2 : f inp st' with _ | (_ | _ | _ | _ | _) <;> rw [h2] at h <;> cases h
    exact hf _ _ h2
  case does.throw => cases h; exact h1 _ _ e
  all_goals cases h

theorem Never.until_ (h1 : Never c) (h2 : Never r) : ∀ n, Never (RuleM.until_ c r n)
  | 0 => fun _ _ h => by cases h
  | n + 1 => fun inp st h => by
    unfold RuleM.until_ at h
    rcases e : c inp st with ⟨m', s', p'⟩ | (⟨q | q, st'⟩ | _ | _ | _ | _) <;> rw [e] at h
    case does.ok.error =>
      simp only [Said.bind] at h
      rcases e2 : r inp st' with ⟨m', s', p'⟩ | (⟨q | q, st'⟩ | _ | _ | _ | _) <;> rw [e2] at h
      case does.ok.ok => exact Never.until_ h1 h2 n _ _ h
      case does.throw => cases h; exact h2 _ _ e2
      all_goals cases h
    case does.throw => cases h; exact h1 _ _ e
    all_goals cases h

theorem Never.star (h1 : Never r) : ∀ n, Never (RuleM.star r n)
  | 0 => fun _ _ h => by cases h
  | n + 1 => fun inp st h => by
    unfold RuleM.star at h
    rcases e : r inp st with ⟨m', s', p'⟩ | (⟨q | q, st'⟩ | _ | _ | _ | _) <;> rw [e] at h
    case does.ok.ok => exact Never.star h1 n _ _ h
    case does.throw => cases h; exact h1 _ _ e
    all_goals cases h

theorem Never.onNewState (h1 : Never r) : Never (RuleM.onNewState r) := fun inp st h => by
  unfold RuleM.onNewState at h
  rcases e : r inp { g := st.g } with ⟨m', s', p'⟩ | (⟨q | q, st'⟩ | _ | _ | _ | _) <;> rw [e] at h
  case does.throw => cases h; exact h1 _ _ e
  all_goals cases h

end

/-- The other exceptions. -/
abbrev others : List Exn := [.outOfRange, .logicError, .invalidArgument, .badOptionalAccess, .badVariantAccess]

theorem Rule.Only.never {α : Type} {o : Outcome α} (h : Rule.Only others o) : o ≠ .throw .parseError := fun e => by
  have := h _ e
  simp at this

/-- There is no parse error without a message. -/
def Quiet {α : Type} (o : Said α) : Prop := o ≠ .does (.throw .parseError)

theorem Quiet.ok {α : Type} (a : α) : Quiet (.does (.ok a)) := fun h => by cases h

theorem Quiet.error {α : Type} (m : Msg) (s p : List Char) : Quiet (.error m s p : Said α) := fun h => by cases h

theorem Quiet.does {α : Type} {o : Outcome α} (h : Rule.Only others o) : Quiet (.does o) := fun e => by
  cases e
  exact Rule.Only.never h rfl

theorem Quiet.bind {α β : Type} {x : Said α} {g : α → Said β} (hx : Quiet x) (hg : ∀ a, Quiet (g a)) :
    Quiet (x.bind g) := by
  rcases x with ⟨m, s, p⟩ | (a | e | _ | _ | _)
  case does.ok => exact hg a
  case does.throw => exact fun h => hx (by cases h; rfl)
  all_goals exact fun h => by cases h

theorem exponentM_quiet (w : List Char) : Quiet (Lex.exponentM w) := by
  unfold Lex.exponentM
  repeat' split
  all_goals first | exact .ok _ | exact .error _ _ _

theorem doubleLitM_quiet (w : List Char) : Quiet (Lex.doubleLitM w) := by
  refine .bind ?_ fun o => ?_
  · unfold Lex.doubleAlt1M
    repeat' split
    · exact .bind (exponentM_quiet _) fun _ => .ok _
    · exact .ok _
    · exact .ok _
  · cases o with
    | some r => exact .ok _
    | none =>
      refine .bind ?_ fun _ => .ok _
      unfold Lex.doubleAlt2M
      split
      · exact exponentM_quiet _
      · exact .ok _

section
variable [Field K] [LinearOrder K]

theorem Rule.Only.value_others {α : Type} (o : Option α) : Rule.Only others (Rule.value o) := by
  cases o
  · exact .throw (by simp)
  · exact .ok _

theorem identifierM_never : Never (K := K) RuleM.identifier := fun inp st => by
  unfold RuleM.identifier
  repeat' split
  all_goals exact Quiet.ok _

theorem booleanLiteralM_never : Never (K := K) RuleM.booleanLiteral :=
  .act (.sor (.act (.lex _) fun _ h => by cases h) (.act (.lex _) fun _ h => by cases h)) fun st h => by
    split at h <;> cases h

theorem cmpSymM_never (f : List Char → Option (List Char)) (op : ComparisonOp) : Never (K := K) (RuleM.cmpSym f op) :=
  .act (.lex _) fun _ h => by cases h

theorem lookup_only_others (m : List (String × Expr K)) (id : String) :
    Rule.Only others (Rule.lookup m id) := by
  unfold Rule.lookup
  split
  · exact .ok _
  · exact .throw (by simp)

theorem termAction_others (st : PState K) : Rule.Only others (Rule.termAction st) := by
  unfold Rule.termAction
  split
  · exact .ok _
  · split
    · exact .bind (lookup_only_others _ _) fun _ _ => .ok _
    · exact .throw (by simp)

theorem unaryAction_others (nd one : Bool) (g : Expr K → Expr K) (st : PState K) :
    Rule.Only others (Rule.unaryAction nd one g st) :=
  .bind (.assert _ _) fun _ _ => .bind (.back _) fun _ _ => .bind (.assert _ _) fun _ _ => .ok _

theorem binaryAction_others (nd : Bool) {g : Expr K → Expr K → Outcome (Expr K)}
    (hg : ∀ a b, Rule.Only others (g a b)) (st : PState K) : Rule.Only others (Rule.binaryAction nd g st) :=
  .bind (.assert _ _) fun _ _ => .bind (.back _) fun _ _ => .bind (.back _) fun _ _ => .bind (hg _ _) fun _ _ =>
    .bind (.assert _ _) fun _ _ => .ok _

theorem naryActionM_quiet (nd : Bool) {g : List (Expr K) → Outcome (Expr K)} (hg : ∀ l, Rule.Only others (g l))
    (inp : List Char) (st : PState K) : Quiet (RuleM.naryAction nd g inp st) := by
  unfold RuleM.naryAction
  split
  · exact .error _ _ _
  · rename_i h
    refine .does ?_
    unfold Rule.naryAction
    rw [if_neg h]
    exact .bind (.assert _ _) fun _ _ => .bind (hg _) fun _ _ => .ok _

theorem commandActionM_quiet (nd : Bool) (ins : Specification K → String → Expr K → Specification K × Bool)
    (again : String → Msg) (inp : List Char) (st : PState K) : Quiet (RuleM.commandAction nd ins again inp st) := by
  refine .bind (.does (.assert _ _)) fun _ => .bind (.does (.assert _ _)) fun _ => .bind (.does (.back _)) fun _ =>
    .bind (.does (.back _)) fun _ => ?_
  simp only
  split
  · exact .error _ _ _
  · exact .bind (.does (.assert _ _)) fun _ => .ok _

theorem Never.ifMust {c r : RuleM K} (m : Msg) (h1 : Never c) (h2 : Never r) : Never (RuleM.ifMust m c r) :=
  .seq h1 (.must m h2)

variable [Arith K] [Strtod K]

theorem predicateAction_others (st : PState K) : Rule.Only others (Rule.predicateAction st) := by
  unfold Rule.predicateAction
  simp only
  split
  · exact .throw (by simp)
  · refine .bind (.back _) fun id _ => .bind (.value_others _) fun cmp _ => .bind ?_ fun c _ => ?_
    · refine .bind (.value_others _) fun p hp => ?_
      cases p with
      | bool b => exact .throw (by simp)
      | long n => exact .ok _
      | double d => exact .ok _
    · split
      · exact .throw (by simp)
      · exact .ok _

theorem numeralM_never : Never (K := K) RuleM.numeral := by
  refine .sor (fun inp st => ?_) fun inp st => ?_
  · refine Quiet.bind (doubleLitM_quiet _) fun o => ?_
    cases o with
    | none => exact Quiet.ok _
    | some rest =>
      refine Quiet.bind (.does ?_) fun _ => .ok _
      unfold stod
      simp only
      split
      · exact .throw (by simp)
      · exact .ok _
  · unfold RuleM.integerLiteral
    split
    · exact Quiet.ok _
    · refine Quiet.bind (.does ?_) fun _ => .ok _
      unfold stol
      simp only
      split
      · exact .ok _
      · exact .throw (by simp)

theorem predicateTermM_never : Never (K := K) RuleM.predicateTerm :=
  .act (.ifMust _ (.sor (cmpSymM_never _ _) (.sor (cmpSymM_never _ _) (.sor (cmpSymM_never _ _) (cmpSymM_never _ _))))
    (.sor (.act (.seq identifierM_never numeralM_never) fun _ h => by cases h)
      (.act (.seq numeralM_never identifierM_never) fun _ h => by cases h)))
    fun st => (predicateAction_others st).never

theorem expressionM_never (nd : Bool) (n : Nat) {t : RuleM K} (h : Never t) : Never (RuleM.expression nd n t) := by
  have k := fun key => Never.lex (K := K) (Lex.keyword key)
  have hi : Exn.invalidArgument ∈ others := by simp
  have hu := fun one g st => (unaryAction_others (K := K) nd one g st).never
  have hp : Never (RuleM.plus t n) := .seq h (.star h n)
  exact .sor predicateTermM_never <| .sor (.act (.ifMust _ (k _) h) (hu _ _)) <|
    .sor (.actIn (.ifMust _ (k _) hp) (naryActionM_quiet nd (Rule.And_only hi))) <|
    .sor (.actIn (.ifMust _ (k _) hp) (naryActionM_quiet nd (Rule.Or_only hi))) <|
    .sor (.act (.ifMust _ (k _) (.seq h h)) fun st => (binaryAction_others nd (Rule.Implies_only hi) st).never) <|
    .sor (.act (.ifMust _ (k _) (.seq h h)) fun st => (binaryAction_others nd (Rule.Iff_only hi) st).never) <|
    .sor (.act (.ifMust _ (k _) (.seq h h)) fun st => (binaryAction_others nd (Rule.Xor_only hi) st).never) <|
    .sor (.act (.ifMust _ (k _) h) (hu _ _)) <|
    .sor (.act (.ifMust _ (k _) h) (hu _ _)) <|
    .sor (.act (.seq (k _) (.seq (.must _ h) (.must _ h)))
      fun st => (binaryAction_others nd (fun _ _ => .ok _) st).never) h

theorem termM_never (nd : Bool) : ∀ n, Never (K := K) (RuleM.term nd n)
  | 0 => fun _ _ h => by cases h
  | n + 1 => .onNewState (.act (.sor (.ifMust _ (.lex _) (.until_ (.lex _) (expressionM_never nd n (termM_never nd n)) n))
      (.sor booleanLiteralM_never identifierM_never)) fun st => (termAction_others st).never)

theorem specificationFileM_never (nd : Bool) (n : Nat) : Never (K := K) (RuleM.specificationFile nd n) := by
  have ha : Never (K := K) (RuleM.arguments nd n) := .seq (.must _ identifierM_never) (.must _ (termM_never nd n))
  exact .must _ (.seq (.lex _) (.until_ (.lex _) (.seq (.ifMust _ (.lex _) (.until_ (.lex _)
    (.must _ (.sor (.actIn (.seq (.lex _) ha) (commandActionM_quiet nd _ _))
      (.actIn (.seq (.lex _) ha) (commandActionM_quiet nd _ _)))) n)) (.lex _)) n))

theorem fromStringM_never (nd : Bool) (n : Nat) (w : List Char) :
    fromStringM (K := K) nd n w ≠ .does (.throw .parseError) := by
  refine Quiet.bind (specificationFileM_never nd n w {}) fun p => ?_
  obtain ⟨r | r, st⟩ := p
  · exact fun h => by cases h
  · exact .ok _

end

end Verif
