import Verif.Proofs.ParserSpec

/-!
# Lemmas about the meaning of specifications
-/

set_option linter.unusedSectionVars false

namespace Verif
open Spec Rule
variable {K : Type} [Field K] [LinearOrder K] [Arith K] [Strtod K]

/-! ## Texts exist -/

theorem render_txt : ∀ ts : List Tok, Txt ts (render ts)
  | [] => .nil
  | [t] => .last (.closed (.space (by simp [IsSpace]) .nil))
  | t :: t' :: ts => by
    have h := render_txt (t' :: ts)
    exact Txt.cons (g := [' ']) (.space (by simp [IsSpace]) .nil) (fun h => by simp at h) h

theorem render_text (cs : List Cmd) : Text cs (render (cs.flatMap Cmd.toks)) :=
  .mk (g := []) .nil (render_txt _)

/-! ## A specification returns or throws -/

/-- The call returns or throws. -/
def Fine {α : Type} (o : Outcome α) : Prop := (∃ a, o = .ok a) ∨ ∃ e, o = .throw e

theorem fine_ok {α : Type} (a : α) : Fine (.ok a) := .inl ⟨a, rfl⟩
theorem fine_throw {α : Type} (e : Exn) : Fine (.throw e : Outcome α) := .inr ⟨e, rfl⟩

theorem fine_bind {α β : Type} {x : Outcome α} {f : α → Outcome β} (hx : Fine x) (hf : ∀ a, Fine (f a)) :
    Fine (x >>= f) := by
  rcases hx with ⟨a, rfl⟩ | ⟨e, rfl⟩
  · exact hf a
  · exact fine_throw e

theorem And_fine (l : List (Expr K)) : Fine (Expr.And l) := by
  unfold Expr.And; split
  · exact fine_throw _
  · exact fine_ok _
theorem Or_fine (l : List (Expr K)) : Fine (Expr.Or l) := by
  unfold Expr.Or; split
  · exact fine_throw _
  · exact fine_ok _

theorem andOp_fine (a b : Expr K) : Fine (Expr.andOp a b) := by
  unfold Expr.andOp
  split
  · exact fine_ok _
  · unfold Expr.andHelper; split <;> exact And_fine _
  · exact And_fine _

theorem orOp_fine (a b : Expr K) : Fine (Expr.orOp a b) := by
  unfold Expr.orOp
  split
  · exact fine_ok _
  · unfold Expr.orHelper; split <;> exact Or_fine _
  · exact Or_fine _

theorem num_fine (c : NumLit) : Fine (c.eval (K := K)) := by
  unfold NumLit.eval
  split <;> split <;> first | exact fine_ok _ | exact fine_throw _

variable {rev : ComparisonOp → D K → String → Outcome (Expr K)} {env : String → Option (Expr K)}

mutual
theorem eval_fine (hr : ∀ o c n, Fine (rev o c n)) : ∀ t : Syn, Fine (denote rev env t)
  | .tru => by rw [denote]; exact fine_ok _
  | .fls => by rw [denote]; exact fine_ok _
  | .ref n => by
    rw [denote]
    cases env n
    · exact fine_throw _
    · exact fine_ok _
  | .cmp o n c => by rw [denote]; exact fine_bind (num_fine c) fun _ => fine_ok _
  | .rcmp o c n => by rw [denote]; exact fine_bind (num_fine c) fun _ => hr _ _ _
  | .not t => by rw [denote]; exact fine_bind (eval_fine hr t) fun _ => fine_ok _
  | .and ts => by
    rw [denote]
    refine fine_bind (evalAll_fine hr ts) fun es => ?_
    split
    · exact fine_throw _
    · exact And_fine _
  | .or ts => by
    rw [denote]
    refine fine_bind (evalAll_fine hr ts) fun es => ?_
    split
    · exact fine_throw _
    · exact Or_fine _
  | .implies a b => by
    rw [denote]
    exact fine_bind (eval_fine hr a) fun _ => fine_bind (eval_fine hr b) fun _ => orOp_fine _ _
  | .iff a b => by
    rw [denote]
    exact fine_bind (eval_fine hr a) fun _ => fine_bind (eval_fine hr b) fun _ =>
      fine_bind (andOp_fine _ _) fun _ => fine_bind (andOp_fine _ _) fun _ => orOp_fine _ _
  | .xor a b => by
    rw [denote]
    exact fine_bind (eval_fine hr a) fun _ => fine_bind (eval_fine hr b) fun _ =>
      fine_bind (orOp_fine _ _) fun _ => fine_bind (orOp_fine _ _) fun _ => andOp_fine _ _
  | .always t => by rw [denote]; exact fine_bind (eval_fine hr t) fun _ => fine_ok _
  | .eventually t => by rw [denote]; exact fine_bind (eval_fine hr t) fun _ => fine_ok _
  | .untl a b => by
    rw [denote]; exact fine_bind (eval_fine hr a) fun _ => fine_bind (eval_fine hr b) fun _ => fine_ok _
theorem evalAll_fine (hr : ∀ o c n, Fine (rev o c n)) : ∀ ts : List Syn, Fine (evalAll rev env ts)
  | [] => by rw [evalAll]; exact fine_ok _
  | t :: ts => by
    rw [evalAll]; exact fine_bind (eval_fine hr t) fun _ => fine_bind (evalAll_fine hr ts) fun _ => fine_ok _
end

theorem addNew_fine (m : List (String × Expr K)) (n : String) (e : Expr K) : Fine (addNew m n e) := by
  unfold addNew; split
  · exact fine_throw _
  · exact fine_ok _

theorem evalCmd_fine (hr : ∀ o c n, Fine (rev o c n)) (sp : Specification K) (c : Cmd) : Fine (evalCmd rev sp c) := by
  cases c <;> exact fine_bind (eval_fine hr _) fun _ => fine_bind (addNew_fine _ _ _) fun _ => fine_ok _

theorem evalSpec_fine (hr : ∀ o c n, Fine (rev o c n)) : ∀ (cs : List Cmd) (sp : Specification K),
    Fine (evalSpec rev sp cs)
  | [], _ => fine_ok _
  | c :: cs, sp => fine_bind (evalCmd_fine hr sp c) fun sp' => evalSpec_fine hr cs sp'

theorem revThrow_fine (o : ComparisonOp) (c : D K) (n : String) : Fine (revThrow o c n) := fine_throw _

/-- Not returning means throwing. -/
theorem throws_of {cs : List Cmd} {sp : Specification K} (h : ∀ r, evalSpec revThrow sp cs ≠ .ok r) :
    ∃ e, evalSpec revThrow sp cs = .throw e := by
  rcases evalSpec_fine revThrow_fine cs sp with ⟨a, ha⟩ | h'
  · exact (h a ha).elim
  · exact h'

/-! ## Without reversed predicates their meaning does not matter -/

variable {rev' : ComparisonOp → D K → String → Outcome (Expr K)}

mutual
theorem eval_norev : ∀ t : Syn, NoRev t → denote rev env t = denote rev' env t
  | .tru, _ => by simp only [denote]
  | .fls, _ => by simp only [denote]
  | .ref _, _ => by simp only [denote]
  | .cmp _ _ _, _ => by simp only [denote]
  | .not t, .not h => by simp only [denote, eval_norev t h]
  | .and ts, .and h => by simp only [denote, evalAll_norev ts h]
  | .or ts, .or h => by simp only [denote, evalAll_norev ts h]
  | .implies a b, .implies ha hb => by simp only [denote, eval_norev a ha, eval_norev b hb]
  | .iff a b, .iff ha hb => by simp only [denote, eval_norev a ha, eval_norev b hb]
  | .xor a b, .xor ha hb => by simp only [denote, eval_norev a ha, eval_norev b hb]
  | .always t, .always h => by simp only [denote, eval_norev t h]
  | .eventually t, .eventually h => by simp only [denote, eval_norev t h]
  | .untl a b, .untl ha hb => by simp only [denote, eval_norev a ha, eval_norev b hb]
theorem evalAll_norev : ∀ ts : List Syn, (∀ t ∈ ts, NoRev t) → evalAll rev env ts = evalAll rev' env ts
  | [], _ => by simp only [evalAll]
  | t :: ts, h => by
    simp only [evalAll, eval_norev t (h t (by simp)), evalAll_norev ts fun x hx => h x (by simp [hx])]
end

theorem evalCmd_norev (sp : Specification K) (c : Cmd) (h : NoRev c.term) :
    evalCmd rev sp c = evalCmd rev' sp c := by
  have e := eval_norev (rev := rev) (rev' := rev') (env := find sp.formulas) c.term h
  cases c <;> (simp only [evalCmd]; rw [Cmd.term] at e; rw [e])

theorem evalSpec_norev : ∀ (cs : List Cmd) (sp : Specification K), (∀ c ∈ cs, NoRev c.term) →
    evalSpec rev sp cs = evalSpec rev' sp cs
  | [], _, _ => rfl
  | c :: cs, sp, h => by
    rw [evalSpec, evalSpec, evalCmd_norev sp c (h c (by simp))]
    congr 1
    funext sp'
    exact evalSpec_norev cs sp' fun x hx => h x (by simp [hx])

/-! ## Failing parts make the whole fail -/

theorem evalAll_ok_mem : ∀ {ts : List Syn} {es : List (Expr K)}, evalAll rev env ts = .ok es → ∀ t ∈ ts,
    ∃ e, denote rev env t = .ok e
  | [], _, _, t, ht => by cases ht
  | t :: ts, es, h, x, hx => by
    rw [evalAll] at h
    obtain ⟨e, h1, h2⟩ := Outcome.bind_eq_ok.1 h
    obtain ⟨es', h3, -⟩ := Outcome.bind_eq_ok.1 h2
    rcases List.mem_cons.1 hx with rfl | hx
    · exact ⟨e, h1⟩
    · exact evalAll_ok_mem h3 x hx

theorem bind_ok_left {α β : Type} {x : Outcome α} {f : α → Outcome β} {b : β} (h : (x >>= f) = .ok b) :
    ∃ a, x = .ok a := by
  obtain ⟨a, h1, -⟩ := Outcome.bind_eq_ok.1 h
  exact ⟨a, h1⟩

theorem bind_ok_second {α β γ : Type} {x : Outcome α} {y : Outcome β} {f : α → β → Outcome γ} {c : γ}
    (h : (x >>= fun a => y >>= f a) = .ok c) : ∃ b, y = .ok b := by
  obtain ⟨a, -, h2⟩ := Outcome.bind_eq_ok.1 h
  exact bind_ok_left h2

theorem eval_rev_ne {t : Syn} (ht : HasRev t) : ∀ e, denote revThrow env t ≠ .ok e := by
  induction ht with
  | rcmp =>
    intro e h
    rw [denote] at h
    obtain ⟨d, -, h2⟩ := Outcome.bind_eq_ok.1 h
    simp [revThrow] at h2
  | not _ ih | always _ ih | eventually _ ih =>
    intro e h; rw [denote] at h
    obtain ⟨a, ha⟩ := bind_ok_left h
    exact ih a ha
  | and hm _ ih | or hm _ ih =>
    intro e h; rw [denote] at h
    obtain ⟨es, ha⟩ := bind_ok_left h
    obtain ⟨x, hx⟩ := evalAll_ok_mem ha _ hm
    exact ih x hx
  | impliesL _ ih | iffL _ ih | xorL _ ih | untlL _ ih =>
    intro e h; rw [denote] at h
    obtain ⟨a, ha⟩ := bind_ok_left h
    exact ih a ha
  | impliesR _ ih | iffR _ ih | xorR _ ih | untlR _ ih =>
    intro e h; rw [denote] at h
    obtain ⟨a, ha⟩ := bind_ok_second h
    exact ih a ha

theorem eval_uses_ne {n : String} (hn : env n = none) {t : Syn} (ht : Mentions n t) : ∀ e, denote rev env t ≠ .ok e := by
  induction ht with
  | ref => intro e h; rw [denote, hn] at h; simp at h
  | not _ ih | always _ ih | eventually _ ih =>
    intro e h; rw [denote] at h
    obtain ⟨a, ha⟩ := bind_ok_left h
    exact ih a ha
  | and hm _ ih | or hm _ ih =>
    intro e h; rw [denote] at h
    obtain ⟨es, ha⟩ := bind_ok_left h
    obtain ⟨x, hx⟩ := evalAll_ok_mem ha _ hm
    exact ih x hx
  | impliesL _ ih | iffL _ ih | xorL _ ih | untlL _ ih =>
    intro e h; rw [denote] at h
    obtain ⟨a, ha⟩ := bind_ok_left h
    exact ih a ha
  | impliesR _ ih | iffR _ ih | xorR _ ih | untlR _ ih =>
    intro e h; rw [denote] at h
    obtain ⟨a, ha⟩ := bind_ok_second h
    exact ih a ha

/-! ## Commands -/

theorem evalSpec_append : ∀ (cs cs' : List Cmd) (sp : Specification K),
    evalSpec rev sp (cs ++ cs') = evalSpec rev sp cs >>= fun sp' => evalSpec rev sp' cs'
  | [], _, _ => rfl
  | c :: cs, cs', sp => by
    rw [List.cons_append, evalSpec, evalSpec, Outcome.bind_assoc']
    congr 1
    funext sp'
    exact evalSpec_append cs cs' sp'

theorem addNew_ok {m m' : List (String × Expr K)} {n : String} {e : Expr K} (h : addNew m n e = .ok m') :
    m' = m ++ [(n, e)] ∧ n ∉ m.map Prod.fst := by
  unfold addNew at h
  split at h
  · simp at h
  · rename_i hn; simp at h; exact ⟨h.symm, hn⟩

/-- What a command that returns has done. -/
theorem evalCmd_ok {sp sp' : Specification K} {c : Cmd} (h : evalCmd rev sp c = .ok sp') :
    ∃ e, denote rev (find sp.formulas) c.term = .ok e ∧
      ((∃ n t, c = .define n t ∧ sp'.formulas = sp.formulas ++ [(n, e)] ∧ sp'.assertions = sp.assertions ∧
          n ∉ sp.formulas.map Prod.fst) ∨
        ∃ n t, c = .assert n t ∧ sp'.formulas = sp.formulas ∧ sp'.assertions = sp.assertions ++ [(n, e)] ∧
          n ∉ sp.assertions.map Prod.fst) := by
  cases c with
  | define n t =>
    obtain ⟨e, h1, h2⟩ := Outcome.bind_eq_ok.1 h
    obtain ⟨m, h3, h4⟩ := Outcome.bind_eq_ok.1 h2
    simp at h4; subst h4
    obtain ⟨rfl, hn⟩ := addNew_ok h3
    exact ⟨e, h1, .inl ⟨n, t, rfl, rfl, rfl, hn⟩⟩
  | assert n t =>
    obtain ⟨e, h1, h2⟩ := Outcome.bind_eq_ok.1 h
    obtain ⟨m, h3, h4⟩ := Outcome.bind_eq_ok.1 h2
    simp at h4; subst h4
    obtain ⟨rfl, hn⟩ := addNew_ok h3
    exact ⟨e, h1, .inr ⟨n, t, rfl, rfl, rfl, hn⟩⟩

/-- The names after a specification. -/
theorem evalSpec_names : ∀ {cs : List Cmd} {sp sp' : Specification K}, evalSpec rev sp cs = .ok sp' →
    sp'.formulas.map Prod.fst = sp.formulas.map Prod.fst ++ defNames cs ∧
      sp'.assertions.map Prod.fst = sp.assertions.map Prod.fst ++ assertNames cs
  | [], sp, sp', h => by cases h; simp [defNames, assertNames]
  | c :: cs, sp, sp', h => by
    rw [evalSpec] at h
    obtain ⟨s1, h1, h2⟩ := Outcome.bind_eq_ok.1 h
    obtain ⟨i1, i2⟩ := evalSpec_names h2
    obtain ⟨e, -, ⟨n, t, rfl, hf, ha, -⟩ | ⟨n, t, rfl, hf, ha, -⟩⟩ := evalCmd_ok h1
    · rw [i1, i2, hf, ha]; simp [defNames, assertNames]
    · rw [i1, i2, hf, ha]; simp [defNames, assertNames]

/-- The names stay distinct. -/
theorem evalSpec_nodup : ∀ {cs : List Cmd} {sp sp' : Specification K}, evalSpec rev sp cs = .ok sp' →
    (sp.formulas.map Prod.fst).Nodup → (sp.assertions.map Prod.fst).Nodup →
    (sp'.formulas.map Prod.fst).Nodup ∧ (sp'.assertions.map Prod.fst).Nodup
  | [], sp, sp', h, hf, ha => by cases h; exact ⟨hf, ha⟩
  | c :: cs, sp, sp', h, hf, ha => by
    rw [evalSpec] at h
    obtain ⟨s1, h1, h2⟩ := Outcome.bind_eq_ok.1 h
    obtain ⟨e, -, ⟨n, t, rfl, e1, e2, hn⟩ | ⟨n, t, rfl, e1, e2, hn⟩⟩ := evalCmd_ok h1
    · refine evalSpec_nodup h2 ?_ (e2 ▸ ha)
      rw [e1, List.map_append, List.nodup_append]
      refine ⟨hf, by simp, ?_⟩
      rintro a ha b hb rfl
      simp at hb; subst hb; exact hn ha
    · refine evalSpec_nodup h2 (e1 ▸ hf) ?_
      rw [e2, List.map_append, List.nodup_append]
      refine ⟨ha, by simp, ?_⟩
      rintro a ha b hb rfl
      simp at hb; subst hb; exact hn ha

/-- What was there stays. -/
theorem evalSpec_prefix : ∀ {cs : List Cmd} {sp sp' : Specification K}, evalSpec rev sp cs = .ok sp' →
    sp.formulas <+: sp'.formulas ∧ sp.assertions <+: sp'.assertions
  | [], sp, sp', h => by cases h; exact ⟨List.prefix_refl _, List.prefix_refl _⟩
  | c :: cs, sp, sp', h => by
    rw [evalSpec] at h
    obtain ⟨s1, h1, h2⟩ := Outcome.bind_eq_ok.1 h
    obtain ⟨i1, i2⟩ := evalSpec_prefix h2
    obtain ⟨e, -, ⟨n, t, rfl, hf, ha, -⟩ | ⟨n, t, rfl, hf, ha, -⟩⟩ := evalCmd_ok h1
    · rw [hf] at i1; rw [ha] at i2
      exact ⟨(List.prefix_append _ _).trans i1, i2⟩
    · rw [hf] at i1; rw [ha] at i2
      exact ⟨i1, (List.prefix_append _ _).trans i2⟩

theorem find_none {m : List (String × Expr K)} {n : String} (h : n ∉ m.map Prod.fst) : find m n = none := by
  unfold find
  rw [Option.map_eq_none_iff, List.find?_eq_none]
  intro p hp e
  exact h (List.mem_map.2 ⟨p, hp, by simpa using e⟩)

theorem find_prefix {m m' : List (String × Expr K)} (h : m <+: m') {n : String} {e : Expr K}
    (hf : find m n = some e) : find m' n = some e := by
  obtain ⟨k, rfl⟩ := h
  unfold find at *
  rw [Option.map_eq_some_iff] at hf ⊢
  obtain ⟨p, h1, h2⟩ := hf
  exact ⟨p, by rw [List.find?_append, h1]; rfl, h2⟩

/-- If the term of a command cannot be evaluated after the commands before it, the specification does not
return. -/
theorem evalSpec_cmd_ne {cs cs' : List Cmd} {c : Cmd} {sp : Specification K}
    (h : ∀ sp', evalSpec rev sp cs = .ok sp' → ∀ e, denote rev (find sp'.formulas) c.term ≠ .ok e) :
    ∀ r, evalSpec rev sp (cs ++ c :: cs') ≠ .ok r := by
  intro r e
  rw [evalSpec_append] at e
  obtain ⟨sp', h1, h2⟩ := Outcome.bind_eq_ok.1 e
  rw [evalSpec] at h2
  obtain ⟨s2, h3, -⟩ := Outcome.bind_eq_ok.1 h2
  obtain ⟨x, hx, -⟩ := evalCmd_ok h3
  exact h sp' h1 x hx

end Verif
