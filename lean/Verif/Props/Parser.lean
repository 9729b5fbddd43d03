import Verif.Proofs.ParserMeaning
import Verif.Proofs.ParserClosed
import Verif.Proofs.ParserDef
import Verif.Props.Ast
import Verif.Model.Exact

/-!
# The parser: C52 - C58
-/

set_option linter.unusedSectionVars false

namespace Verif
open Spec Rule

section parser
variable {K : Type} [Field K] [LinearOrder K] [IsStrictOrderedRing K] [Arith K] [Strtod K]

/-! ## C52 -/

/-- **C52.** For every input the parser returns, throws, or (in debug builds only) fails an assertion; the
result does not depend on the fuel of the model, if it exceeds the length of the input.  In particular
there is no infinite loop and no undefined behaviour. -/
theorem C52_terminates (nd : Bool) (input : List Char) :
    ∃ r : Outcome (Specification K), (∀ fuel, input.length < fuel → fromString nd fuel input = r) ∧
      ((∃ sp, r = .ok sp) ∨ (∃ e, r = .throw e) ∨ (nd = false ∧ r = .abort)) := by
  refine ⟨fromString nd (input.length + 1) input, fun fuel h => fromString_fuel nd (by omega) (by omega), ?_⟩
  have h1 := fromString_ne_diverge (K := K) nd (input := input) (fuel := input.length + 1) (by omega)
  obtain ⟨h2, h3⟩ := fromString_tame (K := K) nd (input.length + 1) input
  cases h : fromString (K := K) nd (input.length + 1) input with
  | ok sp => exact .inl ⟨sp, rfl⟩
  | throw e => exact .inr (.inl ⟨e, rfl⟩)
  | abort =>
    cases nd with
    | false => exact .inr (.inr ⟨rfl, rfl⟩)
    | true => exact (h3 rfl h).elim
  | ub u => exact (h2 u h).elim
  | diverge => exact (h1 h).elim

/-! ## C53 -/

/-- **C53.** Every text of a specification without predicates of the form `(op constant signal)` is parsed
to what the specification denotes. -/
theorem C53_roundtrip (nd : Bool) {cs : List Cmd} (hok : ∀ c ∈ cs, CmdOk c) (hrev : ∀ c ∈ cs, NoRev c.term)
    {w : List Char} (h : Text cs w) {fuel : Nat} (hf : w.length < fuel) :
    fromString (K := K) nd fuel w = evalSpec reversed {} cs := by
  rw [fromString_text hok h nd hf]
  exact evalSpec_norev cs {} hrev

/-- **C53.** Every specification has a text. -/
theorem C53_text_exists (cs : List Cmd) : ∃ w, Text cs w := ⟨_, render_text cs⟩

/-! ## C54 -/

/-- **C54.** In everything the parser returns, And and Or have at least two operands, and the intervals are
`[0, inf)`. -/
theorem C54_wellformed {nd : Bool} {fuel : Nat} {input : List Char} {sp : Specification K}
    (h : fromString nd fuel input = .ok sp) :
    (∀ p ∈ sp.formulas, Arity p.2 ∧ Unbounded p.2) ∧ ∀ p ∈ sp.assertions, Arity p.2 ∧ Unbounded p.2 := by
  obtain ⟨h1, h2⟩ := parsed_all unbounded_closed h
  obtain ⟨h3, h4⟩ := parsed_all built_closed h
  exact ⟨fun p hp => ⟨C47_arity _ (h3 p hp), h1 p hp⟩, fun p hp => ⟨C47_arity _ (h4 p hp), h2 p hp⟩⟩

/-- **C54.** Everything the parser returns can be built by the public interface. -/
theorem C54_built {nd : Bool} {fuel : Nat} {input : List Char} {sp : Specification K}
    (h : fromString nd fuel input = .ok sp) :
    (∀ p ∈ sp.formulas, Built p.2) ∧ ∀ p ∈ sp.assertions, Built p.2 := parsed_all built_closed h

/-! ## C55 -/

/-- **C55.** Whatever is accepted has distinct names. -/
theorem C55_distinct {nd : Bool} {fuel : Nat} {input : List Char} {sp : Specification K}
    (h : fromString nd fuel input = .ok sp) :
    (sp.formulas.map Prod.fst).Nodup ∧ (sp.assertions.map Prod.fst).Nodup := by
  obtain ⟨st, h1, rfl⟩ := fromString_inv (DistinctKeys_invariant (nd := nd)) ⟨by simp, by simp⟩ h
  exact h1

/-- **C55.** A text that defines a formula or an assertion twice is rejected by an exception. -/
theorem C55_rejected (nd : Bool) {cs : List Cmd} (hok : ∀ c ∈ cs, CmdOk c)
    (hdup : ¬ (defNames cs).Nodup ∨ ¬ (assertNames cs).Nodup) {w : List Char} (h : Text cs w) {fuel : Nat}
    (hf : w.length < fuel) : ∃ e, fromString (K := K) nd fuel w = .throw e := by
  rw [fromString_text hok h nd hf]
  refine throws_of fun r hr => ?_
  obtain ⟨n1, n2⟩ := evalSpec_names hr
  obtain ⟨d1, d2⟩ := evalSpec_nodup hr (by simp) (by simp)
  rw [n1] at d1; rw [n2] at d2
  rcases hdup with hd | hd
  · exact hd (by simpa using d1)
  · exact hd (by simpa using d2)

/-- **C55.** Definitions are never changed by later commands: if a specification is accepted, so is every
initial part, and what it defines is still there. -/
theorem C55_kept (nd nd' : Bool) {cs cs' : List Cmd} (hok : ∀ c ∈ cs ++ cs', CmdOk c) {w w' : List Char}
    (h : Text cs w) (h' : Text (cs ++ cs') w') {fuel fuel' : Nat} (hf : w.length < fuel) (hf' : w'.length < fuel')
    {sp' : Specification K} (e : fromString nd' fuel' w' = .ok sp') :
    ∃ sp, fromString nd fuel w = .ok sp ∧ sp.formulas <+: sp'.formulas ∧ sp.assertions <+: sp'.assertions ∧
      ∀ n e, find sp.formulas n = some e → find sp'.formulas n = some e := by
  rw [fromString_text hok h' nd' hf', evalSpec_append] at e
  obtain ⟨sp, h1, h2⟩ := Outcome.bind_eq_ok.1 e
  obtain ⟨p1, p2⟩ := evalSpec_prefix h2
  refine ⟨sp, ?_, p1, p2, fun n e hn => find_prefix p1 hn⟩
  rw [fromString_text (fun c hc => hok c (by simp [hc])) h nd hf]
  exact h1

/-! ## C56 -/

/-- **C56.** A text in which a formula is used that was not defined before makes the parser throw. -/
theorem C56_undefined (nd : Bool) {cs cs' : List Cmd} {c : Cmd} (hok : ∀ x ∈ cs ++ c :: cs', CmdOk x)
    {n : String} (hu : Mentions n c.term) (hn : n ∉ defNames cs) {w : List Char} (h : Text (cs ++ c :: cs') w)
    {fuel : Nat} (hf : w.length < fuel) : ∃ e, fromString (K := K) nd fuel w = .throw e := by
  rw [fromString_text hok h nd hf]
  refine throws_of (evalSpec_cmd_ne fun sp' hsp => eval_uses_ne (find_none ?_) hu)
  obtain ⟨n1, -⟩ := evalSpec_names hsp
  rw [n1]
  simpa using hn

/-! ## C57 -/

/-- **C57 is false.** The mirrored predicate is not obtained (in either build). -/
theorem C57_refuted (nd : Bool) :
    ¬ ∀ (cs : List Cmd) (w : List Char) (fuel : Nat), (∀ c ∈ cs, CmdOk c) → Text cs w → w.length < fuel →
      fromString (K := K) nd fuel w = evalSpec reversed {} cs := by
  intro H
  have hn : IsName "p" := ⟨'p', [], by decide, by decide, by simp⟩
  have hx : IsName "x" := ⟨'x', [], by decide, by decide, by simp⟩
  let cs : List Cmd := [.define "p" (.rcmp .GT (.int ⟨0, []⟩) "x")]
  have hok : ∀ c ∈ cs, CmdOk c := by
    intro c hc
    simp only [cs, List.mem_singleton] at hc
    subst hc; exact .define hn (.rcmp hx)
  have h1 := H cs _ _ hok (render_text cs) (Nat.lt_succ_self _)
  rw [fromString_text hok (render_text cs) nd (Nat.lt_succ_self _)] at h1
  have hv : (NumLit.int ⟨0, []⟩).eval (K := K) = .ok (Arith.rnd 0) := by
    simp [NumLit.eval, Digits.val, Digits.all]
  simp only [cs, evalSpec, evalCmd, denote, hv, Outcome.bind_ok, revThrow, reversed, Outcome.bind_throw,
    addNew] at h1
  simp at h1

/-- **C57**, what happens instead: a text with a predicate of the form `(op constant signal)` is always
rejected by an exception; it is never parsed to something else. -/
theorem C57_rejected_partial (nd : Bool) {cs : List Cmd} (hok : ∀ c ∈ cs, CmdOk c)
    (hrev : ∃ c ∈ cs, HasRev c.term) {w : List Char} (h : Text cs w) {fuel : Nat} (hf : w.length < fuel) :
    ∃ e, fromString (K := K) nd fuel w = .throw e := by
  rw [fromString_text hok h nd hf]
  obtain ⟨c, hc, hr⟩ := hrev
  obtain ⟨cs1, cs2, rfl⟩ := List.append_of_mem hc
  exact throws_of (evalSpec_cmd_ne fun sp' _ => eval_rev_ne hr)

/-- **C57**, the exception: `bad_optional_access`, for every comparison, constant in range and signal. -/
theorem C57_exception_partial (nd : Bool) (op : ComparisonOp) (c : NumLit) {x n : String} (hx : IsName x)
    (hn : IsName n) {d : D K} (hd : c.eval = .ok d) {w : List Char}
    (h : Text [.define n (.rcmp op c x)] w) {fuel : Nat} (hf : w.length < fuel) :
    fromString (K := K) nd fuel w = .throw .badOptionalAccess := by
  rw [fromString_text (by simp; exact .define hn (.rcmp hx)) h nd hf]
  simp [evalSpec, evalCmd, denote, hd, revThrow]

/-! ## C58 -/

/-- The tokens of a definition whose term is given as tokens. -/
def defToks (n : String) (tk : List Tok) : List Tok := .lp :: .word "define-formula" :: .word n :: (tk ++ [.rp])

theorem tx_def {cs : List Cmd} (hok : ∀ c ∈ cs, CmdOk c) {n : String} (hn : IsName n) {tk : List Tok}
    (htk : ∀ t ∈ tk, TokOk t) {w : List Char} (h : Txt (cs.flatMap Cmd.toks ++ defToks n tk) w) :
    TX (cs.flatMap Cmd.toks ++ defToks n tk) w := by
  refine ⟨h, fun t ht => ?_⟩
  rcases List.mem_append.1 ht with ht | ht
  · obtain ⟨c, hc, ht⟩ := List.mem_flatMap.1 ht
    exact cmd_toks_ok (hok c hc) t ht
  · simp only [defToks, List.mem_cons, List.mem_append, List.not_mem_nil, or_false] at ht
    rcases ht with rfl | rfl | rfl | ht | rfl
    · trivial
    · exact ⟨'d', "efine-formula".toList, by decide, by decide⟩
    · exact tokOk_name hn
    · exact htk t ht
    · trivial

theorem inner_ok {t : Syn} (h : SynOk t) (hc : compound t = true) : ∀ x ∈ inner t, TokOk x := fun x hx =>
  toks_ok t h x (by rw [toks_compound hc]; simp [hx])

/-- **C58.** Between the parentheses of a term there may be several expressions (none but the last of them
an `and` or `or`); if they are all meaningful, the last one is the value of the term, in debug builds
too: the others do not contribute to the result. -/
theorem C58_last_partial (nd : Bool) {cs : List Cmd} (hok : ∀ c ∈ cs, CmdOk c) {n : String} (hn : IsName n)
    {l : List Syn} (hl : ∀ x ∈ l, SynOk x ∧ compound x = true ∧ fixed x = true) {t : Syn} (ht : SynOk t)
    (hc : compound t = true) {sp : Specification K} (hsp : evalSpec revThrow {} cs = .ok sp)
    (hgood : ∀ x ∈ l, ∃ e, denote revThrow (find sp.formulas) x = .ok e) {w w' : List Char}
    (h : Txt (cs.flatMap Cmd.toks ++ defToks n (.lp :: (l.flatMap inner ++ (inner t ++ [.rp])))) w)
    (h' : Text (cs ++ [.define n t]) w') {fuel fuel' : Nat} (hf : w.length < fuel) (hf' : w'.length < fuel') :
    fromString (K := K) nd fuel w = fromString nd fuel' w' := by
  have htk : ∀ x ∈ Tok.lp :: (l.flatMap inner ++ (inner t ++ [Tok.rp])), TokOk x := by
    intro x hx
    simp only [List.mem_cons, List.mem_append, List.not_mem_nil, or_false] at hx
    rcases hx with rfl | hx | hx | rfl
    · trivial
    · obtain ⟨y, hy, hx⟩ := List.mem_flatMap.1 hx
      exact inner_ok (hl y hy).1 (hl y hy).2.1 x hx
    · exact inner_ok ht hc x hx
    · trivial
  rw [define_last nd fuel hok hn (many_reads (K := K) ht hc hl) w (tx_def hok hn htk h) hf]
  have hok' : ∀ c ∈ cs ++ [.define n t], CmdOk c := by
    intro c hc
    rcases List.mem_append.1 hc with hc | hc
    · exact hok c hc
    · simp at hc; subst hc; exact .define hn ht
  rw [fromString_text hok' h' nd hf', evalSpec_append, hsp]
  have hall : ∃ es, evalAll revThrow (find sp.formulas) l = .ok es := by
    clear hl h htk
    induction l with
    | nil => exact ⟨[], by rw [evalAll]⟩
    | cons x l ih =>
      obtain ⟨e, he⟩ := hgood x (by simp)
      obtain ⟨es, hes⟩ := ih fun y hy => hgood y (by simp [hy])
      exact ⟨e :: es, by rw [evalAll, he, hes]; rfl⟩
  obtain ⟨es, hes⟩ := hall
  simp only [Outcome.bind_ok, envOf, hes, evalSpec, evalCmd]
  cases denote revThrow (find sp.formulas) t with
  | ok e =>
    simp only [Outcome.bind_ok]
    cases addNew sp.formulas n e <;> rfl
  | _ => rfl

/-- **C58.** A term in redundant parentheses is rejected by an exception, though it is accepted without
them. -/
theorem C58_parens_partial (nd : Bool) {cs : List Cmd} (hok : ∀ c ∈ cs, CmdOk c) {n : String} (hn : IsName n)
    {t : Syn} (ht : SynOk t) (hr : ∀ r, t = .ref r → r ∉ operators) {w : List Char}
    (h : Txt (cs.flatMap Cmd.toks ++ defToks n (.lp :: (toks t ++ [.rp]))) w) {fuel : Nat}
    (hf : w.length < fuel) : ∃ e, fromString (K := K) nd fuel w = .throw e := by
  have htk : ∀ x ∈ Tok.lp :: (toks t ++ [Tok.rp]), TokOk x := by
    intro x hx
    simp only [List.mem_cons, List.mem_append, List.not_mem_nil, or_false] at hx
    rcases hx with rfl | hx | rfl
    · trivial
    · exact toks_ok t ht x hx
    · trivial
  rw [define_last nd fuel hok hn (redundant_reads (K := K) ht hr) w (tx_def hok hn htk h) hf]
  rcases evalSpec_fine (K := K) revThrow_fine cs {} with ⟨sp, hsp⟩ | ⟨e, he⟩
  · rw [hsp]
    rcases eval_fine (env := find sp.formulas) revThrow_fine t with ⟨x, hx⟩ | ⟨e, he⟩
    · exact ⟨.logicError, by simp only [Outcome.bind_ok, envOf, hx, Outcome.bind_throw]⟩
    · exact ⟨e, by simp only [Outcome.bind_ok, envOf, he, Outcome.bind_throw]⟩
  · exact ⟨e, by rw [he]; rfl⟩

end parser

/-! ## Concrete cases -/

/-- The examples need no underflow. -/
instance : Strtod ℚ := ⟨fun _ => false⟩

theorem name_p : IsName "p" := ⟨'p', [], by decide, by decide, by simp⟩
theorem name_q : IsName "q" := ⟨'q', [], by decide, by decide, by simp⟩
theorem name_x : IsName "x" := ⟨'x', [], by decide, by decide, by simp⟩
theorem name_a : IsName "a1" := ⟨'a', ['1'], by decide, by decide, by decide⟩

/-- `1.5` -/
def litA : NumLit := .dec ⟨1, []⟩ ⟨5, []⟩ none

theorem litA_eval : litA.eval = .ok (D.fin (3 / 2 : ℚ)) := by
  have h : (litA.val : ℚ) = 3 / 2 := by
    have h5 : ((5 : Fin 10) : Nat) = 5 := rfl
    simp [litA, NumLit.val, Digits.val, Digits.all, h5]
    norm_num
  have : litA.eval (K := ℚ) = if (Arith.rnd (litA.val : ℚ) : D ℚ).isinf || Strtod.underflow (litA.val : ℚ) then
      .throw .outOfRange else .ok (Arith.rnd (litA.val : ℚ)) := rfl
  rw [this, h]
  rfl

/-- A specification with two formulas, one used by the other, and an assertion. -/
def exSpec : List Cmd :=
  [.define "p" (.cmp .LT "x" litA), .define "q" (.always (.or [.ref "p", .not (.ref "p")])), .assert "a1" (.ref "q")]

theorem exSpec_ok : ∀ c ∈ exSpec, CmdOk c := by
  intro c hc
  have hp : SynOk (.ref "p") := .ref name_p (by decide) (by decide)
  simp only [exSpec, List.mem_cons, List.not_mem_nil, or_false] at hc
  rcases hc with rfl | rfl | rfl
  · exact .define name_p (.cmp name_x)
  · exact .define name_q (.always (.or (by simp [hp, SynOk.not hp])))
  · exact .assert name_a (.ref name_q (by decide) (by decide))

theorem exSpec_norev : ∀ c ∈ exSpec, NoRev c.term := by
  intro c hc
  simp only [exSpec, List.mem_cons, List.not_mem_nil, or_false] at hc
  rcases hc with rfl | rfl | rfl
  · exact .cmp
  · exact .always (.or (by simp [NoRev.ref, NoRev.not NoRev.ref]))
  · exact .ref

/-- A text of it. -/
def exText : List Char :=
  "( define-formula p ( < x 1.5 ) ) ( define-formula q ( always ( or p ( not p ) ) ) ) ( assert a1 q ) ".toList

theorem exText_eq : render (exSpec.flatMap Cmd.toks) = exText := by
  simp only [exSpec, List.flatMap_cons, List.flatMap_nil, Cmd.toks, toks, inner, toksAll]
  decide

-- Layout: comments, tabs, no spaces beside parentheses.
example : Text [.assert "a1" .tru] ("; c\n".toList ++ "(assert\ta1 true);end".toList) := by
  refine Text.mk (.comment (body := " c".toList) (w := []) (by decide) .nil) ?_
  simp only [List.flatMap_cons, List.flatMap_nil, Cmd.toks, toks]
  exact .cons (t := .lp) (t' := .word "assert") (g := []) .nil (by decide)
    (.cons (t := .word "assert") (t' := .word "a1") (g := ['\t']) (.space (by simp [IsSpace]) .nil) (by decide)
    (.cons (t := .word "a1") (t' := .word "true") (g := [' ']) (.space (by simp [IsSpace]) .nil) (by decide)
    (.cons (t := .word "true") (t' := .rp) (g := []) .nil (by decide)
    (.last (t := .rp) (g := ";end".toList) (.open (w := []) (body := "end".toList) .nil (by decide))))))

/-- `x < 1.5` -/
def exP : Expr ℚ := .pred "x" .LT (D.fin (3 / 2))

/-- What it denotes. -/
def exMeaning : Specification ℚ :=
  ⟨[("p", exP), ("q", .Always (.or [exP, .not exP]))], [("a1", .Always (.or [exP, .not exP]))]⟩

theorem exSpec_meaning : evalSpec reversed {} exSpec = .ok exMeaning := by
  simp only [exSpec, evalSpec, evalCmd, denote, litA_eval, evalAll]
  rfl

/-- C53 for this specification: the text is parsed to the formulas and the assertion.  (Also the hypothesis of
C54 and C55: an accepted text.) -/
theorem exText_parsed (nd : Bool) : fromString nd 1000 exText = .ok exMeaning := by
  have h := render_text exSpec
  rw [exText_eq] at h
  rw [C53_roundtrip nd exSpec_ok exSpec_norev h (by decide), exSpec_meaning]

-- C54 says something about it.
example : Arity (.Always (.or [exP, .not exP])) ∧ Unbounded (.Always (.or [exP, .not exP])) :=
  (C54_wellformed (exText_parsed true)).1 ("q", .Always (.or [exP, .not exP])) (by simp [exMeaning])

-- C55: defining "p" again is rejected; "q" is still what it was if another formula is added.
example (nd : Bool) : ∃ e, fromString (K := ℚ) nd 1000 "( assert p true ) ( define-formula p true ) ( define-formula p false ) ".toList
    = .throw e := by
  have h := render_text [.assert "p" .tru, .define "p" .tru, .define "p" .fls]
  have e : render (List.flatMap Cmd.toks [.assert "p" .tru, .define "p" .tru, .define "p" .fls]) =
      "( assert p true ) ( define-formula p true ) ( define-formula p false ) ".toList := by
    simp only [List.flatMap_cons, List.flatMap_nil, Cmd.toks, toks]
    decide
  rw [e] at h
  refine C55_rejected nd ?_ (.inl (by decide)) h (by decide)
  simp only [List.mem_cons, List.not_mem_nil, or_false]
  rintro c (rfl | rfl | rfl)
  · exact .assert name_p .tru
  · exact .define name_p .tru
  · exact .define name_p .fls

-- C56: "p" is used in its own definition.
example (nd : Bool) : ∃ e, fromString (K := ℚ) nd 1000 "( define-formula p ( not p ) ) ".toList = .throw e := by
  have h := render_text [.define "p" (.not (.ref "p"))]
  have e : render (List.flatMap Cmd.toks [.define "p" (.not (.ref "p"))]) =
      "( define-formula p ( not p ) ) ".toList := by
    simp only [List.flatMap_cons, List.flatMap_nil, Cmd.toks, toks]
    decide
  rw [e] at h
  refine C56_undefined nd (cs := []) (cs' := []) ?_ (n := "p") (.not .ref) (by simp [defNames]) h (by decide)
  simp only [List.nil_append, List.mem_cons, List.not_mem_nil, or_false]
  rintro c rfl
  exact .define name_p (.not (.ref name_p (by decide) (by decide)))

-- C57: `1.5 > x`.
example (nd : Bool) : fromString (K := ℚ) nd 1000 "( define-formula p ( > 1.5 x ) ) ".toList =
    .throw .badOptionalAccess := by
  have h := render_text [.define "p" (.rcmp .GT litA "x")]
  have e : render (List.flatMap Cmd.toks [.define "p" (.rcmp .GT litA "x")]) =
      "( define-formula p ( > 1.5 x ) ) ".toList := by
    simp only [List.flatMap_cons, List.flatMap_nil, Cmd.toks, toks, inner]
    decide
  rw [e] at h
  exact C57_exception_partial nd _ _ name_x name_p litA_eval h (by decide)

/-! ### C58 is false -/

/-- The definition of a formula before. -/
def defP : List Cmd := [.define "p" .tru]

theorem defP_ok : ∀ c ∈ defP, CmdOk c := by
  simp only [defP, List.mem_cons, List.not_mem_nil, or_false]
  rintro c rfl
  exact .define name_p .tru

theorem ref_p : SynOk (.ref "p") := .ref name_p (by decide) (by decide)

/-- **C58 is false**, first part: `( define-formula q ( always p not p ) )` is accepted, in both builds,
and means `( define-formula q ( not p ) )`. -/
theorem C58_refuted_one (nd : Bool) :
    fromString (K := ℚ) nd 1000 "( define-formula p true ) ( define-formula q ( always p not p ) ) ".toList =
      .ok ⟨[("p", .const true), ("q", .const false)], []⟩ := by
  have h : Txt (defP.flatMap Cmd.toks ++
      defToks "q" (.lp :: ([Syn.always (.ref "p")].flatMap inner ++ (inner (.not (.ref "p")) ++ [.rp]))))
      (render _) := render_txt _
  have e : render (defP.flatMap Cmd.toks ++
      defToks "q" (.lp :: ([Syn.always (.ref "p")].flatMap inner ++ (inner (.not (.ref "p")) ++ [.rp])))) =
      "( define-formula p true ) ( define-formula q ( always p not p ) ) ".toList := by
    simp only [defP, List.flatMap_cons, List.flatMap_nil, Cmd.toks, toks, inner, defToks]
    decide
  rw [e] at h
  rw [C58_last_partial nd defP_ok name_q (l := [.always (.ref "p")]) (t := .not (.ref "p"))
    (sp := ⟨[("p", .const true)], []⟩) (by
      simp only [List.mem_cons, List.not_mem_nil, or_false]
      rintro x rfl
      exact ⟨.always ref_p, rfl, rfl⟩) (.not ref_p) rfl (by
      simp only [defP, evalSpec, evalCmd, denote]; rfl) (by
      simp only [List.mem_cons, List.not_mem_nil, or_false]
      rintro x rfl
      exact ⟨.Always (.const true), by simp only [denote]; rfl⟩) h (render_text _) (by decide)
      (Nat.lt_succ_self _)]
  have hok : ∀ c ∈ defP ++ [.define "q" (.not (.ref "p"))], CmdOk c := by
    intro c hc
    rcases List.mem_append.1 hc with hc | hc
    · exact defP_ok c hc
    · simp at hc; subst hc; exact .define name_q (.not ref_p)
  rw [fromString_text hok (render_text _) nd (Nat.lt_succ_self _)]
  simp only [defP, List.cons_append, List.nil_append, evalSpec, evalCmd, denote]
  rfl

/-- **C58 is false**, second part: `( define-formula q ( p ) )` is rejected, but `( define-formula q p )` is
accepted. -/
theorem C58_refuted_parens (nd : Bool) :
    (∃ e, fromString (K := ℚ) nd 1000 "( define-formula p true ) ( define-formula q ( p ) ) ".toList = .throw e) ∧
    fromString (K := ℚ) nd 1000 "( define-formula p true ) ( define-formula q p ) ".toList =
      .ok ⟨[("p", .const true), ("q", .const true)], []⟩ := by
  constructor
  · have h : Txt (defP.flatMap Cmd.toks ++ defToks "q" (.lp :: (toks (.ref "p") ++ [.rp]))) (render _) :=
      render_txt _
    have e : render (defP.flatMap Cmd.toks ++ defToks "q" (.lp :: (toks (.ref "p") ++ [.rp]))) =
        "( define-formula p true ) ( define-formula q ( p ) ) ".toList := by
      simp only [defP, List.flatMap_cons, List.flatMap_nil, Cmd.toks, toks, defToks]
      decide
    rw [e] at h
    exact C58_parens_partial nd defP_ok name_q ref_p (by rintro r ⟨⟩; decide) h (by decide)
  · have hok : ∀ c ∈ defP ++ [.define "q" (.ref "p")], CmdOk c := by
      intro c hc
      rcases List.mem_append.1 hc with hc | hc
      · exact defP_ok c hc
      · simp at hc; subst hc; exact .define name_q ref_p
    have h := render_text (defP ++ [.define "q" (.ref "p")])
    have e : render ((defP ++ [Cmd.define "q" (.ref "p")]).flatMap Cmd.toks) =
        "( define-formula p true ) ( define-formula q p ) ".toList := by
      simp only [defP, List.cons_append, List.nil_append, List.flatMap_cons, List.flatMap_nil, Cmd.toks, toks]
      decide
    rw [e] at h
    rw [fromString_text hok h nd (by decide)]
    simp only [defP, List.cons_append, List.nil_append, evalSpec, evalCmd, denote]
    rfl

end Verif
