import Verif.Proofs.Define
import Verif.Props.Grammar
import Verif.Props.ParserErrors

/-!
# Definitions in a text: C96
-/

set_option linter.unusedSectionVars false

namespace Verif
open Spec Rule

section any
variable {K : Type} [Field K] [LinearOrder K] [IsStrictOrderedRing K] [Arith K] [Strtod K]

/-- **C96.** Two accepted texts without a common name can be put together, with a line feed between them: the
result has the definitions and the assertions of both. -/
theorem C96_concatenate (nd : Bool) (w w' : List Char) (sp sp' : Specification K) {fuel : Nat}
    (hf : (w ++ '\n' :: w').length < fuel) (h : fromString nd fuel w = .ok sp) (h' : fromString nd fuel w' = .ok sp')
    (hd : ∀ n ∈ sp'.formulas.map Prod.fst, n ∉ sp.formulas.map Prod.fst)
    (ha : ∀ n ∈ sp'.assertions.map Prod.fst, n ∉ sp.assertions.map Prod.fst) :
    fromString nd fuel (w ++ '\n' :: w') = .ok ⟨sp.formulas ++ sp'.formulas, sp.assertions ++ sp'.assertions⟩ := by
  simp only [List.length_append, List.length_cons] at hf
  obtain ⟨gs, g1, g2, g3⟩ := (C82_exact nd (by omega) sp).1 h
  obtain ⟨gs', g1', g2', g3'⟩ := (C82_exact nd (by omega) sp').1 h'
  rw [C82_meaning nd (gs := gs ++ gs') (fun cs hcs => (List.mem_append.1 hcs).elim (g1 cs) (g1' cs)) (rawText_nl g2 g2')
    (by simp only [List.length_append, List.length_cons]; omega), List.flatten_append, evalRaws_append, g3, Outcome.bind_ok]
  have := evalRaws_after sp g3' hd ha
  simpa using this

/-- **C96.** If there is a common name (of two formulas, or of two assertions), the text is rejected. -/
theorem C96_common_name (nd : Bool) (w w' : List Char) (sp sp' : Specification K) {fuel : Nat}
    (hf : (w ++ '\n' :: w').length < fuel) (h : fromString nd fuel w = .ok sp) (h' : fromString nd fuel w' = .ok sp')
    (hc : (∃ n ∈ sp'.formulas.map Prod.fst, n ∈ sp.formulas.map Prod.fst) ∨
      ∃ n ∈ sp'.assertions.map Prod.fst, n ∈ sp.assertions.map Prod.fst) :
    fromString (K := K) nd fuel (w ++ '\n' :: w') = .throw .parseError := by
  simp only [List.length_append, List.length_cons] at hf
  obtain ⟨gs, g1, g2, g3⟩ := (C82_exact nd (by omega) sp).1 h
  obtain ⟨gs', g1', g2', g3'⟩ := (C82_exact nd (by omega) sp').1 h'
  rw [C82_meaning nd (gs := gs ++ gs') (fun cs hcs => (List.mem_append.1 hcs).elim (g1 cs) (g1' cs)) (rawText_nl g2 g2')
    (by simp only [List.length_append, List.length_cons]; omega), List.flatten_append, evalRaws_append, g3, Outcome.bind_ok]
  have := evalRaws_clash sp g3' (by simp) (by simp) hc
  simpa using this

/-- **C96.** A formula can be replaced by its definition: if in the commands after the definition of `n` the term
`t` is written for `n`, the debug build has the same outcome (the same specification, or the same failure). -/
theorem C96_inline {n : String} {t : Raw} {pre post : List RawCmd} {gs gs' : List (List RawCmd)}
    (hok : ∀ cs ∈ gs, ∀ c ∈ cs, RawCmdOk c) (hok' : ∀ cs ∈ gs', ∀ c ∈ cs, RawCmdOk c)
    (hgs : gs.flatten = pre ++ .define n t :: post) (hgs' : gs'.flatten = pre ++ .define n t :: post.map (RawCmd.inline n t))
    {w w' : List Char} (hw : RawText gs w) (hw' : RawText gs' w') {fuel : Nat} (hf : w.length < fuel)
    (hf' : w'.length < fuel) : fromString (K := K) false fuel w' = fromString false fuel w := by
  rw [C82_meaning false hok hw hf, C82_meaning false hok' hw' hf', hgs, hgs', evalRaws_append, evalRaws_append]
  congr 1
  funext sp
  rw [evalRaws, evalRaws]
  cases h : (RawCmd.define n t).eval false sp with
  | ok sp' =>
    rw [Outcome.bind_ok, Outcome.bind_ok]
    obtain ⟨es, e, h1, h2, h3⟩ := rawCmd_ok h
    have := theTerm_debug h2
    subst this
    rcases h3 with ⟨m, hm, rfl, hmm⟩ | ⟨m, hm, -⟩
    · simp only [RawCmd.define.injEq] at hm
      rw [← hm.1] at hmm ⊢
      exact inline_evals post _ (find_new hmm) (rawEval_mono false h1 fun _ _ h => find_append_left h)
    · cases hm
  | _ => rfl

/-- **C96.** In the release build, for every text that the debug build accepts. -/
theorem C96_inline_release {n : String} {t : Raw} {pre post : List RawCmd} {gs gs' : List (List RawCmd)}
    (hok : ∀ cs ∈ gs, ∀ c ∈ cs, RawCmdOk c) (hok' : ∀ cs ∈ gs', ∀ c ∈ cs, RawCmdOk c)
    (hgs : gs.flatten = pre ++ .define n t :: post) (hgs' : gs'.flatten = pre ++ .define n t :: post.map (RawCmd.inline n t))
    {w w' : List Char} (hw : RawText gs w) (hw' : RawText gs' w') {fuel : Nat} (hf : w.length < fuel)
    (hf' : w'.length < fuel) (sp : Specification K) (h : fromString false fuel w = .ok sp) :
    fromString true fuel w' = .ok sp ∧ fromString true fuel w = .ok sp :=
  ⟨C94_accepted_partial fuel w' sp ((C96_inline hok hok' hgs hgs' hw hw' hf hf').trans h), C94_accepted_partial fuel w sp h⟩

/-- **C96.** The definition of a formula that is not used afterwards can be left out: the assertions and the other
formulas stay the same. -/
theorem C96_unused (nd : Bool) {n : String} {t : Raw} {pre post : List RawCmd} {gs gs' : List (List RawCmd)}
    (hok : ∀ cs ∈ gs, ∀ c ∈ cs, RawCmdOk c) (hok' : ∀ cs ∈ gs', ∀ c ∈ cs, RawCmdOk c)
    (hgs : gs.flatten = pre ++ .define n t :: post) (hgs' : gs'.flatten = pre ++ post)
    (hn : ∀ c ∈ post, n ∉ c.term.names)
    {w w' : List Char} (hw : RawText gs w) (hw' : RawText gs' w') {fuel : Nat} (hf : w.length < fuel)
    (hf' : w'.length < fuel) (sp : Specification K) (h : fromString nd fuel w = .ok sp) :
    ∃ l l' e, sp.formulas = l ++ (n, e) :: l' ∧ fromString nd fuel w' = .ok ⟨l ++ l', sp.assertions⟩ := by
  rw [C82_meaning nd hok hw hf, hgs, evalRaws_append] at h
  rw [C82_meaning nd hok' hw' hf', hgs', evalRaws_append]
  obtain ⟨s0, h0, h⟩ := Outcome.bind_eq_ok.1 h
  rw [evalRaws] at h
  obtain ⟨s1, h1, h⟩ := Outcome.bind_eq_ok.1 h
  obtain ⟨es, e, -, -, h3⟩ := rawCmd_ok h1
  rcases h3 with ⟨m, hm, rfl, hmm⟩ | ⟨m, hm, -⟩
  · simp only [RawCmd.define.injEq] at hm
    rw [← hm.1] at h
    obtain ⟨k, k1, k2⟩ := unused_evals post s0.formulas [] s0.assertions sp hn h
    refine ⟨s0.formulas, k, e, by simpa using k1, ?_⟩
    rw [h0, Outcome.bind_ok]
    simpa using k2
  · cases hm

/-- **C96.** The names do not matter: if the formulas are renamed by `f` and the assertions by `g` (without
giving two of them the same name), the specification is renamed, and failures stay the same. -/
theorem C96_rename (nd : Bool) (f g : String → String) (hfi : Function.Injective f) (hgi : Function.Injective g)
    {gs gs' : List (List RawCmd)} (hok : ∀ cs ∈ gs, ∀ c ∈ cs, RawCmdOk c) (hok' : ∀ cs ∈ gs', ∀ c ∈ cs, RawCmdOk c)
    (hgs : gs'.flatten = gs.flatten.map (RawCmd.rename f g))
    {w w' : List Char} (hw : RawText gs w) (hw' : RawText gs' w') {fuel : Nat} (hf : w.length < fuel)
    (hf' : w'.length < fuel) : fromString (K := K) nd fuel w' = (fromString nd fuel w).map' (renameSpec f g) := by
  rw [C82_meaning nd hok hw hf, C82_meaning nd hok' hw' hf', hgs]
  exact rename_evals hfi hgi gs.flatten {}

/-- **C96.** The order does not matter: two successive commands can be exchanged, unless the second refers to the
formula that the first defines.  The specification has the same formulas and assertions (perhaps in another order). -/
theorem C96_swap (nd : Bool) {c c' : RawCmd} {pre post : List RawCmd} {gs gs' : List (List RawCmd)}
    (hok : ∀ cs ∈ gs, ∀ c ∈ cs, RawCmdOk c) (hok' : ∀ cs ∈ gs', ∀ c ∈ cs, RawCmdOk c)
    (hgs : gs.flatten = pre ++ c :: c' :: post) (hgs' : gs'.flatten = pre ++ c' :: c :: post)
    (hd : ∀ n, c.defines = some n → n ∉ c'.term.names)
    {w w' : List Char} (hw : RawText gs w) (hw' : RawText gs' w') {fuel : Nat} (hf : w.length < fuel)
    (hf' : w'.length < fuel) (sp : Specification K) (h : fromString nd fuel w = .ok sp) :
    ∃ sp', fromString nd fuel w' = .ok sp' ∧ sp'.formulas.Perm sp.formulas ∧ sp'.assertions.Perm sp.assertions := by
  have e : pre ++ c :: c' :: post = pre ++ ([c, c'] ++ post) := rfl
  have e' : pre ++ c' :: c :: post = pre ++ ([c', c] ++ post) := rfl
  rw [C82_meaning nd hok hw hf, hgs, e, evalRaws_append] at h
  rw [C82_meaning nd hok' hw' hf', hgs', e', evalRaws_append]
  obtain ⟨s0, h0, h⟩ := Outcome.bind_eq_ok.1 h
  rw [evalRaws_append] at h
  obtain ⟨s1, h1, h⟩ := Outcome.bind_eq_ok.1 h
  obtain ⟨s1', h2, h3⟩ := swap_evals (evalRaws_nodup h0 (by simp)) hd h1
  obtain ⟨s2', h4, h5⟩ := same_evals h3 h
  exact ⟨s2', by rw [h0, Outcome.bind_ok, evalRaws_append, h2, Outcome.bind_ok, h4], h5.f, h5.a⟩

end any

/-! ## Cases -/

/-- The names of the formulas and of the assertions. -/
def okNames {K : Type} : Outcome (Specification K) → Option (List String × List String)
  | .ok sp => some (sp.formulas.map Prod.fst, sp.assertions.map Prod.fst)
  | _ => none

-- two texts, the first one ends in an open comment
example : okNames (fromString (K := ℚ) false 99 "(assert p (> x 1)) ; p".toList) = some ([], ["p"]) ∧
    okNames (fromString (K := ℚ) false 99 "(define-formula q true) (assert r q)".toList) = some (["q"], ["r"]) ∧
    okNames (fromString (K := ℚ) false 99
      ("(assert p (> x 1)) ; p".toList ++ '\n' :: "(define-formula q true) (assert r q)".toList)) = some (["q"], ["p", "r"]) := by
  decide +kernel

-- without the line feed the second text is part of the comment
example : okNames (fromString (K := ℚ) false 99
    ("(assert p (> x 1)) ; p".toList ++ "(define-formula q true) (assert r q)".toList)) = some ([], ["p"]) := by
  decide +kernel

/-- `( define-formula p true ) ( define-formula q ( not p ) )`. -/
def twoDefs : List (List RawCmd) := [[.define "p" .tru], [.define "q" (.paren [.un .not (.ref "p")])]]

/-- `( define-formula p true ) ( define-formula q ( not true ) )`. -/
def twoDefs' : List (List RawCmd) := [[.define "p" .tru], [.define "q" (.paren [.un .not .tru])]]

theorem twoDefs_ok : ∀ cs ∈ twoDefs, ∀ c ∈ cs, RawCmdOk c := by
  have hp : RawOk (.ref "p") := .ref name_p (by decide) (by decide)
  intro cs hcs c hc
  simp only [twoDefs, List.mem_cons, List.not_mem_nil, or_false] at hcs
  rcases hcs with rfl | rfl <;> rw [List.mem_singleton.1 hc]
  · exact .define name_p .tru
  · exact .define name_q (.paren (items_single (.un hp)))

theorem twoDefs'_ok : ∀ cs ∈ twoDefs', ∀ c ∈ cs, RawCmdOk c := by
  intro cs hcs c hc
  simp only [twoDefs', List.mem_cons, List.not_mem_nil, or_false] at hcs
  rcases hcs with rfl | rfl <;> rw [List.mem_singleton.1 hc]
  · exact .define name_p .tru
  · exact .define name_q (.paren (items_single (.un .tru)))

-- inlining: the conditions of `C96_inline`, and the common result
example {K : Type} [Field K] [LinearOrder K] [IsStrictOrderedRing K] [Arith K] [Strtod K] :
    twoDefs.flatten = [] ++ .define "p" .tru :: [.define "q" (.paren [.un .not (.ref "p")])] ∧
    twoDefs'.flatten = [] ++ .define "p" .tru :: [RawCmd.define "q" (.paren [.un .not (.ref "p")])].map (RawCmd.inline "p" .tru) ∧
    RawText twoDefs (render (twoDefs.flatMap groupToks)) ∧ RawText twoDefs' (render (twoDefs'.flatMap groupToks)) ∧
    evalRaws (K := K) false {} twoDefs.flatten = .ok ⟨[("p", .const true), ("q", .const false)], []⟩ ∧
    evalRaws (K := K) false {} twoDefs'.flatten = .ok ⟨[("p", .const true), ("q", .const false)], []⟩ :=
  ⟨rfl, rfl, .mk (g := []) .nil (render_txt _), .mk (g := []) .nil (render_txt _), rfl, rfl⟩

-- renaming p and q
example : (twoDefs.flatten.map (RawCmd.rename (fun n => n ++ "1") id)) =
    [.define "p1" .tru, .define "q1" (.paren [.un .not (.ref "p1")])] := by
  simp [twoDefs, RawCmd.rename, Raw.subst, Item.substAll, Item.subst]

-- the second definition of twoDefs' does not refer to p; that of twoDefs does
example : "p" ∉ (Raw.paren [.un .not .tru]).names ∧ "p" ∈ (Raw.paren [.un .not (.ref "p")]).names := by
  simp [Raw.names, Item.namesAll, Item.names]

-- in the release build a definition can have left-over terms, which are not part of the formula:
-- `(define-formula p (true not true)) (define-formula q (and p))` is rejected, and accepted with the term for `p`
example {K : Type} [Field K] [LinearOrder K] [IsStrictOrderedRing K] [Arith K] [Strtod K] :
    let t : Raw := .paren [.term .tru, .un .not .tru]
    let c : RawCmd := .define "q" (.paren [.nary .and [.ref "p"]])
    evalRaws (K := K) true {} [.define "p" t, c] = .throw .parseError ∧
    okNames (evalRaws (K := K) true {} [.define "p" t, c.inline "p" t]) = some (["p", "q"], []) ∧
    evalRaws (K := K) false {} [.define "p" t, c] = .abort :=
  ⟨rfl, rfl, rfl⟩

end Verif
