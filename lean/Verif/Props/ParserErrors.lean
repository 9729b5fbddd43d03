import Verif.Proofs.ParserDocErrors
import Verif.Props.Grammar

/-!
# How the parser fails: C94

The claim is that `from_string` rejects a text by a `parse_error`, the same way in debug and release builds.  It is
false.
-/

set_option linter.unusedSectionVars false

namespace Verif
open Spec Rule

section any
variable {K : Type} [Field K] [LinearOrder K] [IsStrictOrderedRing K] [Arith K] [Strtod K]

/-- **C94**, exceptions: these five and no others, for all texts and both builds.  (In particular `std::get` is never
called for the wrong alternative of the variant.) -/
theorem C94_exceptions_partial (nd : Bool) (fuel : Nat) (w : List Char) (e : Exn)
    (h : fromString (K := K) nd fuel w = .throw e) :
    e = .parseError ∨ e = .outOfRange ∨ e = .logicError ∨ e = .invalidArgument ∨ e = .badOptionalAccess := by
  simpa [exns] using fromString_only nd fuel w e h

/-- **C94**, the rule of a file never fails without an exception: the last `throw` of `_parse` (parser.cc:38, "most
likely a bug") is not reached. -/
theorem C94_local_partial (nd : Bool) (fuel : Nat) (w : List Char) (st : PState K) :
    specificationFile nd fuel w {} ≠ .ok (none, st) := specificationFile_must nd fuel w _ _

/-- **C94**, builds: the debug build does the same as the release build unless an assertion fails. -/
theorem C94_builds_partial (fuel : Nat) (w : List Char) :
    fromString (K := K) false fuel w = .abort ∨ fromString (K := K) false fuel w = fromString true fuel w :=
  fromString_le fuel w

/-- **C94**, builds: what the debug build accepts is accepted by the release build, with the same result. -/
theorem C94_accepted_partial (fuel : Nat) (w : List Char) (sp : Specification K)
    (h : fromString false fuel w = .ok sp) : fromString true fuel w = .ok sp := by
  rcases C94_builds_partial (K := K) fuel w with h' | h'
  · rw [h'] at h; cases h
  · rw [← h', h]

/-- **C94**, builds: no assertion fails for a text of the documented language (reversed predicates included), whether
it is accepted or not. -/
theorem C94_documented_partial {cs : List Cmd} (hok : ∀ c ∈ cs, CmdOk c) {w : List Char} (h : Text cs w) {fuel : Nat}
    (hf : w.length < fuel) :
    fromString (K := K) false fuel w ≠ .abort ∧ fromString (K := K) false fuel w = fromString true fuel w := by
  have e : fromString (K := K) false fuel w = fromString true fuel w := by
    rw [fromString_text hok h false hf, fromString_text hok h true hf]
  refine ⟨?_, e⟩
  rw [e]
  exact (fromString_tame true fuel w).2 rfl

/-- **C94**, exceptions for documented texts: never `std::logic_error`, and `std::bad_optional_access` only if there is
a reversed predicate. -/
theorem C94_documented_exceptions_partial (nd : Bool) {cs : List Cmd} (hok : ∀ c ∈ cs, CmdOk c) {w : List Char}
    (h : Text cs w) {fuel : Nat} (hf : w.length < fuel) (e : Exn) (he : fromString (K := K) nd fuel w = .throw e) :
    e = .parseError ∨ e = .outOfRange ∨ e = .invalidArgument ∨
      e = .badOptionalAccess ∧ ¬ ∀ c ∈ cs, NoRev c.term := by
  rw [fromString_text hok h nd hf] at he
  by_cases hr : ∀ c ∈ cs, NoRev c.term
  · have := evalSpec_only (K := K) false cs {} (.inr hr) e he
    simp only [docExns, Bool.false_eq_true, if_false, List.append_nil, List.mem_cons, List.not_mem_nil, or_false] at this
    tauto
  · have := evalSpec_only (K := K) true cs {} (.inl rfl) e he
    simp only [docExns, if_true, List.cons_append, List.nil_append, List.mem_cons, List.not_mem_nil, or_false] at this
    tauto

end any

/-! ## Refutation -/

/-- The outcome is this exception. -/
def isThrow {α : Type} (e : Exn) : Outcome α → Bool
  | .throw e' => e == e'
  | _ => false

theorem isThrow_eq {α : Type} {e : Exn} {o : Outcome α} (h : isThrow e o = true) : o = .throw e := by
  cases o with
  | throw e' => rw [beq_iff_eq.1 h]
  | _ => cases h

/-- **C94**, refutation for the exceptions: an empty pair of parentheses, a formula that is not defined, a number that
is too large, a reversed predicate, and an exclusive or with an operand that is a disjunction and one that is `true`
are rejected by other exceptions than `parse_error`; a repeated name and a single operand by `parse_error`. -/
theorem C94_refuted_exceptions (nd : Bool) :
    fromString (K := ℚ) nd 99 "(define-formula p ())".toList = .throw .logicError ∧
    fromString (K := ℚ) nd 99 "(define-formula p q)".toList = .throw .outOfRange ∧
    fromString (K := ℚ) nd 99 "(define-formula p (> x 9223372036854775808))".toList = .throw .outOfRange ∧
    fromString (K := ℚ) nd 99 "(define-formula p (> 0 x))".toList = .throw .badOptionalAccess ∧
    fromString (K := ℚ) nd 99 "(define-formula p (> x 0)) (define-formula q (xor (or p p) true))".toList =
      .throw .invalidArgument ∧
    fromString (K := ℚ) nd 99 "(define-formula p true) (define-formula p true)".toList = .throw .parseError ∧
    fromString (K := ℚ) nd 99 "(define-formula p (and true))".toList = .throw .parseError := by
  cases nd <;> exact ⟨isThrow_eq (by decide +kernel), isThrow_eq (by decide +kernel), isThrow_eq (by decide +kernel),
    isThrow_eq (by decide +kernel), isThrow_eq (by decide +kernel), isThrow_eq (by decide +kernel),
    isThrow_eq (by decide +kernel)⟩

/-- `( define-formula p true ) ( define-formula q ( p not p ) )`. -/
def twoTerms : List (List RawCmd) :=
  [[.define "p" .tru], [.define "q" (.paren [.term (.ref "p"), .un .not (.ref "p")])]]

/-- **C94**, refutation for the builds: a text that the release build accepts and for which an assertion fails in the
debug build. -/
theorem C94_refuted_builds {K : Type} [Field K] [LinearOrder K] [IsStrictOrderedRing K] [Arith K] [Strtod K] :
    fromString (K := K) false 99 "( define-formula p true ) ( define-formula q ( p not p ) ) ".toList = .abort ∧
    fromString (K := K) true 99 "( define-formula p true ) ( define-formula q ( p not p ) ) ".toList =
      .ok ⟨[("p", .const true), ("q", .const false)], []⟩ := by
  have hok : ∀ cs ∈ twoTerms, ∀ c ∈ cs, RawCmdOk c := by
    have hp : RawOk (.ref "p") := .ref name_p (by decide) (by decide)
    intro cs hcs c hc
    simp only [twoTerms, List.mem_cons, List.not_mem_nil, or_false] at hcs
    rcases hcs with rfl | rfl <;> rw [List.mem_singleton.1 hc]
    · exact .define name_p .tru
    · exact .define name_q (.paren (.cons (.term hp (by simp [opKeys])) (items_single (.un hp)) (by simp)))
  have h : render (twoTerms.flatMap groupToks) =
      "( define-formula p true ) ( define-formula q ( p not p ) ) ".toList := by
    simp only [twoTerms, List.flatMap_cons, List.flatMap_nil, groupToks, RawCmd.toks, Raw.toks, Item.toks,
      Item.toksAll]
    decide
  have ht : RawText twoTerms "( define-formula p true ) ( define-formula q ( p not p ) ) ".toList := by
    rw [← h]
    exact .mk (g := []) .nil (render_txt _)
  rw [C82_meaning false hok ht (by decide), C82_meaning true hok ht (by decide)]
  exact ⟨rfl, rfl⟩

/-! ## Cases -/

/-- A documented text, with a reversed predicate and a formula that is not defined. -/
example : Text [.define "p" (.rcmp .GT litA "x"), .assert "q" (.not (.ref "r"))]
      "( define-formula p ( > 1.5 x ) ) ( assert q ( not r ) ) ".toList ∧
    fromString (K := ℚ) false 99 "( define-formula p ( > 1.5 x ) ) ( assert q ( not r ) ) ".toList =
      .throw .badOptionalAccess :=
  ⟨by
    have h : render ([Cmd.define "p" (.rcmp .GT litA "x"), .assert "q" (.not (.ref "r"))].flatMap Cmd.toks) =
        "( define-formula p ( > 1.5 x ) ) ( assert q ( not r ) ) ".toList := by
      simp only [List.flatMap_cons, List.flatMap_nil, Cmd.toks, toks, inner]
      decide
    rw [← h]
    exact .mk (g := []) .nil (render_txt _), isThrow_eq (by decide +kernel)⟩

end Verif
