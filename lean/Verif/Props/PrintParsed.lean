import Verif.Proofs.ParserNamed
import Verif.Props.Print
import Verif.Props.AnyRound

/-!
# Printing what the parser returned: C59
-/

set_option linter.unusedSectionVars false

namespace Verif
open Spec Fmt

section
variable {K : Type} [Field K] [LinearOrder K] [IsStrictOrderedRing K] [Arith K]

/-- **C59**, exactly which formulas with unbounded intervals print the same (if different numbers print
differently): those that differ only in how chains of Until are bracketed, and in whether a unary operator is
applied to a chain or to its first operand. -/
theorem C59_collisions_partial {num : D K → List Char} (hf : Faithful num) {e e' : Expr K} (he : PrintableU e)
    (he' : PrintableU e') : expr num e = expr num e' ↔ rebracket e = rebracket e' := by
  constructor
  · intro h
    have hn : NoU [] := by intro x h; cases h
    rw [← expr_rebracket e, ← expr_rebracket e'] at h
    exact (readsU hf (nf_rebracketU he) _ (nf_rebracketU he') [] [] (fun _ => ⟨hn, hn⟩) (by simpa using h)).1
  · intro h
    rw [← expr_rebracket e, h, expr_rebracket]

/-- **C59**, exactly which formulas with arbitrary intervals print the same: those that do so after all intervals from 0
to infinity have been replaced by one interval, and all other intervals by another one. -/
theorem C59_intervals_partial [SaneArith K] {num : D K → List Char} (hf : Faithful num) {e e' : Expr K}
    (he : PrintableI e) (he' : PrintableI e') :
    expr num e = expr num e' ↔ rebracket (blurred e) = rebracket (blurred e') := by
  constructor
  · intro h
    have hn : NoU [] := by intro x h; cases h
    rw [← expr_blurred e, ← expr_blurred e', ← expr_rebracket (blurred e), ← expr_rebracket (blurred e')] at h
    exact (readsU hf (nf_rebracket he) _ (nf_rebracket he') [] [] (fun _ => ⟨hn, hn⟩) (by simpa using h)).1
  · intro h
    rw [← expr_blurred e, ← expr_rebracket (blurred e), h, expr_rebracket, expr_blurred]

/-- **C59 is false** for names with blanks and brackets, which can be given in C++ and Python (not in a specification):
the predicate named `x > 1) U (y` prints the same as an Until of two predicates. -/
theorem C59_refuted_name (num : D K → List Char) (c d : D K) (n m : String) :
    expr num (.untl (.pred n .GT c) (.pred m .GT d) ⟨.dbl (.fin 1), .dbl (.fin 2)⟩) =
      expr num (.pred (n ++ " > " ++ String.ofList (num c) ++ ") U (" ++ m) .GT d) := by
  have h1 : " > ".toList = [' ', '>', ' '] := by decide
  have h2 : ") U (".toList = [')', ' ', 'U', ' ', '('] := by decide
  simp [expr, op, untilMid, Interval.hasValue, Interval.isZeroToInf, Interval.numIsZero, D.eq, String.toList_append, h1, h2]

/-- **C59** for all that the parser returns. -/
theorem C59_parsed_partial [Strtod K] {num : D K → List Char} (hf : Faithful num) {nd : Bool} {fuel : Nat}
    {w : List Char} (hw : w.length < fuel) {sp : Specification K} (h : fromString nd fuel w = .ok sp) :
    (∀ p ∈ sp.formulas ++ sp.assertions, PrintableU p.2) ∧
      ∀ p ∈ sp.formulas ++ sp.assertions, ∀ q ∈ sp.formulas ++ sp.assertions,
        (expr num p.2 = expr num q.2 ↔ rebracket p.2 = rebracket q.2) := by
  have hp : ∀ p ∈ sp.formulas ++ sp.assertions, PrintableU p.2 := by
    have := parsed_named printable_closed hw h
    intro p hp
    rcases List.mem_append.1 hp with hp | hp
    · exact this.1 p hp
    · exact this.2 p hp
  exact ⟨hp, fun p h1 q h2 => C59_collisions_partial hf (hp p h1) (hp q h2)⟩

end

/-! ## Concrete cases -/

/-- A trace of one signal. -/
def pTrace : Trace ℚ := [("x", ⟨[⟨.fin 0, .fin 1, .fin 0⟩, ⟨.fin 1, .fin 1, .fin 0⟩]⟩)]

/-- `not (until x>2 x>2)` -/
def pA : Expr ℚ := .Not (.Until (.pred "x" .GT (.fin 2)) (.pred "x" .GT (.fin 2)))
/-- `until (not x>2) x>2` -/
def pB : Expr ℚ := .Until (.Not (.pred "x" .GT (.fin 2))) (.pred "x" .GT (.fin 2))

theorem pAB : rebracket pA = rebracket pB ∧ PrintableU pA ∧ PrintableU pB := by
  have h : PlainName "x" := by simp [PlainName]
  refine ⟨?_, ?_, ?_⟩
  · simp [pA, pB, Expr.Not, Expr.Until, rebracket, onFirst, chain]
  · exact .not (.untl (.pred h) (.pred h))
  · exact .untl (.not (.pred h)) (.pred h)

/-- **C59 is false** also up to robustness: formulas with the same text can have robustness of opposite
signs. -/
theorem C59_refuted_robustness : (∀ num, expr num pA = expr num pB) ∧
    computeRobustness true 0 pA pTrace true = .ok ⟨[⟨.fin 0, .fin (-1), .fin 0⟩, ⟨.fin 1, .fin (-1), .fin 0⟩]⟩ ∧
    computeRobustness true 0 pB pTrace true = .ok ⟨[⟨.fin 0, .fin 1, .fin 0⟩, ⟨.fin 1, .fin 1, .fin 0⟩]⟩ := by
  refine ⟨fun num => ?_, by decide +kernel, by decide +kernel⟩
  rw [← expr_rebracket pA, pAB.1, expr_rebracket]

/-- The two sides of the criterion can hold and can fail. -/
example : expr exNum pA = expr exNum pB ∧ expr exNum pA ≠ expr exNum (.not pA) := by
  have h : PlainName "x" := by simp [PlainName]
  constructor
  · exact (C59_collisions_partial exNum_faithful pAB.2.1 pAB.2.2).2 pAB.1
  · rw [Ne, C59_collisions_partial exNum_faithful pAB.2.1 (.not pAB.2.1)]
    simp [pA, Expr.Not, Expr.Until, rebracket, onFirst, chain]

/-- Always over [0, inf] differs from Always over [1, 2], which does not differ from Always over [0, 5] (with integers),
also inside another formula. -/
example (e : Expr ℚ) (he : PrintableI e) : expr exNum (.not (.always e ⟨.dbl 0, .dbl .pinf⟩)) ≠
      expr exNum (.not (.always e ⟨.dbl (.fin 1), .dbl (.fin 2)⟩)) ∧
    expr exNum (.not (.always e ⟨.dbl (.fin 1), .dbl (.fin 2)⟩)) = expr exNum (.not (.always e ⟨.ull 0, .ull 5⟩)) := by
  have h1 : blur (⟨.dbl (.fin 1), .dbl (.fin 2)⟩ : Interval ℚ) = ⟨.dbl (.fin 1), .dbl (.fin 1)⟩ := by
    simp [blur, ZeroBound, InfBound]
  have h2 : blur (⟨.ull 0, .ull 5⟩ : Interval ℚ) = ⟨.dbl (.fin 1), .dbl (.fin 1)⟩ := by
    simp [blur, ZeroBound, InfBound, ExactArith.rnd_eq]
  constructor
  · intro h
    have hn : NoU [] := by intro x h; cases h
    rw [expr, expr, expr, expr, alwaysHead_unbounded] at h
    simp [alwaysHead, Interval.hasValue, Interval.isZeroToInf, Interval.numIsZero, D.eq] at h
  · exact (C59_intervals_partial exNum_faithful (.not (.always he)) (.not (.always he))).2 (by simp only [blurred, h1, h2])

/-- A predicate that prints as `(x > 1) U (y > 2)` does. -/
example : expr exNum (.untl (.pred "x" .GT (.fin 1)) (.pred "y" .GT (.fin 2)) ⟨.dbl (.fin 1), .dbl (.fin 2)⟩) =
    expr exNum (.pred ("x" ++ " > " ++ String.ofList (exNum (.fin 1)) ++ ") U (" ++ "y") .GT (.fin 2)) :=
  C59_refuted_name exNum _ _ "x" "y"

end Verif
