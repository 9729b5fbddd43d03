import Verif.Model.PyAst
import Verif.Props.Ast
import Verif.Model.Robustness
import Verif.Model.Exact
import Verif.Props.Print

/-!
# Formulas in Python (C124)
-/

set_option linter.unusedSectionVars false

namespace Verif
open Spec

section
variable {K : Type} [Field K] [LinearOrder K] [Arith K]

/-- The part of a node with this name, as it is called in ast.hpp. -/
def partOf : Expr K → String → Option (Py.Val K)
  | .const b, n => if n = "value" then some (.bool b) else none
  | .pred s _ _, n => if n = "name" then some (.str s) else none
  | .not e, n => if n = "arg" then some (.expr e) else none
  | .and es, n => if n = "args" then some (.exprs es) else none
  | .or es, n => if n = "args" then some (.exprs es) else none
  | .eventually e i, n => if n = "arg" then some (.expr e) else if n = "interval" then some (.interval i) else none
  | .always e i, n => if n = "arg" then some (.expr e) else if n = "interval" then some (.interval i) else none
  | .untl a b i, n => if n = "args" then some (.pair a b) else if n = "interval" then some (.interval i) else none

/-- A temporal operator. -/
def TemporalNode : Expr K → Prop
  | .always _ _ => True
  | .eventually _ _ => True
  | .untl _ _ _ => True
  | _ => False

/-- **C124**, attributes: all but `interval` are right, and those of a node are all right exactly if it is not a temporal
operator. -/
theorem C124_attributes_partial (e : Expr K) :
    (∀ n, n ≠ "interval" → Py.exprAttr e n = partOf e n) ∧ ((∀ n, Py.exprAttr e n = partOf e n) ↔ ¬ TemporalNode e) := by
  have h1 : ∀ n, n ≠ "interval" → Py.exprAttr e n = partOf e n := by
    intro n hn
    unfold Py.exprAttr partOf
    split <;> split <;> simp_all
  refine ⟨h1, fun h ht => ?_, fun h n => ?_⟩
  · have := h "interval"
    cases e <;> simp [TemporalNode] at ht <;> simp [Py.exprAttr, partOf] at this
  · by_cases hn : n = "interval"
    · subst hn
      cases e <;> simp [TemporalNode] at h <;> simp [Py.exprAttr, partOf]
    · exact h1 n hn

/-- **C124 is false**: the attribute `interval` of a temporal operator is never its interval, but its operand. -/
theorem C124_refuted (e a b : Expr K) (i : Interval K) :
    Py.exprAttr (.always e i) "interval" = some (.expr e) ∧ Py.exprAttr (.eventually e i) "interval" = some (.expr e) ∧
    Py.exprAttr (.untl a b i) "interval" = some (.pair a b) ∧
    ∀ f : Expr K, TemporalNode f → ∀ j, Py.exprAttr f "interval" ≠ some (.interval j) := by
  refine ⟨rfl, rfl, rfl, fun f hf j => ?_⟩
  cases f <;> simp [TemporalNode] at hf <;> simp [Py.exprAttr]

/-- **C124**, operators: `~` has the Boolean meaning; `&` and `|` either have it or raise ValueError, and they raise it
exactly for a conjunction and `BOT`, and a disjunction and `TOP`. -/
theorem C124_operators_partial (a b : Expr K) (ha : Arity a) :
    (∀ v, bval v (Py.notOp a) = !bval v a) ∧
    ((((∃ es, a = .and es) ∧ b = .const false) ∧ Py.andOp a b = .raise .valueError) ∨
      (¬ ((∃ es, a = .and es) ∧ b = .const false) ∧
        ∃ r, Py.andOp a b = .ok r ∧ ∀ v, bval v r = (bval v a && bval v b))) ∧
    ((((∃ es, a = .or es) ∧ b = .const true) ∧ Py.orOp a b = .raise .valueError) ∨
      (¬ ((∃ es, a = .or es) ∧ b = .const true) ∧
        ∃ r, Py.orOp a b = .ok r ∧ ∀ v, bval v r = (bval v a || bval v b))) := by
  refine ⟨C44_not a, ?_, ?_⟩
  · by_cases h : (∃ es, a = .and es) ∧ b = .const false
    · exact .inl ⟨h, by rw [Py.andOp, (C46_andOp_partial a b ha).1 h]; rfl⟩
    · obtain ⟨r, hr⟩ := (C46_andOp_partial a b ha).2 h
      exact .inr ⟨h, r, by rw [Py.andOp, hr]; rfl, C44_and a b r hr⟩
  · by_cases h : (∃ es, a = .or es) ∧ b = .const true
    · exact .inl ⟨h, by rw [Py.orOp, (C46_orOp_partial a b ha).1 h]; rfl⟩
    · obtain ⟨r, hr⟩ := (C46_orOp_partial a b ha).2 h
      exact .inr ⟨h, r, by rw [Py.orOp, hr]; rfl, C44_or a b r hr⟩

/-- **C124**, comparisons: only the last comparison of a predicate counts, also in a range `c < p < c'`. -/
theorem C124_compare_partial (n : String) (o₀ o o' : ComparisonOp) (c₀ c c' : D K) :
    Py.compare (.pred n o₀ c₀) o c = .ok (.pred n o c) ∧
    Py.compare (.pred n o c) o' c' = Py.compare (.pred n o₀ c₀) o' c' ∧
    Py.chained c o (.pred n o₀ c₀) o' c' = .ok (.pred n o' c') := ⟨rfl, rfl, rfl⟩

/-- A signal that is -1 from 0 to 1. -/
def below : Trace ℚ := [("p", ⟨[⟨.fin 0, .fin (-1), .fin 0⟩, ⟨.fin 1, .fin (-1), .fin 0⟩]⟩)]

/-- **C124 is false** also for ranges: `0 < p < 1` has robustness 2 for the signal -1, although `p > 0` has -1. -/
theorem C124_refuted_range : ∃ e : Expr ℚ, Py.chained (0 : D ℚ) .LT (.Predicate "p") .LT (.fin 1) = .ok e ∧
    computeRobustness true 0 e below true = .ok ⟨[⟨.fin 0, .fin 2, .fin 0⟩, ⟨.fin 1, .fin 2, .fin 0⟩]⟩ ∧
    computeRobustness true 0 (.pred "p" .GT 0) below true =
      .ok ⟨[⟨.fin 0, .fin (-1), .fin 0⟩, ⟨.fin 1, .fin (-1), .fin 0⟩]⟩ :=
  ⟨.pred "p" .LT (.fin 1), rfl, by decide +kernel, by decide +kernel⟩

end

/-- The hypothesis of `C124_operators_partial` holds for a conjunction. -/
example : Arity (.and [.pred "a" .GE 0, .pred "b" .GE 0] : Expr ℚ) ∧
    Py.andOp (.and [.pred "a" .GE 0, .pred "b" .GE 0] : Expr ℚ) (.const false) = .raise .valueError :=
  ⟨.and (by simp) (by intro e he; simp at he; rcases he with rfl | rfl <;> exact .pred _ _ _), rfl⟩

end Verif
