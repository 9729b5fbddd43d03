import Verif.Props.Boolean
import Verif.Proofs.Const
import Mathlib.Tactic.LinearCombination

/-!
# Equality of predicates: C73
-/

set_option linter.unusedSectionVars false

namespace Verif
open Spec

/-! ## C73 -/

section any
variable {K : Type} [Field K] [LinearOrder K] [Arith K]

theorem predEq_iff (n n' : String) (op op' : ComparisonOp) (c c' : D K) :
    Expr.predEq n op c n' op' c' = true ↔ n = n' ∧ op = op' ∧ c = c' ∧ c ≠ .nan := by
  unfold Expr.predEq
  rw [Bool.and_eq_true, Bool.and_eq_true, beq_iff_eq, beq_iff_eq, and_assoc]
  refine and_congr_right fun _ => and_congr_right fun _ => ?_
  cases c <;> cases c' <;> simp [D.eq]

/-- **C73.** `==` of predicates is symmetric and transitive; a predicate is equal to itself unless its constant
is NaN. -/
theorem C73_equivalence (n n' n'' : String) (op op' op'' : ComparisonOp) (c c' c'' : D K) :
    (Expr.predEq n op c n op c = true ↔ c ≠ .nan) ∧
    (Expr.predEq n op c n' op' c' = true → Expr.predEq n' op' c' n op c = true) ∧
    (Expr.predEq n op c n' op' c' = true → Expr.predEq n' op' c' n'' op'' c'' = true →
      Expr.predEq n op c n'' op'' c'' = true) := by
  simp only [predEq_iff]
  refine ⟨by simp, ?_, ?_⟩
  · rintro ⟨rfl, rfl, rfl, h⟩; exact ⟨rfl, rfl, rfl, h⟩
  · rintro ⟨rfl, rfl, rfl, h⟩ ⟨rfl, rfl, rfl, -⟩; exact ⟨rfl, rfl, rfl, h⟩

/-- **C73.** Equal predicates have the same robustness on every trace, for every rounding. -/
theorem C73_same_robustness (n n' : String) (op op' : ComparisonOp) (c c' : D K)
    (h : Expr.predEq n op c n' op' c' = true) (nd : Bool) (fuel : Nat) (trace : Trace K) (sy : Bool) :
    computeRobustness nd fuel (.pred n op c) trace sy = computeRobustness nd fuel (.pred n' op' c') trace sy := by
  obtain ⟨rfl, rfl, rfl, -⟩ := (predEq_iff _ _ _ _ _ _).1 h
  rfl

end any

section exact
variable {K : Type} [Field K] [LinearOrder K] [IsStrictOrderedRing K] [Arith K] [ExactArith K]

/-- **C73.** `==` of constants is equality; and equal constants are those with the same robustness on every
trace. -/
theorem C73_constants (a b : Bool) :
    (Expr.constEq a b = true ↔ a = b) ∧
    (Expr.constEq a b = true ↔ ∀ (nd : Bool) (fuel : Nat) (trace : Trace K) (sy : Bool),
      computeRobustness nd fuel (.const a) trace sy = computeRobustness nd fuel (.const b) trace sy) := by
  have h : Expr.constEq a b = true ↔ a = b := by simp [Expr.constEq]
  refine ⟨h, h.trans ⟨by rintro rfl; simp, fun hr => ?_⟩⟩
  have := hr true 0 [("x", ⟨[⟨0, 0, 0⟩, ⟨.fin 1, 0, 0⟩]⟩)] true
  have hm : minMaxTime [("x", (⟨[⟨0, 0, 0⟩, ⟨.fin 1, 0, 0⟩]⟩ : Signal K))] = (.fin 0, .fin 1) := by
    simp [minMaxTime, Signal.beginTime, Signal.endTime, D.min, D.max, D.lt, D.zero_def]
  have hl : (D.fin (0 : K)).lt (.fin 1) = true := by simp
  simp only [computeRobustness, hm, RobustnessOp.compute] at this
  simp only [RobustnessOp.const, const_ok _ hl] at this
  cases a <;> cases b <;> simp_all [build]

example : Expr.constEq true true = true ∧ Expr.constEq true false = false := by decide

/-- The side of the comparison: is a greater value better? -/
def upward : ComparisonOp → Bool
  | .GE | .GT => true
  | .LE | .LT => false

/-- **C73.** Unequal predicates with finite constants can be told apart by their robustness on some trace, but
for the strictness of the comparison. -/
theorem C73_distinguished (n n' : String) (op op' : ComparisonOp) (c c' : K) :
    (∀ (nd : Bool) (fuel : Nat) (trace : Trace K) (sy : Bool),
      computeRobustness nd fuel (.pred n op (.fin c)) trace sy =
        computeRobustness nd fuel (.pred n' op' (.fin c')) trace sy) ↔
    n = n' ∧ upward op = upward op' ∧ c = c' := by
  have one : ∀ (m : String) (o : ComparisonOp) (d v : K),
      computeRobustness false 0 (.pred m o (.fin d)) [(m, ofPts [(0, v)])] false =
        .ok ⟨[⟨.fin 0, .fin (if upward o then v - d else d - v), 0⟩]⟩ := by
    intro m o d v
    unfold computeRobustness
    rw [RobustnessOp.compute, RobustnessOp.pred, lookup_at (x := ofPts [(0, v)]) (by simp), Outcome.bind_ok]
    cases o <;> simp [ofPts, build, lift, Signal.ofSamples, Signal.pushAll, Signal.pushBack, Signal.empty,
      RobustnessOp.predValue, upward]
  constructor
  · intro h
    have hn : n = n' := by
      by_contra hne
      have h1 := h false 0 [(n, ofPts [(0, 0)])] false
      rw [one] at h1
      unfold computeRobustness at h1
      rw [RobustnessOp.compute, RobustnessOp.pred] at h1
      have : Trace.at_ ([(n, ofPts [(0, 0)])] : Trace K) n' = .throw .outOfRange := by
        have hb : (n' == n) = false := by simpa using fun e => hne e.symm
        simp [Trace.at_, List.lookup, hb]
      rw [this] at h1
      cases h1
    subst hn
    have e : ∀ v : K, (if upward op then v - c else c - v) = (if upward op' then v - c' else c' - v) := by
      intro v
      have h1 := h false 0 [(n, ofPts [(0, v)])] false
      rw [one, one] at h1
      simpa using h1
    have e0 := e 0
    have e1 := e 1
    refine ⟨rfl, ?_⟩
    cases h1 : upward op <;> cases h2 : upward op' <;> simp [h1, h2] at e0 e1 ⊢
    · exact e0
    · have : (2 : K) = 0 := by linear_combination e0 - e1
      exact absurd this two_ne_zero
    · have : (2 : K) = 0 := by linear_combination e1 - e0
      exact absurd this two_ne_zero
    · exact e0
  · rintro ⟨rfl, ho, rfl⟩ nd fuel trace sy
    unfold computeRobustness
    rw [RobustnessOp.compute, RobustnessOp.compute, RobustnessOp.pred, RobustnessOp.pred]
    have : ∀ d : D K, RobustnessOp.predValue op (.fin c) d = RobustnessOp.predValue op' (.fin c) d := by
      intro d; cases op <;> cases op' <;> simp [upward] at ho <;> rfl
    simp only [this]

end exact

example : Expr.predEq "x" .GE (.fin 1) "x" .GE (.fin (1 : ℚ)) = true ∧
    Expr.predEq "x" .GE (.fin 1) "x" .GT (.fin (1 : ℚ)) = false ∧
    Expr.predEq "x" .GE .nan "x" .GE (.nan : D ℚ) = false := by decide +kernel

end Verif
