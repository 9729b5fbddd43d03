import Verif.Proofs.ParserInv
import Verif.Props.Ast

/-!
# Invariants of parsed formulas

Helper lemmas for C54: the functions of the expression interface that the parser calls keep intervals
unbounded, and so on.
-/

set_option linter.unusedSectionVars false
set_option linter.unusedVariables false

namespace Verif
open Spec Rule

section parser
variable {K : Type} [Field K] [LinearOrder K] [IsStrictOrderedRing K] [Arith K] [Strtod K]

theorem Not_unbounded {e : Expr K} (h : Unbounded e) : Unbounded (.Not e) := by
  unfold Expr.Not
  split
  · exact .const _
  · exact .not h

theorem andOp_unbounded {a b r : Expr K} (ha : Unbounded a) (hb : Unbounded b) (h : Expr.andOp a b = .ok r) :
    Unbounded r := by
  unfold Expr.andOp at h
  split at h
  · next c =>
    cases h
    split
    · exact hb
    · exact .const _
  · next args =>
    cases ha with
    | and ha =>
    unfold Expr.andHelper at h
    split at h
    · obtain ⟨rfl, -⟩ := And_ok h
      refine .and fun e he => ?_
      split at he
      · simp at he; subst he; exact .const _
      · exact ha e he
    · cases hb with
      | and hb =>
      obtain ⟨rfl, -⟩ := And_ok h
      refine .and fun e he => ?_
      rcases List.mem_append.1 he with he | he
      · exact ha e he
      · exact hb e he
    · obtain ⟨rfl, -⟩ := And_ok h
      refine .and fun e he => ?_
      rcases List.mem_append.1 he with he | he
      · exact ha e he
      · simp at he; subst he; exact hb
  · obtain ⟨rfl, -⟩ := And_ok h
    refine .and fun e he => ?_
    simp at he
    rcases he with rfl | rfl <;> assumption

theorem orOp_unbounded {a b r : Expr K} (ha : Unbounded a) (hb : Unbounded b) (h : Expr.orOp a b = .ok r) :
    Unbounded r := by
  unfold Expr.orOp at h
  split at h
  · next c =>
    cases h
    split
    · exact hb
    · exact .const _
  · next args =>
    cases ha with
    | or ha =>
    unfold Expr.orHelper at h
    split at h
    · obtain ⟨rfl, -⟩ := Or_ok h
      refine .or fun e he => ?_
      split at he
      · simp at he; subst he; exact .const _
      · exact ha e he
    · cases hb with
      | or hb =>
      obtain ⟨rfl, -⟩ := Or_ok h
      refine .or fun e he => ?_
      rcases List.mem_append.1 he with he | he
      · exact ha e he
      · exact hb e he
    · obtain ⟨rfl, -⟩ := Or_ok h
      refine .or fun e he => ?_
      rcases List.mem_append.1 he with he | he
      · exact ha e he
      · simp at he; subst he; exact hb
  · obtain ⟨rfl, -⟩ := Or_ok h
    refine .or fun e he => ?_
    simp at he
    rcases he with rfl | rfl <;> assumption

theorem unbounded_closed : ClosedP (K := K) Unbounded where
  const := fun b => .const b
  pred := fun n op c => .pred n op c
  not := fun e h => Not_unbounded h
  and := fun l r h e => by obtain ⟨rfl, -⟩ := And_ok e; exact .and h
  or := fun l r h e => by obtain ⟨rfl, -⟩ := Or_ok e; exact .or h
  implies := fun a b r ha hb e => orOp_unbounded (Not_unbounded ha) hb e
  iff := fun a b r ha hb e => by
    unfold Expr.Iff at e
    simp only [Outcome.bind_eq_ok] at e
    obtain ⟨p, hp, q, hq, e⟩ := e
    exact orOp_unbounded (andOp_unbounded ha hb hp)
      (andOp_unbounded (Not_unbounded ha) (Not_unbounded hb) hq) e
  xor := fun a b r ha hb e => by
    unfold Expr.Xor at e
    simp only [Outcome.bind_eq_ok] at e
    obtain ⟨p, hp, q, hq, e⟩ := e
    exact andOp_unbounded (orOp_unbounded ha hb hp)
      (orOp_unbounded (Not_unbounded ha) (Not_unbounded hb) hq) e
  always := fun e h => .always h
  eventually := fun e h => .eventually h
  untl := fun a b ha hb => .untl ha hb

theorem built_closed : ClosedP (K := K) Built where
  const := fun b => .const b
  pred := fun n op c => .comparison n op c
  not := fun e h => .not h
  and := fun l r h e => .and h e
  or := fun l r h e => .or h e
  implies := fun a b r ha hb e => .implies ha hb e
  iff := fun a b r ha hb e => .iff ha hb e
  xor := fun a b r ha hb e => .xor ha hb e
  always := fun e h => .always h
  eventually := fun e h => .eventually h
  untl := fun a b ha hb => .untl ha hb

theorem parsed_all {P : Expr K → Prop} (hP : ClosedP P) {nd : Bool} {fuel : Nat} {input : List Char}
    {sp : Specification K} (h : fromString nd fuel input = .ok sp) :
    (∀ p ∈ sp.formulas, P p.2) ∧ ∀ p ∈ sp.assertions, P p.2 := by
  obtain ⟨st, h1, rfl⟩ := fromString_inv (AllE_invariant (nd := nd) hP)
    ⟨by simp, by simp, by simp, by simp⟩ h
  exact ⟨h1.1, h1.2.1⟩

end parser
end Verif
