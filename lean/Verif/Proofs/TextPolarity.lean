import Verif.Spec.TextPolarity
import Verif.Spec.Formula
import Verif.Proofs.Meaning

/-! # Helper lemmas for C139: the expressions of a safety text are safety formulas -/

set_option linter.unusedSectionVars false

namespace Verif
open Spec

/-- The expression has the polarities that are said. -/
def HasPolarity (e : Expr ℝ) (P : Bool → Prop) : Prop := ∀ b, P b → Safety b e

theorem safety_Not {b : Bool} {e : Expr ℝ} (h : Safety (!b) e) : Safety b (.Not e) := by
  cases e with
  | const c => generalize (!b) = s at h; cases h
  | _ => exact .not h

theorem safety_and {b : Bool} {as : List (Expr ℝ)} (h : Safety b (.and as)) :
    2 ≤ as.length ∧ ∀ e ∈ as, Safety b e := by
  cases h with
  | and hl h => exact ⟨hl, h⟩

theorem safety_or {b : Bool} {as : List (Expr ℝ)} (h : Safety b (.or as)) :
    2 ≤ as.length ∧ ∀ e ∈ as, Safety b e := by
  cases h with
  | or hl h => exact ⟨hl, h⟩

theorem safety_andOp {a b r : Expr ℝ} (h : Expr.andOp a b = .ok r) {s : Bool} (ha : Safety s a)
    (hb : Safety s b) : Safety s r := by
  cases and_form h with
  | tru => exact hb
  | fls => cases ha
  | skip as => exact ha
  | append as bs =>
    have h1 := safety_and ha
    have h2 := safety_and hb
    refine .and (by simp; omega) fun e he => ?_
    rcases List.mem_append.1 he with he | he
    · exact h1.2 e he
    · exact h2.2 e he
  | snoc as b =>
    have h1 := safety_and ha
    refine .and (by simp; omega) fun e he => ?_
    rcases List.mem_append.1 he with he | he
    · exact h1.2 e he
    · rw [List.mem_singleton] at he; rw [he]; exact hb
  | pair a b =>
    refine .and (by simp) fun e he => ?_
    simp only [List.mem_cons, List.not_mem_nil, or_false] at he
    rcases he with rfl | rfl <;> assumption

theorem safety_orOp {a b r : Expr ℝ} (h : Expr.orOp a b = .ok r) {s : Bool} (ha : Safety s a)
    (hb : Safety s b) : Safety s r := by
  cases or_form h with
  | fls => exact hb
  | tru => cases ha
  | skip as => exact ha
  | append as bs =>
    have h1 := safety_or ha
    have h2 := safety_or hb
    refine .or (by simp; omega) fun e he => ?_
    rcases List.mem_append.1 he with he | he
    · exact h1.2 e he
    · exact h2.2 e he
  | snoc as b =>
    have h1 := safety_or ha
    refine .or (by simp; omega) fun e he => ?_
    rcases List.mem_append.1 he with he | he
    · exact h1.2 e he
    · rw [List.mem_singleton] at he; rw [he]; exact hb
  | pair a b =>
    refine .or (by simp) fun e he => ?_
    simp only [List.mem_cons, List.not_mem_nil, or_false] at he
    rcases he with rfl | rfl <;> assumption

theorem polarities {env : String → Bool → Prop} {es : List (Expr ℝ)} {ts : List Syn}
    (h : List.Forall₂ (fun e t => HasPolarity e (synPolarity env t)) es ts) :
    ∀ b, synPolarityAll env ts b → ∀ e ∈ es, Safety b e := by
  induction h with
  | nil => simp
  | cons h _ ih =>
    intro b hb e' he'
    rw [synPolarityAll] at hb
    rcases List.mem_cons.1 he' with rfl | he'
    · exact h b hb.1
    · exact ih b hb.2 e' he'

section
variable [Strtod ℝ]

theorem polarityRespects : Respects synPolarity HasPolarity := by
  intro envE env henv
  suffices H : ∀ (n : Nat) (t : Syn), sizeOf t < n → ∀ e, denote reversed envE t = .ok e →
      HasPolarity e (synPolarity env t) from fun t e => H _ t (Nat.lt_succ_self _) e
  intro n
  induction n with
  | zero => intro t ht; omega
  | succ n ih =>
    intro t ht e he
    cases t with
    | tru => exact fun b hb => by simp [synPolarity] at hb
    | fls => exact fun b hb => by simp [synPolarity] at hb
    | ref k =>
      simp only [denote] at he
      split at he
      · next e' h => cases he; exact henv _ _ h
      · cases he
    | cmp o k c =>
      simp only [denote, Outcome.bind_eq_ok, Outcome.pure_eq_ok] at he
      obtain ⟨d, hd, he⟩ := he
      cases he
      rw [numLit_real hd]
      exact fun b _ => .pred _ _ _ _
    | rcmp o c k =>
      simp only [denote, Outcome.bind_eq_ok, Outcome.pure_eq_ok] at he
      obtain ⟨d, hd, he⟩ := he
      cases he
      rw [numLit_real hd]
      exact fun b _ => .pred _ _ _ _
    | not a =>
      simp only [denote, Outcome.bind_eq_ok, Outcome.pure_eq_ok] at he
      obtain ⟨y, hy, he⟩ := he
      cases he
      simp at ht
      exact fun b hb => safety_Not (ih a (by omega) y hy _ hb)
    | and ts =>
      simp only [denote, Outcome.bind_eq_ok] at he
      obtain ⟨es, hes, he⟩ := he
      split at he
      · cases he
      · obtain ⟨rfl, h2⟩ := And_ok he
        simp at ht
        exact fun d hd => .and h2 (polarities (env := env) (listForm (P := fun e t => HasPolarity e (synPolarity env t))
          (fun t' ht' e' he' => ih t' (by have := List.sizeOf_lt_of_mem ht'; omega) e' he') hes) d hd)
    | or ts =>
      simp only [denote, Outcome.bind_eq_ok] at he
      obtain ⟨es, hes, he⟩ := he
      split at he
      · cases he
      · obtain ⟨rfl, h2⟩ := Or_ok he
        simp at ht
        exact fun d hd => .or h2 (polarities (env := env) (listForm (P := fun e t => HasPolarity e (synPolarity env t))
          (fun t' ht' e' he' => ih t' (by have := List.sizeOf_lt_of_mem ht'; omega) e' he') hes) d hd)
    | implies a b =>
      simp only [denote, Outcome.bind_eq_ok] at he
      obtain ⟨y, hy, z, hz, he⟩ := he
      simp at ht
      exact fun s hs => safety_orOp he (safety_Not (ih a (by omega) y hy _ hs.1)) (ih b (by omega) z hz _ hs.2)
    | iff a b =>
      simp only [denote, Outcome.bind_eq_ok, Expr.Iff] at he
      obtain ⟨y, hy, z, hz, p, hp, q, hq, he⟩ := he
      simp at ht
      have h1 := ih a (by omega) y hy
      have h2 := ih b (by omega) z hz
      exact fun s hs => safety_orOp he (safety_andOp hp (h1 _ hs.1.1) (h2 _ hs.1.2))
        (safety_andOp hq (safety_Not (h1 _ hs.2.1)) (safety_Not (h2 _ hs.2.2)))
    | xor a b =>
      simp only [denote, Outcome.bind_eq_ok, Expr.Xor] at he
      obtain ⟨y, hy, z, hz, p, hp, q, hq, he⟩ := he
      simp at ht
      have h1 := ih a (by omega) y hy
      have h2 := ih b (by omega) z hz
      exact fun s hs => safety_andOp he (safety_orOp hp (h1 _ hs.1.1) (h2 _ hs.1.2))
        (safety_orOp hq (safety_Not (h1 _ hs.2.1)) (safety_Not (h2 _ hs.2.2)))
    | always a =>
      simp only [denote, Outcome.bind_eq_ok, Outcome.pure_eq_ok] at he
      obtain ⟨y, hy, he⟩ := he
      cases he
      simp at ht
      intro b hb
      rw [synPolarity] at hb
      obtain ⟨rfl, hb⟩ := hb
      exact .always (.inl rfl) (ih a (by omega) y hy _ hb)
    | eventually a =>
      simp only [denote, Outcome.bind_eq_ok, Outcome.pure_eq_ok] at he
      obtain ⟨y, hy, he⟩ := he
      cases he
      simp at ht
      intro b hb
      rw [synPolarity] at hb
      obtain ⟨rfl, hb⟩ := hb
      exact .eventually (.inl rfl) (ih a (by omega) y hy _ hb)
    | untl a b => exact fun b hb => by simp [synPolarity] at hb

end

end Verif
