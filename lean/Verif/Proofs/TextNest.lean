import Verif.Spec.TextNest
import Verif.Spec.Depth
import Verif.Proofs.Meaning

/-! # Helper lemmas for C139: the expressions of a text are nested as the text is -/

set_option linter.unusedSectionVars false

namespace Verif
open Spec

theorem nested_mono {d d' : Nat} {e : Expr ℝ} (h : Nested d e) : d ≤ d' → Nested d' e := by
  induction h generalizing d' with
  | pred d n op c => exact fun _ => .pred d' n op c
  | not _ ih => exact fun h => .not (ih h)
  | and hl _ ih => exact fun h => .and hl fun e he => ih e he h
  | or hl _ ih => exact fun h => .or hl fun e he => ih e he h
  | always _ ih =>
    intro h
    obtain ⟨k, rfl⟩ : ∃ k, d' = k + 1 := ⟨d' - 1, by omega⟩
    exact .always (ih (by omega))
  | eventually _ ih =>
    intro h
    obtain ⟨k, rfl⟩ : ∃ k, d' = k + 1 := ⟨d' - 1, by omega⟩
    exact .eventually (ih (by omega))

/-- The expression is nested as deep as is said, if anything is said. -/
def HasNest (e : Expr ℝ) (m : Option Nat) : Prop := ∀ d, m = some d → Nested d e

theorem joinNest_some {m m' : Option Nat} {d : Nat} (h : joinNest m m' = some d) :
    ∃ a b, m = some a ∧ m' = some b ∧ a ≤ d ∧ b ≤ d := by
  cases m <;> cases m' <;> simp only [joinNest, Option.some.injEq, reduceCtorEq] at h
  exact ⟨_, _, rfl, rfl, by omega, by omega⟩

theorem nested_Not {d : Nat} {e : Expr ℝ} (h : Nested d e) : Nested d (.Not e) := by
  cases h <;> exact .not (by constructor <;> assumption)

theorem nest_Not {e : Expr ℝ} {m : Option Nat} (h : HasNest e m) : HasNest (.Not e) m :=
  fun d hd => nested_Not (h d hd)

theorem nested_and {d : Nat} {as : List (Expr ℝ)} (h : Nested d (.and as)) : 2 ≤ as.length ∧ ∀ e ∈ as, Nested d e := by
  cases h with
  | and hl h => exact ⟨hl, h⟩

theorem nested_or {d : Nat} {as : List (Expr ℝ)} (h : Nested d (.or as)) : 2 ≤ as.length ∧ ∀ e ∈ as, Nested d e := by
  cases h with
  | or hl h => exact ⟨hl, h⟩

theorem nest_andOp {a b r : Expr ℝ} (h : Expr.andOp a b = .ok r) {m m' : Option Nat} (ha : HasNest a m)
    (hb : HasNest b m') : HasNest r (joinNest m m') := by
  intro d hd
  obtain ⟨p, q, h1, h2, hp, hq⟩ := joinNest_some hd
  have ha := nested_mono (ha p h1) hp
  have hb := nested_mono (hb q h2) hq
  cases and_form h with
  | tru => exact hb
  | fls => cases ha
  | skip as => exact ha
  | append as bs =>
    have h1 := nested_and ha
    have h2 := nested_and hb
    refine .and (by simp; omega) fun e he => ?_
    rcases List.mem_append.1 he with he | he
    · exact h1.2 e he
    · exact h2.2 e he
  | snoc as b =>
    have h1 := nested_and ha
    refine .and (by simp; omega) fun e he => ?_
    rcases List.mem_append.1 he with he | he
    · exact h1.2 e he
    · rw [List.mem_singleton] at he; rw [he]; exact hb
  | pair a b =>
    refine .and (by simp) fun e he => ?_
    simp only [List.mem_cons, List.not_mem_nil, or_false] at he
    rcases he with rfl | rfl <;> assumption

theorem nest_orOp {a b r : Expr ℝ} (h : Expr.orOp a b = .ok r) {m m' : Option Nat} (ha : HasNest a m)
    (hb : HasNest b m') : HasNest r (joinNest m m') := by
  intro d hd
  obtain ⟨p, q, h1, h2, hp, hq⟩ := joinNest_some hd
  have ha := nested_mono (ha p h1) hp
  have hb := nested_mono (hb q h2) hq
  cases or_form h with
  | fls => exact hb
  | tru => cases ha
  | skip as => exact ha
  | append as bs =>
    have h1 := nested_or ha
    have h2 := nested_or hb
    refine .or (by simp; omega) fun e he => ?_
    rcases List.mem_append.1 he with he | he
    · exact h1.2 e he
    · exact h2.2 e he
  | snoc as b =>
    have h1 := nested_or ha
    refine .or (by simp; omega) fun e he => ?_
    rcases List.mem_append.1 he with he | he
    · exact h1.2 e he
    · rw [List.mem_singleton] at he; rw [he]; exact hb
  | pair a b =>
    refine .or (by simp) fun e he => ?_
    simp only [List.mem_cons, List.not_mem_nil, or_false] at he
    rcases he with rfl | rfl <;> assumption

theorem joinNest_self (m m' : Option Nat) : joinNest (joinNest m m') (joinNest m m') = joinNest m m' := by
  cases m <;> cases m' <;> simp [joinNest]

theorem nests {env : String → Option Nat} {es : List (Expr ℝ)} {ts : List Syn}
    (h : List.Forall₂ (fun e t => HasNest e (synNest env t)) es ts) :
    ∀ d, synNestAll env ts = some d → ∀ e ∈ es, Nested d e := by
  induction h with
  | nil => simp
  | cons h _ ih =>
    intro d hd e' he'
    rw [synNestAll] at hd
    obtain ⟨p, q, h1, h2, hp, hq⟩ := joinNest_some hd
    rcases List.mem_cons.1 he' with rfl | he'
    · exact nested_mono (h p h1) hp
    · exact nested_mono (ih q h2 e' he') hq

section
variable [Strtod ℝ]

theorem nestRespects : Respects synNest HasNest := by
  intro envE env henv
  suffices H : ∀ (n : Nat) (t : Syn), sizeOf t < n → ∀ e, denote reversed envE t = .ok e →
      HasNest e (synNest env t) from fun t e => H _ t (Nat.lt_succ_self _) e
  intro n
  induction n with
  | zero => intro t ht; omega
  | succ n ih =>
    intro t ht e he
    cases t with
    | tru => exact fun d hd => by simp [synNest] at hd
    | fls => exact fun d hd => by simp [synNest] at hd
    | ref k =>
      simp only [denote] at he
      split at he
      · next e' h => cases he; exact henv _ _ h
      · cases he
    | cmp o k c =>
      simp only [denote, Outcome.bind_eq_ok, Outcome.pure_eq_ok] at he
      obtain ⟨d, hd, he⟩ := he
      cases he
      rw [numLit_real hd]
      exact fun d _ => .pred _ _ _ _
    | rcmp o c k =>
      simp only [denote, Outcome.bind_eq_ok, Outcome.pure_eq_ok] at he
      obtain ⟨d, hd, he⟩ := he
      cases he
      rw [numLit_real hd]
      exact fun d _ => .pred _ _ _ _
    | not a =>
      simp only [denote, Outcome.bind_eq_ok, Outcome.pure_eq_ok] at he
      obtain ⟨y, hy, he⟩ := he
      cases he
      simp at ht
      exact nest_Not (ih a (by omega) y hy)
    | and ts =>
      simp only [denote, Outcome.bind_eq_ok] at he
      obtain ⟨es, hes, he⟩ := he
      split at he
      · cases he
      · obtain ⟨rfl, h2⟩ := And_ok he
        simp at ht
        exact fun d hd => .and h2 (nests (env := env) (listForm (P := fun e t => HasNest e (synNest env t))
          (fun t' ht' e' he' => ih t' (by have := List.sizeOf_lt_of_mem ht'; omega) e' he') hes) d hd)
    | or ts =>
      simp only [denote, Outcome.bind_eq_ok] at he
      obtain ⟨es, hes, he⟩ := he
      split at he
      · cases he
      · obtain ⟨rfl, h2⟩ := Or_ok he
        simp at ht
        exact fun d hd => .or h2 (nests (env := env) (listForm (P := fun e t => HasNest e (synNest env t))
          (fun t' ht' e' he' => ih t' (by have := List.sizeOf_lt_of_mem ht'; omega) e' he') hes) d hd)
    | implies a b =>
      simp only [denote, Outcome.bind_eq_ok] at he
      obtain ⟨y, hy, z, hz, he⟩ := he
      simp at ht
      exact nest_orOp he (nest_Not (ih a (by omega) y hy)) (ih b (by omega) z hz)
    | iff a b =>
      simp only [denote, Outcome.bind_eq_ok, Expr.Iff] at he
      obtain ⟨y, hy, z, hz, p, hp, q, hq, he⟩ := he
      simp at ht
      have h1 := ih a (by omega) y hy
      have h2 := ih b (by omega) z hz
      have := nest_orOp he (nest_andOp hp h1 h2) (nest_andOp hq (nest_Not h1) (nest_Not h2))
      rwa [joinNest_self] at this
    | xor a b =>
      simp only [denote, Outcome.bind_eq_ok, Expr.Xor] at he
      obtain ⟨y, hy, z, hz, p, hp, q, hq, he⟩ := he
      simp at ht
      have h1 := ih a (by omega) y hy
      have h2 := ih b (by omega) z hz
      have := nest_andOp he (nest_orOp hp h1 h2) (nest_orOp hq (nest_Not h1) (nest_Not h2))
      rwa [joinNest_self] at this
    | always a =>
      simp only [denote, Outcome.bind_eq_ok, Outcome.pure_eq_ok] at he
      obtain ⟨y, hy, he⟩ := he
      cases he
      simp at ht
      intro d hd
      rw [synNest, Option.map_eq_some_iff] at hd
      obtain ⟨k, hk, rfl⟩ := hd
      exact .always (ih a (by omega) y hy k hk)
    | eventually a =>
      simp only [denote, Outcome.bind_eq_ok, Outcome.pure_eq_ok] at he
      obtain ⟨y, hy, he⟩ := he
      cases he
      simp at ht
      intro d hd
      rw [synNest, Option.map_eq_some_iff] at hd
      obtain ⟨k, hk, rfl⟩ := hd
      exact .eventually (ih a (by omega) y hy k hk)
    | untl a b => exact fun d hd => by simp [synNest] at hd

end

end Verif
