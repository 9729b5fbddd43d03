import Verif.Spec.TextActual
import Verif.Proofs.TextNest
import Verif.Proofs.ActualRob

/-! # Helper lemmas for C139: texts with Until -/

set_option linter.unusedSectionVars false

namespace Verif
open Spec

theorem levels_mono {d d' : Nat} {e : Expr ℝ} (h : Levels d e) : d ≤ d' → Levels d' e := by
  induction h generalizing d' with
  | pred d n op c => exact fun _ => .pred d' n op c
  | not _ ih => exact fun h => .not (ih h)
  | and hl _ ih => exact fun h => .and hl fun e he => ih e he h
  | or hl _ ih => exact fun h => .or hl fun e he => ih e he h
  | always hi _ ih =>
    intro h
    obtain ⟨k, rfl⟩ : ∃ k, d' = k + 1 := ⟨d' - 1, by omega⟩
    exact .always hi (ih (by omega))
  | eventually hi _ ih =>
    intro h
    obtain ⟨k, rfl⟩ : ∃ k, d' = k + 1 := ⟨d' - 1, by omega⟩
    exact .eventually hi (ih (by omega))
  | untl hi _ _ ih ih' =>
    intro h
    obtain ⟨k, rfl⟩ : ∃ k, d' = k + 4 := ⟨d' - 4, by omega⟩
    exact .untl hi (ih (by omega)) (ih' (by omega))

/-- The expression is nested as deep as is said, if anything is said. -/
def HasLevels (e : Expr ℝ) (m : Option Nat) : Prop := ∀ d, m = some d → Levels d e

theorem levels_Not {d : Nat} {e : Expr ℝ} (h : Levels d e) : Levels d (.Not e) := by
  cases h <;> exact .not (by constructor <;> assumption)

theorem level_Not {e : Expr ℝ} {m : Option Nat} (h : HasLevels e m) : HasLevels (.Not e) m :=
  fun d hd => levels_Not (h d hd)

theorem levels_and {d : Nat} {as : List (Expr ℝ)} (h : Levels d (.and as)) : 2 ≤ as.length ∧ ∀ e ∈ as, Levels d e := by
  cases h with
  | and hl h => exact ⟨hl, h⟩

theorem levels_or {d : Nat} {as : List (Expr ℝ)} (h : Levels d (.or as)) : 2 ≤ as.length ∧ ∀ e ∈ as, Levels d e := by
  cases h with
  | or hl h => exact ⟨hl, h⟩

theorem level_andOp {a b r : Expr ℝ} (h : Expr.andOp a b = .ok r) {m m' : Option Nat} (ha : HasLevels a m)
    (hb : HasLevels b m') : HasLevels r (joinNest m m') := by
  intro d hd
  obtain ⟨p, q, h1, h2, hp, hq⟩ := joinNest_some hd
  have ha := levels_mono (ha p h1) hp
  have hb := levels_mono (hb q h2) hq
  cases and_form h with
  | tru => exact hb
  | fls => cases ha
  | skip as => exact ha
  | append as bs =>
    have h1 := levels_and ha
    have h2 := levels_and hb
    refine .and (by simp; omega) fun e he => ?_
    rcases List.mem_append.1 he with he | he
    · exact h1.2 e he
    · exact h2.2 e he
  | snoc as b =>
    have h1 := levels_and ha
    refine .and (by simp; omega) fun e he => ?_
    rcases List.mem_append.1 he with he | he
    · exact h1.2 e he
    · rw [List.mem_singleton] at he; rw [he]; exact hb
  | pair a b =>
    refine .and (by simp) fun e he => ?_
    simp only [List.mem_cons, List.not_mem_nil, or_false] at he
    rcases he with rfl | rfl <;> assumption

theorem level_orOp {a b r : Expr ℝ} (h : Expr.orOp a b = .ok r) {m m' : Option Nat} (ha : HasLevels a m)
    (hb : HasLevels b m') : HasLevels r (joinNest m m') := by
  intro d hd
  obtain ⟨p, q, h1, h2, hp, hq⟩ := joinNest_some hd
  have ha := levels_mono (ha p h1) hp
  have hb := levels_mono (hb q h2) hq
  cases or_form h with
  | fls => exact hb
  | tru => cases ha
  | skip as => exact ha
  | append as bs =>
    have h1 := levels_or ha
    have h2 := levels_or hb
    refine .or (by simp; omega) fun e he => ?_
    rcases List.mem_append.1 he with he | he
    · exact h1.2 e he
    · exact h2.2 e he
  | snoc as b =>
    have h1 := levels_or ha
    refine .or (by simp; omega) fun e he => ?_
    rcases List.mem_append.1 he with he | he
    · exact h1.2 e he
    · rw [List.mem_singleton] at he; rw [he]; exact hb
  | pair a b =>
    refine .or (by simp) fun e he => ?_
    simp only [List.mem_cons, List.not_mem_nil, or_false] at he
    rcases he with rfl | rfl <;> assumption

theorem levelss {env : String → Option Nat} {es : List (Expr ℝ)} {ts : List Syn}
    (h : List.Forall₂ (fun e t => HasLevels e (synLevels env t)) es ts) :
    ∀ d, synLevelsAll env ts = some d → ∀ e ∈ es, Levels d e := by
  induction h with
  | nil => simp
  | cons h _ ih =>
    intro d hd e' he'
    rw [synLevelsAll] at hd
    obtain ⟨p, q, h1, h2, hp, hq⟩ := joinNest_some hd
    rcases List.mem_cons.1 he' with rfl | he'
    · exact levels_mono (h p h1) hp
    · exact levels_mono (ih q h2 e' he') hq

section
variable [Strtod ℝ]

theorem levelsRespects : Respects synLevels HasLevels := by
  intro envE env henv
  suffices H : ∀ (n : Nat) (t : Syn), sizeOf t < n → ∀ e, denote reversed envE t = .ok e →
      HasLevels e (synLevels env t) from fun t e => H _ t (Nat.lt_succ_self _) e
  intro n
  induction n with
  | zero => intro t ht; omega
  | succ n ih =>
    intro t ht e he
    cases t with
    | tru => exact fun d hd => by simp [synLevels] at hd
    | fls => exact fun d hd => by simp [synLevels] at hd
    | ref k =>
      simp only [denote] at he
      split at he
      · next e' h => cases he; exact henv _ _ h
      · cases he
    | cmp o k c =>
      simp only [denote, Outcome.bind_eq_ok, Outcome.pure_eq_ok] at he
      obtain ⟨d, hd, he⟩ := he
      cases he
      rw [numLit_real hd]
      exact fun d _ => .pred _ _ _ _
    | rcmp o c k =>
      simp only [denote, Outcome.bind_eq_ok, Outcome.pure_eq_ok] at he
      obtain ⟨d, hd, he⟩ := he
      cases he
      rw [numLit_real hd]
      exact fun d _ => .pred _ _ _ _
    | not a =>
      simp only [denote, Outcome.bind_eq_ok, Outcome.pure_eq_ok] at he
      obtain ⟨y, hy, he⟩ := he
      cases he
      simp at ht
      exact level_Not (ih a (by omega) y hy)
    | and ts =>
      simp only [denote, Outcome.bind_eq_ok] at he
      obtain ⟨es, hes, he⟩ := he
      split at he
      · cases he
      · obtain ⟨rfl, h2⟩ := And_ok he
        simp at ht
        exact fun d hd => .and h2 (levelss (env := env) (listForm (P := fun e t => HasLevels e (synLevels env t))
          (fun t' ht' e' he' => ih t' (by have := List.sizeOf_lt_of_mem ht'; omega) e' he') hes) d hd)
    | or ts =>
      simp only [denote, Outcome.bind_eq_ok] at he
      obtain ⟨es, hes, he⟩ := he
      split at he
      · cases he
      · obtain ⟨rfl, h2⟩ := Or_ok he
        simp at ht
        exact fun d hd => .or h2 (levelss (env := env) (listForm (P := fun e t => HasLevels e (synLevels env t))
          (fun t' ht' e' he' => ih t' (by have := List.sizeOf_lt_of_mem ht'; omega) e' he') hes) d hd)
    | implies a b =>
      simp only [denote, Outcome.bind_eq_ok] at he
      obtain ⟨y, hy, z, hz, he⟩ := he
      simp at ht
      exact level_orOp he (level_Not (ih a (by omega) y hy)) (ih b (by omega) z hz)
    | iff a b =>
      simp only [denote, Outcome.bind_eq_ok, Expr.Iff] at he
      obtain ⟨y, hy, z, hz, p, hp, q, hq, he⟩ := he
      simp at ht
      have h1 := ih a (by omega) y hy
      have h2 := ih b (by omega) z hz
      have := level_orOp he (level_andOp hp h1 h2) (level_andOp hq (level_Not h1) (level_Not h2))
      rwa [joinNest_self] at this
    | xor a b =>
      simp only [denote, Outcome.bind_eq_ok, Expr.Xor] at he
      obtain ⟨y, hy, z, hz, p, hp, q, hq, he⟩ := he
      simp at ht
      have h1 := ih a (by omega) y hy
      have h2 := ih b (by omega) z hz
      have := level_andOp he (level_orOp hp h1 h2) (level_orOp hq (level_Not h1) (level_Not h2))
      rwa [joinNest_self] at this
    | always a =>
      simp only [denote, Outcome.bind_eq_ok, Outcome.pure_eq_ok] at he
      obtain ⟨y, hy, he⟩ := he
      cases he
      simp at ht
      intro d hd
      rw [synLevels, Option.map_eq_some_iff] at hd
      obtain ⟨k, hk, rfl⟩ := hd
      exact .always (.inl rfl) (ih a (by omega) y hy k hk)
    | eventually a =>
      simp only [denote, Outcome.bind_eq_ok, Outcome.pure_eq_ok] at he
      obtain ⟨y, hy, he⟩ := he
      cases he
      simp at ht
      intro d hd
      rw [synLevels, Option.map_eq_some_iff] at hd
      obtain ⟨k, hk, rfl⟩ := hd
      exact .eventually (.inl rfl) (ih a (by omega) y hy k hk)
    | untl a b =>
      simp only [denote, Outcome.bind_eq_ok, Outcome.pure_eq_ok] at he
      obtain ⟨y, hy, z, hz, he⟩ := he
      cases he
      simp at ht
      intro d hd
      rw [synLevels, Option.map_eq_some_iff] at hd
      obtain ⟨k, hk, rfl⟩ := hd
      obtain ⟨p, q, h1, h2, hp, hq⟩ := joinNest_some hk
      exact .untl (.inl rfl) (levels_mono (ih a (by omega) y hy p h1) hp) (levels_mono (ih b (by omega) z hz q h2) hq)

theorem actual_andOp {T : ℝ} {x : String → ℝ → ℝ} {a b r : Expr ℝ} (h : Expr.andOp a b = .ok r) (t : ℝ) :
    rob T x (actual r) t = rob T x (actual a) t ⊓ rob T x (actual b) t := by
  cases and_form h <;> simp [actual, actuals_eq, rob, robAll, robAll_app]

theorem actual_orOp {T : ℝ} {x : String → ℝ → ℝ} {a b r : Expr ℝ} (h : Expr.orOp a b = .ok r) (t : ℝ) :
    rob T x (actual r) t = rob T x (actual a) t ⊔ rob T x (actual b) t := by
  cases or_form h <;> simp [actual, actuals_eq, rob, robAny, robAny_app]

theorem actual_Not {T : ℝ} {x : String → ℝ → ℝ} (a : Expr ℝ) (t : ℝ) :
    rob T x (actual (.Not a)) t = - rob T x (actual a) t := by
  cases a with
  | const b => cases b <;> simp [Expr.Not, actual, rob]
  | _ => simp [Expr.Not, actual, rob]

theorem actualAll_map (T : ℝ) (x : String → ℝ → ℝ) {env : String → ℝ → EReal} {t : ℝ} {es : List (Expr ℝ)} {ts : List Syn}
    (h : List.Forall₂ (fun e s => ∀ t, rob T x (actual e) t = synRob T x env (synActual s) t) es ts) :
    robAll T x (actuals es) t = synRobAll T x env (synActuals ts) t ∧
      robAny T x (actuals es) t = synRobAny T x env (synActuals ts) t := by
  induction h with
  | nil => simp [actuals, synActuals, robAll, robAny, synRobAll, synRobAny]
  | cons h _ ih => simp [actuals, synActuals, robAll, robAny, synRobAll, synRobAny, h, ih.1, ih.2]

theorem actualRespects (T : ℝ) (x : String → ℝ → ℝ) :
    Respects (fun env a => synRob T x env (synActual a)) (fun e m => ∀ t, rob T x (actual e) t = m t) := by
  intro envE env henv
  suffices H : ∀ (n : Nat) (t : Syn), sizeOf t < n → ∀ e, denote reversed envE t = .ok e →
      ∀ s, rob T x (actual e) s = synRob T x env (synActual t) s from fun t e => H _ t (Nat.lt_succ_self _) e
  intro n
  induction n with
  | zero => intro t ht; omega
  | succ n ih =>
    intro t ht e he s
    cases t with
    | tru => cases he; simp [rob, synRob, Expr.Const, actual, synActual]
    | fls => cases he; simp [rob, synRob, Expr.Const, actual, synActual]
    | ref k =>
      simp only [denote] at he
      split at he
      · next e' h => cases he; exact henv _ _ h s
      · cases he
    | cmp o k c =>
      simp only [denote, Outcome.bind_eq_ok, Outcome.pure_eq_ok] at he
      obtain ⟨d, hd, he⟩ := he
      cases he
      rw [numLit_real hd]
      simp [rob, synRob, actual, synActual]
    | rcmp o c k =>
      simp only [denote, Outcome.bind_eq_ok, Outcome.pure_eq_ok] at he
      obtain ⟨d, hd, he⟩ := he
      cases he
      rw [numLit_real hd]
      simp [rob, synRob, actual, synActual]
    | not a =>
      simp only [denote, Outcome.bind_eq_ok, Outcome.pure_eq_ok] at he
      obtain ⟨y, hy, he⟩ := he
      cases he
      simp at ht
      rw [actual_Not, ih a (by omega) y hy, synActual, synRob]
    | and ts =>
      simp only [denote, Outcome.bind_eq_ok] at he
      obtain ⟨es, hes, he⟩ := he
      split at he
      · cases he
      · obtain ⟨rfl, -⟩ := And_ok he
        simp at ht
        rw [actual, synActual, rob, synRob]
        exact (actualAll_map T x (listForm (fun t' ht' e' he' => ih t' (by
          have := List.sizeOf_lt_of_mem ht'; omega) e' he') hes)).1
    | or ts =>
      simp only [denote, Outcome.bind_eq_ok] at he
      obtain ⟨es, hes, he⟩ := he
      split at he
      · cases he
      · obtain ⟨rfl, -⟩ := Or_ok he
        simp at ht
        rw [actual, synActual, rob, synRob]
        exact (actualAll_map T x (listForm (fun t' ht' e' he' => ih t' (by
          have := List.sizeOf_lt_of_mem ht'; omega) e' he') hes)).2
    | implies a b =>
      simp only [denote, Outcome.bind_eq_ok] at he
      obtain ⟨y, hy, z, hz, he⟩ := he
      simp at ht
      rw [actual_orOp he, actual_Not, ih a (by omega) y hy, ih b (by omega) z hz, synActual, synRob]
    | iff a b =>
      simp only [denote, Outcome.bind_eq_ok, Expr.Iff] at he
      obtain ⟨y, hy, z, hz, p, hp, q, hq, he⟩ := he
      simp at ht
      rw [actual_orOp he, actual_andOp hp, actual_andOp hq, actual_Not, actual_Not, ih a (by omega) y hy, ih b (by omega) z hz,
        synActual, synRob]
    | xor a b =>
      simp only [denote, Outcome.bind_eq_ok, Expr.Xor] at he
      obtain ⟨y, hy, z, hz, p, hp, q, hq, he⟩ := he
      simp at ht
      rw [actual_andOp he, actual_orOp hp, actual_orOp hq, actual_Not, actual_Not, ih a (by omega) y hy, ih b (by omega) z hz,
        synActual, synRob]
    | always a =>
      simp only [denote, Outcome.bind_eq_ok, Outcome.pure_eq_ok] at he
      obtain ⟨y, hy, he⟩ := he
      cases he
      simp at ht
      simp only [Expr.Always, Interval.default, actual, synActual, rob, synRob, window_default, ih a (by omega) y hy]
    | eventually a =>
      simp only [denote, Outcome.bind_eq_ok, Outcome.pure_eq_ok] at he
      obtain ⟨y, hy, he⟩ := he
      cases he
      simp at ht
      simp only [Expr.Eventually, Interval.default, actual, synActual, rob, synRob, window_default, ih a (by omega) y hy]
    | untl a b =>
      simp only [denote, Outcome.bind_eq_ok, Outcome.pure_eq_ok] at he
      obtain ⟨y, hy, z, hz, he⟩ := he
      cases he
      simp at ht
      simp only [Expr.Until, actual, synActual, rob, robAny, synRob, synRobAny, window_default, ih a (by omega) y hy,
        ih b (by omega) z hz]

theorem asserted_actual (T : ℝ) (x : String → ℝ → ℝ) : ∀ (cs : List Cmd) (env : String → ℝ → EReal),
    asserted (fun env a => synRob T x env (synActual a)) env cs = asserted (synRob T x) env (cs.map cmdActual)
  | [], _ => rfl
  | .define n t :: cs, env => by
    simp only [asserted, List.map_cons, cmdActual]
    exact asserted_actual T x cs _
  | .assert n t :: cs, env => by
    simp only [asserted, List.map_cons, cmdActual]
    rw [asserted_actual T x cs]

end

end Verif
