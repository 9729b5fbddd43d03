import Verif.Spec.Meaning
import Verif.Props.Ast
import Verif.Props.Start

/-!
# Helper lemmas for C78: expressions mean what the terms say
-/

set_option linter.unusedSectionVars false

namespace Verif
open Spec

/-! ## The functions that build expressions -/

section forms
variable {K : Type} [Field K] [LinearOrder K]

/-- What `a & b` can be. -/
inductive AndForm : Expr K → Expr K → Expr K → Prop
  | tru (b : Expr K) : AndForm (.const true) b b
  | fls (b : Expr K) : AndForm (.const false) b (.const false)
  | skip (as : List (Expr K)) : AndForm (.and as) (.const true) (.and as)
  | append (as bs : List (Expr K)) : AndForm (.and as) (.and bs) (.and (as ++ bs))
  | snoc (as : List (Expr K)) (b : Expr K) : AndForm (.and as) b (.and (as ++ [b]))
  | pair (a b : Expr K) : AndForm a b (.and [a, b])

theorem and_form {a b r : Expr K} (h : Expr.andOp a b = .ok r) : AndForm a b r := by
  unfold Expr.andOp at h
  split at h
  · next c => cases h; cases c <;> constructor
  · next args =>
    unfold Expr.andHelper at h
    split at h
    · next c =>
      obtain ⟨rfl, h2⟩ := And_ok h
      cases c
      · simp at h2
      · exact .skip _
    · obtain ⟨rfl, -⟩ := And_ok h; exact .append _ _
    · obtain ⟨rfl, -⟩ := And_ok h; exact .snoc _ _
  · obtain ⟨rfl, -⟩ := And_ok h; exact .pair _ _

/-- What `a | b` can be. -/
inductive OrForm : Expr K → Expr K → Expr K → Prop
  | fls (b : Expr K) : OrForm (.const false) b b
  | tru (b : Expr K) : OrForm (.const true) b (.const true)
  | skip (as : List (Expr K)) : OrForm (.or as) (.const false) (.or as)
  | append (as bs : List (Expr K)) : OrForm (.or as) (.or bs) (.or (as ++ bs))
  | snoc (as : List (Expr K)) (b : Expr K) : OrForm (.or as) b (.or (as ++ [b]))
  | pair (a b : Expr K) : OrForm a b (.or [a, b])

theorem or_form {a b r : Expr K} (h : Expr.orOp a b = .ok r) : OrForm a b r := by
  unfold Expr.orOp at h
  split at h
  · next c => cases h; cases c <;> constructor
  · next args =>
    unfold Expr.orHelper at h
    split at h
    · next c =>
      obtain ⟨rfl, h2⟩ := Or_ok h
      cases c
      · exact .skip _
      · simp at h2
    · obtain ⟨rfl, -⟩ := Or_ok h; exact .append _ _
    · obtain ⟨rfl, -⟩ := Or_ok h; exact .snoc _ _
  · obtain ⟨rfl, -⟩ := Or_ok h; exact .pair _ _

end forms

section build
variable {T : ℝ} {x : String → ℝ → ℝ}

theorem robAll_app (as bs : List (Expr ℝ)) (t : ℝ) :
    robAll T x (as ++ bs) t = robAll T x as t ⊓ robAll T x bs t := by
  induction as with
  | nil => simp [robAll]
  | cons a as ih => simp [robAll, ih, inf_assoc]

theorem robAny_app (as bs : List (Expr ℝ)) (t : ℝ) :
    robAny T x (as ++ bs) t = robAny T x as t ⊔ robAny T x bs t := by
  induction as with
  | nil => simp [robAny]
  | cons a as ih => simp [robAny, ih, sup_assoc]

theorem satAll_app (as bs : List (Expr ℝ)) (t : ℝ) :
    SatAll T x (as ++ bs) t ↔ SatAll T x as t ∧ SatAll T x bs t := by
  induction as with
  | nil => simp [SatAll]
  | cons a as ih => simp [SatAll, ih, and_assoc]

theorem satAny_app (as bs : List (Expr ℝ)) (t : ℝ) :
    SatAny T x (as ++ bs) t ↔ SatAny T x as t ∨ SatAny T x bs t := by
  induction as with
  | nil => simp [SatAny]
  | cons a as ih => simp [SatAny, ih, or_assoc]

theorem rob_andOp {a b r : Expr ℝ} (h : Expr.andOp a b = .ok r) (t : ℝ) :
    rob T x r t = rob T x a t ⊓ rob T x b t := by
  cases and_form h <;> simp [rob, robAll, robAll_app]

theorem rob_orOp {a b r : Expr ℝ} (h : Expr.orOp a b = .ok r) (t : ℝ) :
    rob T x r t = rob T x a t ⊔ rob T x b t := by
  cases or_form h <;> simp [rob, robAny, robAny_app]

theorem rob_Not (a : Expr ℝ) (t : ℝ) : rob T x (.Not a) t = - rob T x a t := by
  cases a with
  | const b => cases b <;> simp [Expr.Not, rob]
  | _ => simp [Expr.Not, rob]

theorem sat_andOp {a b r : Expr ℝ} (h : Expr.andOp a b = .ok r) (t : ℝ) :
    Sat T x r t ↔ Sat T x a t ∧ Sat T x b t := by
  cases and_form h <;> simp [Sat, SatAll, satAll_app]

theorem sat_orOp {a b r : Expr ℝ} (h : Expr.orOp a b = .ok r) (t : ℝ) :
    Sat T x r t ↔ Sat T x a t ∨ Sat T x b t := by
  cases or_form h <;> simp [Sat, SatAny, satAny_app]

theorem sat_Not (a : Expr ℝ) (t : ℝ) : Sat T x (.Not a) t ↔ ¬ Sat T x a t := by
  cases a with
  | const b => cases b <;> simp [Expr.Not, Sat]
  | _ => simp [Expr.Not, Sat]

end build

/-! ## Terms, for any relation between expressions and meanings -/

section generic
variable {α K : Type} [Field K] [LinearOrder K] [Arith K] [Strtod K] {mean : (String → α) → Syn → α} {R : Expr K → α → Prop}

/-- The relation is respected by terms. -/
def Respects (mean : (String → α) → Syn → α) (R : Expr K → α → Prop) : Prop :=
  ∀ (envE : String → Option (Expr K)) (env : String → α), (∀ n e, envE n = some e → R e (env n)) →
    ∀ t e, denote reversed envE t = .ok e → R e (mean env t)

theorem find_append (m : List (String × Expr K)) (n k : String) (e : Expr K) (h : n ∉ m.map Prod.fst) :
    find (m ++ [(n, e)]) k = if k = n then some e else find m k := by
  induction m with
  | nil =>
    by_cases hk : k = n
    · simp [find, hk]
    · simp [find, hk, Ne.symm hk]
  | cons p m ih =>
    have h1 : n ≠ p.1 := fun hh => h (by simp [hh])
    have h2 : n ∉ m.map Prod.fst := fun hh => h (by simp only [List.map_cons, List.mem_cons]; exact .inr hh)
    have ih := ih h2
    unfold find at ih ⊢
    by_cases hp : p.1 = k
    · have : k ≠ n := fun hh => h1 (by rw [hp, hh])
      simp [hp, this]
    · have hp' : (p.1 == k) = false := by simpa using hp
      simp only [List.cons_append, List.find?_cons, hp']
      exact ih

theorem asserted_generic (hR : Respects mean R) : ∀ (cs : List Cmd) (sp sp' : Specification K) (env : String → α),
    (∀ n e, find sp.formulas n = some e → R e (env n)) → evalSpec reversed sp cs = .ok sp' →
    ∃ new, sp'.assertions = sp.assertions ++ new ∧
      List.Forall₂ (fun p q => p.1 = q.1 ∧ R p.2 q.2) new (asserted mean env cs)
  | [], sp, sp', env, _, h => by
    cases h
    exact ⟨[], by simp, by simp [asserted]⟩
  | .define n t :: cs, sp, sp', env, henv, h => by
    simp only [evalSpec, evalCmd, Outcome.bind_eq_ok, Outcome.pure_eq_ok] at h
    obtain ⟨sp1, ⟨e, he, m, hm, hs⟩, h⟩ := h
    unfold addNew at hm
    split at hm
    · cases hm
    · next hn =>
      cases hm
      cases hs
      refine asserted_generic hR cs ⟨sp.formulas ++ [(n, e)], sp.assertions⟩ sp' (bindName env n (mean env t)) ?_ h
      intro k e' hk
      change find (sp.formulas ++ [(n, e)]) k = some e' at hk
      rw [find_append _ _ _ _ hn] at hk
      unfold bindName
      split at hk
      · next hkn =>
        cases hk
        rw [if_pos hkn]
        exact hR _ _ henv _ _ he
      · next hkn =>
        rw [if_neg hkn]
        exact henv _ _ hk
  | .assert n t :: cs, sp, sp', env, henv, h => by
    simp only [evalSpec, evalCmd, Outcome.bind_eq_ok, Outcome.pure_eq_ok] at h
    obtain ⟨sp1, ⟨e, he, m, hm, hs⟩, h⟩ := h
    unfold addNew at hm
    split at hm
    · cases hm
    · cases hm
      cases hs
      obtain ⟨new, h1, h2⟩ := asserted_generic hR cs ⟨sp.formulas, sp.assertions ++ [(n, e)]⟩ sp' env henv h
      refine ⟨(n, e) :: new, ?_, ?_⟩
      · rw [h1]; simp
      · exact .cons ⟨rfl, hR _ _ henv _ _ he⟩ h2

theorem asserted_text (hR : Respects mean R) {cs : List Cmd} {sp : Specification K} (env : String → α)
    (h : evalSpec reversed {} cs = .ok sp) :
    List.Forall₂ (fun p q => p.1 = q.1 ∧ R p.2 q.2) sp.assertions (asserted mean env cs) := by
  obtain ⟨new, h1, h2⟩ := asserted_generic hR cs {} sp env (by intro n e he; simp [find] at he) h
  rw [h1]
  exact h2

theorem listForm {env : String → Option (Expr K)} {P : Expr K → Syn → Prop} : ∀ {ts : List Syn} {es : List (Expr K)},
    (∀ t ∈ ts, ∀ e, denote reversed env t = .ok e → P e t) → evalAll reversed env ts = .ok es →
    List.Forall₂ P es ts
  | [], es, _, h => by cases h; exact .nil
  | t :: ts, es, hP, h => by
    simp only [evalAll, Outcome.bind_eq_ok, Outcome.pure_eq_ok] at h
    obtain ⟨e, he, es', hes, h⟩ := h
    cases h
    exact .cons (hP t (by simp) e he) (listForm (fun t ht => hP t (by simp [ht])) hes)

theorem uses_Not {e : Expr K} {n : String} (h : Uses n (Expr.Not e)) : Uses n e := by
  cases e with
  | const b => cases h
  | _ => cases h; assumption

theorem uses_andOp {a b r : Expr K} (h : Expr.andOp a b = .ok r) {n : String} (hr : Uses n r) :
    Uses n a ∨ Uses n b := by
  cases and_form h with
  | tru => exact .inr hr
  | fls => cases hr
  | skip as => exact .inl hr
  | append as bs =>
    cases hr with
    | and hm hu =>
      rcases List.mem_append.1 hm with hm | hm
      · exact .inl (.and hm hu)
      · exact .inr (.and hm hu)
  | snoc as b =>
    cases hr with
    | and hm hu =>
      rcases List.mem_append.1 hm with hm | hm
      · exact .inl (.and hm hu)
      · rw [List.mem_singleton] at hm; subst hm; exact .inr hu
  | pair a b =>
    cases hr with
    | and hm hu =>
      simp only [List.mem_cons, List.not_mem_nil, or_false] at hm
      rcases hm with rfl | rfl
      · exact .inl hu
      · exact .inr hu

theorem uses_orOp {a b r : Expr K} (h : Expr.orOp a b = .ok r) {n : String} (hr : Uses n r) :
    Uses n a ∨ Uses n b := by
  cases or_form h with
  | fls => exact .inr hr
  | tru => cases hr
  | skip as => exact .inl hr
  | append as bs =>
    cases hr with
    | or hm hu =>
      rcases List.mem_append.1 hm with hm | hm
      · exact .inl (.or hm hu)
      · exact .inr (.or hm hu)
  | snoc as b =>
    cases hr with
    | or hm hu =>
      rcases List.mem_append.1 hm with hm | hm
      · exact .inl (.or hm hu)
      · rw [List.mem_singleton] at hm; subst hm; exact .inr hu
  | pair a b =>
    cases hr with
    | or hm hu =>
      simp only [List.mem_cons, List.not_mem_nil, or_false] at hm
      rcases hm with rfl | rfl
      · exact .inl hu
      · exact .inr hu

theorem signals_list {env : String → List String} {es : List (Expr K)} {ts : List Syn} {n : String}
    (h : List.Forall₂ (fun e t => ∀ n, Uses n e → n ∈ signals env t) es ts) :
    ∀ e ∈ es, Uses n e → n ∈ signalsAll env ts := by
  induction h with
  | nil => simp
  | cons h _ ih =>
    intro e he hu
    rw [signalsAll, List.mem_append]
    rcases List.mem_cons.1 he with rfl | he
    · exact .inl (h n hu)
    · exact .inr (ih e he hu)

theorem signalsRespects : Respects (K := K) signals (fun e l => ∀ n, Uses n e → n ∈ l) := by
  intro envE env henv
  suffices H : ∀ (k : Nat) (t : Syn), sizeOf t < k → ∀ e, denote reversed envE t = .ok e →
      ∀ n, Uses n e → n ∈ signals env t from fun t e => H _ t (Nat.lt_succ_self _) e
  intro k
  induction k with
  | zero => intro t ht; omega
  | succ k ih =>
    intro t ht e he n hn
    cases t with
    | tru => cases he; cases hn
    | fls => cases he; cases hn
    | ref k =>
      simp only [denote] at he
      split at he
      · next e' h => cases he; exact henv _ _ h n hn
      · cases he
    | cmp o k c =>
      simp only [denote, Outcome.bind_eq_ok, Outcome.pure_eq_ok] at he
      obtain ⟨d, hd, he⟩ := he
      cases he
      cases hn
      simp [signals]
    | rcmp o c k =>
      simp only [denote, Outcome.bind_eq_ok] at he
      obtain ⟨d, hd, he⟩ := he
      cases he
      cases hn
      simp [signals]
    | not a =>
      simp only [denote, Outcome.bind_eq_ok, Outcome.pure_eq_ok] at he
      obtain ⟨y, hy, he⟩ := he
      cases he
      simp at ht
      rw [signals]
      exact ih a (by omega) y hy n (uses_Not hn)
    | and ts =>
      simp only [denote, Outcome.bind_eq_ok] at he
      obtain ⟨es, hes, he⟩ := he
      split at he
      · cases he
      · obtain ⟨rfl, h2⟩ := And_ok he
        simp at ht
        cases hn with
        | and hm hu =>
          exact signals_list (listForm (P := fun e t => ∀ n, Uses n e → n ∈ signals env t)
            (fun t' ht' e' he' => ih t' (by have := List.sizeOf_lt_of_mem ht'; omega) e' he') hes) _ hm hu
    | or ts =>
      simp only [denote, Outcome.bind_eq_ok] at he
      obtain ⟨es, hes, he⟩ := he
      split at he
      · cases he
      · obtain ⟨rfl, h2⟩ := Or_ok he
        simp at ht
        cases hn with
        | or hm hu =>
          exact signals_list (listForm (P := fun e t => ∀ n, Uses n e → n ∈ signals env t)
            (fun t' ht' e' he' => ih t' (by have := List.sizeOf_lt_of_mem ht'; omega) e' he') hes) _ hm hu
    | implies a b =>
      simp only [denote, Outcome.bind_eq_ok] at he
      obtain ⟨y, hy, z, hz, he⟩ := he
      simp at ht
      rw [signals, List.mem_append]
      exact (uses_orOp he hn).imp (fun h => ih a (by omega) y hy n (uses_Not h)) (ih b (by omega) z hz n)
    | iff a b =>
      simp only [denote, Outcome.bind_eq_ok, Expr.Iff] at he
      obtain ⟨y, hy, z, hz, p, hp, q, hq, he⟩ := he
      simp at ht
      rw [signals, List.mem_append]
      have : Uses n y ∨ Uses n z := by
        rcases uses_orOp he hn with h | h
        · exact uses_andOp hp h
        · exact (uses_andOp hq h).imp uses_Not uses_Not
      exact this.imp (ih a (by omega) y hy n) (ih b (by omega) z hz n)
    | xor a b =>
      simp only [denote, Outcome.bind_eq_ok, Expr.Xor] at he
      obtain ⟨y, hy, z, hz, p, hp, q, hq, he⟩ := he
      simp at ht
      rw [signals, List.mem_append]
      have : Uses n y ∨ Uses n z := by
        rcases uses_andOp he hn with h | h
        · exact uses_orOp hp h
        · exact (uses_orOp hq h).imp uses_Not uses_Not
      exact this.imp (ih a (by omega) y hy n) (ih b (by omega) z hz n)
    | always a =>
      simp only [denote, Outcome.bind_eq_ok, Outcome.pure_eq_ok] at he
      obtain ⟨y, hy, he⟩ := he
      cases he
      simp at ht
      cases hn
      rw [signals]
      exact ih a (by omega) y hy n (by assumption)
    | eventually a =>
      simp only [denote, Outcome.bind_eq_ok, Outcome.pure_eq_ok] at he
      obtain ⟨y, hy, he⟩ := he
      cases he
      simp at ht
      cases hn
      rw [signals]
      exact ih a (by omega) y hy n (by assumption)
    | untl a b =>
      simp only [denote, Outcome.bind_eq_ok, Outcome.pure_eq_ok] at he
      obtain ⟨y, hy, z, hz, he⟩ := he
      cases he
      simp at ht
      rw [signals, List.mem_append]
      cases hn with
      | untl_left h => exact .inl (ih a (by omega) y hy n h)
      | untl_right h => exact .inr (ih b (by omega) z hz n h)

end generic

theorem numLit_real [Strtod ℝ] {c : NumLit} {d : D ℝ} (h : c.eval = .ok d) : d = .fin c.val := by
  unfold NumLit.eval at h
  split at h
  · split at h
    · cases h; rfl
    · cases h
  · split at h
    · cases h
    · cases h; rfl

/-! ## The four relations -/

section four
variable [Strtod ℝ]

theorem margin_mirror (o : ComparisonOp) (v c : ℝ) :
    holds (mirror o) v (.fin c) ↔ holdsRev o c v := by
  cases o <;> simp [mirror, holds, holdsRev, D.le, D.lt, le_iff_lt_or_eq]

theorem holds_fwd (o : ComparisonOp) (v c : ℝ) : holds o v (.fin c) ↔ holdsFwd o v c := by
  cases o <;> simp [holds, holdsFwd, D.le, D.lt, le_iff_lt_or_eq]

theorem robAll_map (T : ℝ) (x : String → ℝ → ℝ) {env : String → ℝ → EReal} {t : ℝ} {es : List (Expr ℝ)} {ts : List Syn}
    (h : List.Forall₂ (fun e s => ∀ t, rob T x e t = synRob T x env s t) es ts) :
    robAll T x es t = synRobAll T x env ts t ∧ robAny T x es t = synRobAny T x env ts t := by
  induction h with
  | nil => simp [robAll, robAny, synRobAll, synRobAny]
  | cons h _ ih => simp [robAll, robAny, synRobAll, synRobAny, h, ih.1, ih.2]

theorem satAll_map (T : ℝ) (x : String → ℝ → ℝ) {env : String → ℝ → Prop} {t : ℝ} {es : List (Expr ℝ)} {ts : List Syn}
    (h : List.Forall₂ (fun e s => ∀ t, Sat T x e t ↔ synSat T x env s t) es ts) :
    (SatAll T x es t ↔ synSatAll T x env ts t) ∧ (SatAny T x es t ↔ synSatAny T x env ts t) := by
  induction h with
  | nil => simp [SatAll, SatAny, synSatAll, synSatAny]
  | cons h _ ih => simp [SatAll, SatAny, synSatAll, synSatAny, h, ih.1, ih.2]

theorem robRespects (T : ℝ) (x : String → ℝ → ℝ) :
    Respects (synRob T x) (fun e m => ∀ t, rob T x e t = m t) := by
  intro envE env henv
  suffices H : ∀ (n : Nat) (t : Syn), sizeOf t < n → ∀ e, denote reversed envE t = .ok e →
      ∀ s, rob T x e s = synRob T x env t s from fun t e => H _ t (Nat.lt_succ_self _) e
  intro n
  induction n with
  | zero => intro t ht; omega
  | succ n ih =>
    intro t ht e he s
    cases t with
    | tru => cases he; simp [rob, synRob, Expr.Const]
    | fls => cases he; simp [rob, synRob, Expr.Const]
    | ref k =>
      simp only [denote] at he
      split at he
      · next e' h => cases he; exact henv _ _ h s
      · cases he
    | cmp o k c =>
      simp only [denote, Outcome.bind_eq_ok, Outcome.pure_eq_ok] at he
      obtain ⟨d, hd, he⟩ := he
      cases he
      rw [numLit_real hd]
      simp [rob, synRob]
    | rcmp o c k =>
      simp only [denote, Outcome.bind_eq_ok, Outcome.pure_eq_ok] at he
      obtain ⟨d, hd, he⟩ := he
      cases he
      rw [numLit_real hd]
      simp [rob, synRob]
    | not a =>
      simp only [denote, Outcome.bind_eq_ok, Outcome.pure_eq_ok] at he
      obtain ⟨y, hy, he⟩ := he
      cases he
      simp at ht
      rw [rob_Not, ih a (by omega) y hy, synRob]
    | and ts =>
      simp only [denote, Outcome.bind_eq_ok] at he
      obtain ⟨es, hes, he⟩ := he
      split at he
      · cases he
      · obtain ⟨rfl, -⟩ := And_ok he
        simp at ht
        rw [rob, synRob]
        exact (robAll_map T x (listForm (fun t' ht' e' he' => ih t' (by
          have := List.sizeOf_lt_of_mem ht'; omega) e' he') hes)).1
    | or ts =>
      simp only [denote, Outcome.bind_eq_ok] at he
      obtain ⟨es, hes, he⟩ := he
      split at he
      · cases he
      · obtain ⟨rfl, -⟩ := Or_ok he
        simp at ht
        rw [rob, synRob]
        exact (robAll_map T x (listForm (fun t' ht' e' he' => ih t' (by
          have := List.sizeOf_lt_of_mem ht'; omega) e' he') hes)).2
    | implies a b =>
      simp only [denote, Outcome.bind_eq_ok] at he
      obtain ⟨y, hy, z, hz, he⟩ := he
      simp at ht
      rw [rob_orOp he, rob_Not, ih a (by omega) y hy, ih b (by omega) z hz, synRob]
    | iff a b =>
      simp only [denote, Outcome.bind_eq_ok, Expr.Iff] at he
      obtain ⟨y, hy, z, hz, p, hp, q, hq, he⟩ := he
      simp at ht
      rw [rob_orOp he, rob_andOp hp, rob_andOp hq, rob_Not, rob_Not, ih a (by omega) y hy, ih b (by omega) z hz,
        synRob]
    | xor a b =>
      simp only [denote, Outcome.bind_eq_ok, Expr.Xor] at he
      obtain ⟨y, hy, z, hz, p, hp, q, hq, he⟩ := he
      simp at ht
      rw [rob_andOp he, rob_orOp hp, rob_orOp hq, rob_Not, rob_Not, ih a (by omega) y hy, ih b (by omega) z hz,
        synRob]
    | always a =>
      simp only [denote, Outcome.bind_eq_ok, Outcome.pure_eq_ok] at he
      obtain ⟨y, hy, he⟩ := he
      cases he
      simp at ht
      simp only [Expr.Always, Interval.default, rob, synRob, window_default, ih a (by omega) y hy]
    | eventually a =>
      simp only [denote, Outcome.bind_eq_ok, Outcome.pure_eq_ok] at he
      obtain ⟨y, hy, he⟩ := he
      cases he
      simp at ht
      simp only [Expr.Eventually, Interval.default, rob, synRob, window_default, ih a (by omega) y hy]
    | untl a b =>
      simp only [denote, Outcome.bind_eq_ok, Outcome.pure_eq_ok] at he
      obtain ⟨y, hy, z, hz, he⟩ := he
      cases he
      simp at ht
      simp only [Expr.Until, Interval.default, rob, synRob, window_default, ih a (by omega) y hy,
        ih b (by omega) z hz]

theorem satRespects (T : ℝ) (x : String → ℝ → ℝ) :
    Respects (synSat T x) (fun e m => ∀ t, Sat T x e t ↔ m t) := by
  intro envE env henv
  suffices H : ∀ (n : Nat) (t : Syn), sizeOf t < n → ∀ e, denote reversed envE t = .ok e →
      ∀ s, Sat T x e s ↔ synSat T x env t s from fun t e => H _ t (Nat.lt_succ_self _) e
  intro n
  induction n with
  | zero => intro t ht; omega
  | succ n ih =>
    intro t ht e he s
    cases t with
    | tru => cases he; simp [Sat, synSat, Expr.Const]
    | fls => cases he; simp [Sat, synSat, Expr.Const]
    | ref k =>
      simp only [denote] at he
      split at he
      · next e' h => cases he; exact henv _ _ h s
      · cases he
    | cmp o k c =>
      simp only [denote, Outcome.bind_eq_ok, Outcome.pure_eq_ok] at he
      obtain ⟨d, hd, he⟩ := he
      cases he
      rw [numLit_real hd]
      simp [Sat, synSat, holds_fwd]
    | rcmp o c k =>
      simp only [denote, Outcome.bind_eq_ok, Outcome.pure_eq_ok] at he
      obtain ⟨d, hd, he⟩ := he
      cases he
      rw [numLit_real hd]
      simp [Sat, synSat, margin_mirror]
    | not a =>
      simp only [denote, Outcome.bind_eq_ok, Outcome.pure_eq_ok] at he
      obtain ⟨y, hy, he⟩ := he
      cases he
      simp at ht
      rw [sat_Not, ih a (by omega) y hy, synSat]
    | and ts =>
      simp only [denote, Outcome.bind_eq_ok] at he
      obtain ⟨es, hes, he⟩ := he
      split at he
      · cases he
      · obtain ⟨rfl, -⟩ := And_ok he
        simp at ht
        rw [Sat, synSat]
        exact (satAll_map T x (listForm (fun t' ht' e' he' => ih t' (by
          have := List.sizeOf_lt_of_mem ht'; omega) e' he') hes)).1
    | or ts =>
      simp only [denote, Outcome.bind_eq_ok] at he
      obtain ⟨es, hes, he⟩ := he
      split at he
      · cases he
      · obtain ⟨rfl, -⟩ := Or_ok he
        simp at ht
        rw [Sat, synSat]
        exact (satAll_map T x (listForm (fun t' ht' e' he' => ih t' (by
          have := List.sizeOf_lt_of_mem ht'; omega) e' he') hes)).2
    | implies a b =>
      simp only [denote, Outcome.bind_eq_ok] at he
      obtain ⟨y, hy, z, hz, he⟩ := he
      simp at ht
      rw [sat_orOp he, sat_Not, ih a (by omega) y hy, ih b (by omega) z hz, synSat]
      exact imp_iff_not_or.symm
    | iff a b =>
      simp only [denote, Outcome.bind_eq_ok, Expr.Iff] at he
      obtain ⟨y, hy, z, hz, p, hp, q, hq, he⟩ := he
      simp at ht
      rw [sat_orOp he, sat_andOp hp, sat_andOp hq, sat_Not, sat_Not, ih a (by omega) y hy, ih b (by omega) z hz,
        synSat]
      tauto
    | xor a b =>
      simp only [denote, Outcome.bind_eq_ok, Expr.Xor] at he
      obtain ⟨y, hy, z, hz, p, hp, q, hq, he⟩ := he
      simp at ht
      rw [sat_andOp he, sat_orOp hp, sat_orOp hq, sat_Not, sat_Not, ih a (by omega) y hy, ih b (by omega) z hz,
        synSat]
      tauto
    | always a =>
      simp only [denote, Outcome.bind_eq_ok, Outcome.pure_eq_ok] at he
      obtain ⟨y, hy, he⟩ := he
      cases he
      simp at ht
      simp only [Expr.Always, Interval.default, Sat, synSat, window_default, ih a (by omega) y hy]
    | eventually a =>
      simp only [denote, Outcome.bind_eq_ok, Outcome.pure_eq_ok] at he
      obtain ⟨y, hy, he⟩ := he
      cases he
      simp at ht
      simp only [Expr.Eventually, Interval.default, Sat, synSat, window_default, ih a (by omega) y hy]
    | untl a b =>
      simp only [denote, Outcome.bind_eq_ok, Outcome.pure_eq_ok] at he
      obtain ⟨y, hy, z, hz, he⟩ := he
      cases he
      simp at ht
      simp only [Expr.Until, Interval.default, Sat, synSat, window_default, ih a (by omega) y hy,
        ih b (by omega) z hz]

/-- What a shape says of an expression. -/
def HasShape (e : Expr ℝ) : Shape → Prop
  | .prop => Propositional e
  | .stack => Stack e
  | .comb => Combination e
  | .other => True

theorem HasShape.comb {e : Expr ℝ} {s : Shape} (h : HasShape e s) (hs : s ≠ .other) : Combination e := by
  cases s with
  | prop => exact .stack (.propositional h)
  | stack => exact .stack h
  | comb => exact h
  | other => exact (hs rfl).elim

theorem comb_not_const {e : Expr ℝ} (h : Combination e) (b : Bool) : e ≠ .const b := by
  rintro rfl
  cases h with
  | stack h => cases h with
    | propositional h => cases h

theorem Not_eq {e : Expr ℝ} (h : ∀ b, e ≠ .const b) : Expr.Not e = .not e := by
  cases e with
  | const b => exact (h b rfl).elim
  | _ => rfl

theorem shape_Not {e : Expr ℝ} {s : Shape} (h : HasShape e s) : HasShape (.Not e) s := by
  cases s with
  | other => trivial
  | _ =>
    rw [Not_eq (comb_not_const (h.comb (by decide)))]
    exact .not h

theorem comb_and {as : List (Expr ℝ)} (h : Combination (.and as)) : 2 ≤ as.length ∧ ∀ e ∈ as, Combination e := by
  cases h with
  | stack h => cases h with
    | propositional h => cases h with
      | and hl h => exact ⟨hl, fun e he => .stack (.propositional (h e he))⟩
  | and hl h => exact ⟨hl, h⟩

theorem comb_or {as : List (Expr ℝ)} (h : Combination (.or as)) : 2 ≤ as.length ∧ ∀ e ∈ as, Combination e := by
  cases h with
  | stack h => cases h with
    | propositional h => cases h with
      | or hl h => exact ⟨hl, fun e he => .stack (.propositional (h e he))⟩
  | or hl h => exact ⟨hl, h⟩

theorem prop_and {as : List (Expr ℝ)} (h : Propositional (.and as)) : 2 ≤ as.length ∧ ∀ e ∈ as, Propositional e := by
  cases h with
  | and hl h => exact ⟨hl, h⟩

theorem prop_or {as : List (Expr ℝ)} (h : Propositional (.or as)) : 2 ≤ as.length ∧ ∀ e ∈ as, Propositional e := by
  cases h with
  | or hl h => exact ⟨hl, h⟩

theorem join_cases {s s' : Shape} (h : s.join s' ≠ .other) :
    (s = .prop ∧ s' = .prop ∧ s.join s' = .prop) ∨ (s ≠ .other ∧ s' ≠ .other ∧ s.join s' = .comb) := by
  revert h
  cases s <;> cases s' <;> decide

theorem shape_andOp {a b r : Expr ℝ} (h : Expr.andOp a b = .ok r) {s s' : Shape} (ha : HasShape a s)
    (hb : HasShape b s') : HasShape r (s.join s') := by
  by_cases ho : s.join s' = .other
  · rw [ho]; trivial
  rcases join_cases ho with ⟨rfl, rfl, hj⟩ | ⟨h1, h2, hj⟩
  · rw [hj]
    change Propositional a at ha
    change Propositional b at hb
    change Propositional r
    cases and_form h with
    | tru => cases ha
    | fls => cases ha
    | skip as => exact ha
    | append as bs =>
      have h1 := prop_and ha
      have h2 := prop_and hb
      refine .and (by simp; omega) fun e he => ?_
      rcases List.mem_append.1 he with he | he
      · exact h1.2 e he
      · exact h2.2 e he
    | snoc as b =>
      have h1 := prop_and ha
      refine .and (by simp; omega) fun e he => ?_
      rcases List.mem_append.1 he with he | he
      · exact h1.2 e he
      · rw [List.mem_singleton] at he; rw [he]; exact hb
    | pair a b =>
      refine .and (by simp) fun e he => ?_
      simp only [List.mem_cons, List.not_mem_nil, or_false] at he
      rcases he with rfl | rfl <;> assumption
  · rw [hj]
    have ha := ha.comb h1
    have hb := hb.comb h2
    change Combination r
    cases and_form h with
    | tru => exact (comb_not_const ha _ rfl).elim
    | fls => exact (comb_not_const ha _ rfl).elim
    | skip as => exact ha
    | append as bs =>
      have h1 := comb_and ha
      have h2 := comb_and hb
      refine .and (by simp; omega) fun e he => ?_
      rcases List.mem_append.1 he with he | he
      · exact h1.2 e he
      · exact h2.2 e he
    | snoc as b =>
      have h1 := comb_and ha
      refine .and (by simp; omega) fun e he => ?_
      rcases List.mem_append.1 he with he | he
      · exact h1.2 e he
      · rw [List.mem_singleton] at he; rw [he]; exact hb
    | pair a b =>
      refine .and (by simp) fun e he => ?_
      simp only [List.mem_cons, List.not_mem_nil, or_false] at he
      rcases he with rfl | rfl <;> assumption

theorem shape_orOp {a b r : Expr ℝ} (h : Expr.orOp a b = .ok r) {s s' : Shape} (ha : HasShape a s)
    (hb : HasShape b s') : HasShape r (s.join s') := by
  by_cases ho : s.join s' = .other
  · rw [ho]; trivial
  rcases join_cases ho with ⟨rfl, rfl, hj⟩ | ⟨h1, h2, hj⟩
  · rw [hj]
    change Propositional a at ha
    change Propositional b at hb
    change Propositional r
    cases or_form h with
    | tru => cases ha
    | fls => cases ha
    | skip as => exact ha
    | append as bs =>
      have h1 := prop_or ha
      have h2 := prop_or hb
      refine .or (by simp; omega) fun e he => ?_
      rcases List.mem_append.1 he with he | he
      · exact h1.2 e he
      · exact h2.2 e he
    | snoc as b =>
      have h1 := prop_or ha
      refine .or (by simp; omega) fun e he => ?_
      rcases List.mem_append.1 he with he | he
      · exact h1.2 e he
      · rw [List.mem_singleton] at he; rw [he]; exact hb
    | pair a b =>
      refine .or (by simp) fun e he => ?_
      simp only [List.mem_cons, List.not_mem_nil, or_false] at he
      rcases he with rfl | rfl <;> assumption
  · rw [hj]
    have ha := ha.comb h1
    have hb := hb.comb h2
    change Combination r
    cases or_form h with
    | tru => exact (comb_not_const ha _ rfl).elim
    | fls => exact (comb_not_const ha _ rfl).elim
    | skip as => exact ha
    | append as bs =>
      have h1 := comb_or ha
      have h2 := comb_or hb
      refine .or (by simp; omega) fun e he => ?_
      rcases List.mem_append.1 he with he | he
      · exact h1.2 e he
      · exact h2.2 e he
    | snoc as b =>
      have h1 := comb_or ha
      refine .or (by simp; omega) fun e he => ?_
      rcases List.mem_append.1 he with he | he
      · exact h1.2 e he
      · rw [List.mem_singleton] at he; rw [he]; exact hb
    | pair a b =>
      refine .or (by simp) fun e he => ?_
      simp only [List.mem_cons, List.not_mem_nil, or_false] at he
      rcases he with rfl | rfl <;> assumption

theorem join_idem (s s' : Shape) : (s.join s').join (s.join s') = s.join s' := by
  cases s <;> cases s' <;> rfl

theorem shapes_prop {env : String → Shape} {es : List (Expr ℝ)} {ts : List Syn}
    (h : List.Forall₂ (fun e t => HasShape e (shape env t)) es ts) :
    (shapeAll env ts = .prop → ∀ e ∈ es, Propositional e) ∧
      (shapeAll env ts ≠ .other → ∀ e ∈ es, Combination e) := by
  induction h with
  | nil => simp
  | cons h _ ih =>
    rename_i e t es ts h'
    refine ⟨fun hp e' he' => ?_, fun hp e' he' => ?_⟩
    · rw [shapeAll] at hp
      rcases join_cases (by rw [hp]; decide) with ⟨h1, h2, -⟩ | ⟨-, -, h3⟩
      · rcases List.mem_cons.1 he' with rfl | he'
        · rw [h1] at h; exact h
        · exact ih.1 h2 e' he'
      · rw [h3] at hp; cases hp
    · rw [shapeAll] at hp
      have hh : shape env t ≠ .other ∧ shapeAll env ts ≠ .other := by
        rcases join_cases hp with ⟨h1, h2, -⟩ | ⟨h1, h2, -⟩
        · rw [h1, h2]; decide
        · exact ⟨h1, h2⟩
      rcases List.mem_cons.1 he' with rfl | he'
      · exact h.comb hh.1
      · exact ih.2 hh.2 e' he'

theorem shapeAll_cases (env : String → Shape) : ∀ ts : List Syn,
    shapeAll env ts = .prop ∨ shapeAll env ts = .comb ∨ shapeAll env ts = .other
  | [] => .inl rfl
  | t :: ts => by
    rw [shapeAll]
    by_cases h : (shape env t).join (shapeAll env ts) = .other
    · exact .inr (.inr h)
    · rcases join_cases h with ⟨-, -, h⟩ | ⟨-, -, h⟩
      · exact .inl h
      · exact .inr (.inl h)

theorem shapeRespects : Respects shape HasShape := by
  intro envE env henv
  suffices H : ∀ (n : Nat) (t : Syn), sizeOf t < n → ∀ e, denote reversed envE t = .ok e →
      HasShape e (shape env t) from fun t e => H _ t (Nat.lt_succ_self _) e
  intro n
  induction n with
  | zero => intro t ht; omega
  | succ n ih =>
    intro t ht e he
    cases t with
    | tru => trivial
    | fls => trivial
    | ref k =>
      simp only [denote] at he
      split at he
      · next e' h => cases he; exact henv _ _ h
      · cases he
    | cmp o k c =>
      simp only [denote, Outcome.bind_eq_ok, Outcome.pure_eq_ok] at he
      obtain ⟨d, hd, he⟩ := he
      cases he
      rw [numLit_real hd]
      exact .pred _ _ _
    | rcmp o c k =>
      simp only [denote, Outcome.bind_eq_ok, Outcome.pure_eq_ok] at he
      obtain ⟨d, hd, he⟩ := he
      cases he
      rw [numLit_real hd]
      exact .pred _ _ _
    | not a =>
      simp only [denote, Outcome.bind_eq_ok, Outcome.pure_eq_ok] at he
      obtain ⟨y, hy, he⟩ := he
      cases he
      simp at ht
      exact shape_Not (ih a (by omega) y hy)
    | and ts =>
      simp only [denote, Outcome.bind_eq_ok] at he
      obtain ⟨es, hes, he⟩ := he
      split at he
      · cases he
      · obtain ⟨rfl, h2⟩ := And_ok he
        simp at ht
        have := shapes_prop (env := env) (listForm (P := fun e t => HasShape e (shape env t)) (fun t' ht' e' he' => ih t' (by
          have := List.sizeOf_lt_of_mem ht'; omega) e' he') hes)
        rw [shape]
        rcases shapeAll_cases env ts with h | h | h
        · rw [h]; exact .and h2 (this.1 h)
        · rw [h]; exact .and h2 (this.2 (by rw [h]; decide))
        · rw [h]; trivial
    | or ts =>
      simp only [denote, Outcome.bind_eq_ok] at he
      obtain ⟨es, hes, he⟩ := he
      split at he
      · cases he
      · obtain ⟨rfl, h2⟩ := Or_ok he
        simp at ht
        have := shapes_prop (env := env) (listForm (P := fun e t => HasShape e (shape env t)) (fun t' ht' e' he' => ih t' (by
          have := List.sizeOf_lt_of_mem ht'; omega) e' he') hes)
        rw [shape]
        rcases shapeAll_cases env ts with h | h | h
        · rw [h]; exact .or h2 (this.1 h)
        · rw [h]; exact .or h2 (this.2 (by rw [h]; decide))
        · rw [h]; trivial
    | implies a b =>
      simp only [denote, Outcome.bind_eq_ok] at he
      obtain ⟨y, hy, z, hz, he⟩ := he
      simp at ht
      exact shape_orOp he (shape_Not (ih a (by omega) y hy)) (ih b (by omega) z hz)
    | iff a b =>
      simp only [denote, Outcome.bind_eq_ok, Expr.Iff] at he
      obtain ⟨y, hy, z, hz, p, hp, q, hq, he⟩ := he
      simp at ht
      have h1 := ih a (by omega) y hy
      have h2 := ih b (by omega) z hz
      have := shape_orOp he (shape_andOp hp h1 h2) (shape_andOp hq (shape_Not h1) (shape_Not h2))
      rwa [join_idem] at this
    | xor a b =>
      simp only [denote, Outcome.bind_eq_ok, Expr.Xor] at he
      obtain ⟨y, hy, z, hz, p, hp, q, hq, he⟩ := he
      simp at ht
      have h1 := ih a (by omega) y hy
      have h2 := ih b (by omega) z hz
      have := shape_andOp he (shape_orOp hp h1 h2) (shape_orOp hq (shape_Not h1) (shape_Not h2))
      rwa [join_idem] at this
    | always a =>
      simp only [denote, Outcome.bind_eq_ok, Outcome.pure_eq_ok] at he
      obtain ⟨y, hy, he⟩ := he
      cases he
      simp at ht
      have h1 := ih a (by omega) y hy
      rw [shape]
      cases hs : shape env a <;> rw [hs] at h1
      · exact .always (.propositional h1)
      · exact .always h1
      · trivial
      · trivial
    | eventually a =>
      simp only [denote, Outcome.bind_eq_ok, Outcome.pure_eq_ok] at he
      obtain ⟨y, hy, he⟩ := he
      cases he
      simp at ht
      have h1 := ih a (by omega) y hy
      rw [shape]
      cases hs : shape env a <;> rw [hs] at h1
      · exact .eventually (.propositional h1)
      · exact .eventually h1
      · trivial
      · trivial
    | untl a b => trivial

end four

end Verif
