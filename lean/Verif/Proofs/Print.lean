import Verif.Spec.Print
import Verif.Proofs.Num

/-!
# Helper lemmas for C59: reading back a printed formula
-/

set_option linter.unusedSectionVars false

namespace Verif
open Spec Fmt

variable {K : Type} [Field K] [LinearOrder K] [IsStrictOrderedRing K] [Arith K] {num : D K → List Char}

theorem text_split {α : Type} {s : α} {a b x y : List α} (ha : s ∉ a) (hb : s ∉ b)
    (h : a ++ s :: x = b ++ s :: y) : a = b ∧ x = y := by
  induction a generalizing b with
  | nil =>
    cases b with
    | nil => simpa using h
    | cons c b => simp only [List.nil_append, List.cons_append, List.cons.injEq] at h; simp [← h.1] at hb
  | cons d a ih =>
    cases b with
    | nil => simp only [List.nil_append, List.cons_append, List.cons.injEq] at h; simp [h.1] at ha
    | cons c b =>
      simp only [List.cons_append, List.cons.injEq] at h
      simp only [List.mem_cons, not_or] at ha hb
      obtain ⟨h1, h2⟩ := ih ha.2 hb.2 h.2
      exact ⟨by rw [h.1, h1], h2⟩

theorem op_inj {o o' : ComparisonOp} {x y : List Char} (h : op o ++ ' ' :: x = op o' ++ ' ' :: y) :
    o = o' ∧ x = y := by
  cases o <;> cases o' <;> simp_all [op]

theorem hasValue_unbounded : (⟨.dbl 0, .dbl .pinf⟩ : Interval K).hasValue = true := by
  simp [Interval.hasValue, Interval.isZeroToInf, Interval.numIsZero, Interval.numAsDouble, D.isinf, D.eq, D.zero_def]

theorem alwaysHead_unbounded : alwaysHead num (⟨.dbl 0, .dbl .pinf⟩ : Interval K) =
    'G' :: '[' :: (num 0 ++ [',', ' ', 'i', 'n', 't', ')', ' ']) := by
  unfold alwaysHead
  rw [if_pos hasValue_unbounded]
  simp [Interval.asDouble, Interval.numAsDouble, D.isinf]

theorem eventuallyHead_unbounded : eventuallyHead num (⟨.dbl 0, .dbl .pinf⟩ : Interval K) =
    'F' :: '[' :: (num 0 ++ [',', ' ', 'i', 'n', 'f', ']', ' ']) := by
  unfold eventuallyHead
  rw [if_pos hasValue_unbounded]
  simp [Interval.asDouble, Interval.numAsDouble, D.isinf]

/-- A predicate is not mistaken for the first operand of And or Or. -/
theorem name_ne {n : String} (hn : PlainName n) {o : ComparisonOp} {c : Char} (hc : c = '&' ∨ c = '|')
    {e : Expr K} (he : Printable e) {x y : List Char} :
    n.toList ++ ' ' :: (op o ++ x) ≠ expr num e ++ (' ' :: c :: y) := by
  intro h
  have key : ∀ (d : Char) (z : List Char), d = '(' ∨ d = '~' → n.toList ++ ' ' :: (op o ++ x) ≠ d :: z := by
    intro d z hd h
    cases hl : n.toList with
    | nil => rw [hl] at h; simp at h; rcases hd with rfl | rfl <;> simp at h
    | cons b l =>
      rw [hl] at h
      simp only [List.cons_append, List.cons.injEq] at h
      have := hn b (by rw [hl]; simp)
      rcases hd with rfl | rfl
      · exact this.2.1 h.1
      · exact this.2.2.1 h.1
  have key2 : ∀ (d : Char) (z : List Char), d ≠ ' ' → n.toList ++ ' ' :: (op o ++ x) ≠ d :: '[' :: z := by
    intro d z hd h
    cases hl : n.toList with
    | nil => rw [hl] at h; simp at h; exact hd h.1.symm
    | cons b l =>
      rw [hl] at h
      simp only [List.cons_append, List.cons.injEq] at h
      cases l with
      | nil => simp at h
      | cons b' l =>
        simp only [List.cons_append, List.cons.injEq] at h
        exact (hn b' (by rw [hl]; simp)).2.2.2 h.2.1
  cases he with
  | const b =>
    rw [expr] at h
    have hb : ' ' ∉ Fmt.bool b := by cases b <;> decide
    obtain ⟨-, h2⟩ := text_split (fun hm => (hn _ hm).1 rfl) hb h
    rcases hc with rfl | rfl <;> cases o <;> simp [op] at h2
  | pred => rw [expr] at h; exact key _ _ (.inl rfl) h
  | not => rw [expr] at h; exact key _ _ (.inr rfl) h
  | and => rw [expr] at h; exact key _ _ (.inl rfl) h
  | or => rw [expr] at h; exact key _ _ (.inl rfl) h
  | always => rw [expr, alwaysHead_unbounded] at h; exact key2 _ _ (by decide) h
  | eventually => rw [expr, eventuallyHead_unbounded] at h; exact key2 _ _ (by decide) h

/-- The text of `e` can be split off. -/
def Reads (num : D K → List Char) (e : Expr K) : Prop :=
  ∀ e', Printable e' → ∀ r r', expr num e ++ r = expr num e' ++ r' → e = e' ∧ r = r'

theorem join_inj {c c' : Char} (es : List (Expr K)) (hne : es ≠ []) (h : ∀ e ∈ es, Reads num e) :
    ∀ es' : List (Expr K), es' ≠ [] → (∀ e ∈ es', Printable e) → ∀ r r',
      join num [' ', c, ' '] es ++ ')' :: r = join num [' ', c', ' '] es' ++ ')' :: r' → es = es' ∧ r = r' := by
  induction es with
  | nil => exact (hne rfl).elim
  | cons e es ih =>
    intro es' hne' hp r r' heq
    cases es' with
    | nil => exact (hne' rfl).elim
    | cons e' es' =>
      cases es with
      | nil =>
        cases es' with
        | nil =>
          rw [join, join] at heq
          obtain ⟨rfl, h2⟩ := h e (by simp) e' (hp _ (by simp)) _ _ heq
          exact ⟨rfl, by simpa using h2⟩
        | cons e'' es' =>
          rw [join, join, List.append_assoc] at heq
          obtain ⟨rfl, h2⟩ := h e (by simp) e' (hp _ (by simp)) _ _ heq
          simp at h2
      | cons e2 es =>
        cases es' with
        | nil =>
          rw [join, join, List.append_assoc] at heq
          obtain ⟨rfl, h2⟩ := h e (by simp) e' (hp _ (by simp)) _ _ heq
          simp at h2
        | cons e2' es' =>
          rw [join, join] at heq
          simp only [List.append_assoc] at heq
          obtain ⟨rfl, h2⟩ := h e (by simp) e' (hp _ (by simp)) _ _ heq
          simp only [List.cons_append, List.nil_append, List.cons.injEq, true_and] at h2
          obtain ⟨h3, h4⟩ := ih (by simp) (fun x hx => h x (by simp [hx])) (e2' :: es') (by simp)
            (fun x hx => hp x (by simp [hx])) r r' h2.2
          exact ⟨by rw [h3], h4⟩

theorem join_sep {c c' : Char} (hc : c ≠ c') {es es' : List (Expr K)} (h2 : 2 ≤ es.length) (h2' : 2 ≤ es'.length)
    (h : ∀ e ∈ es, Reads num e) (hp : ∀ e ∈ es', Printable e) {r r' : List Char} :
    join num [' ', c, ' '] es ++ r ≠ join num [' ', c', ' '] es' ++ r' := by
  intro heq
  match es, es', h2, h2' with
  | e :: e2 :: es, e' :: e2' :: es', _, _ =>
    rw [join, join] at heq
    simp only [List.append_assoc] at heq
    obtain ⟨-, h3⟩ := h e (by simp) e' (hp _ (by simp)) _ _ heq
    simp only [List.cons_append, List.nil_append, List.cons.injEq, true_and] at h3
    exact hc h3.1

theorem name_ne_join {n : String} (hn : PlainName n) {o : ComparisonOp} {c : Char} (hc : c = '&' ∨ c = '|')
    {es : List (Expr K)} (h2 : 2 ≤ es.length) (hp : ∀ e ∈ es, Printable e) {x r : List Char} :
    n.toList ++ ' ' :: (op o ++ x) ≠ join num [' ', c, ' '] es ++ r := by
  match es, h2 with
  | e :: e2 :: es, _ =>
    rw [join, List.append_assoc]
    exact name_ne hn hc (hp e (by simp))

theorem reads (hf : Faithful num) {e : Expr K} (he : Printable e) : Reads num e := by
  induction he with
  | const b =>
    intro e' he' r r' h
    cases he' <;> rw [expr, expr] at h
    · next b' => cases b <;> cases b' <;> simp_all [Fmt.bool]
    all_goals first
      | (rw [alwaysHead_unbounded] at h)
      | (rw [eventuallyHead_unbounded] at h)
      | skip
    all_goals cases b <;> simp [Fmt.bool] at h
  | @pred n o c hn =>
    intro e' he' r r' h
    cases he' <;> rw [expr, expr] at h
    · next b' => cases b' <;> simp [Fmt.bool] at h
    · next n' o' c' hn' =>
      simp only [List.cons_append, List.append_assoc, List.cons.injEq, true_and, List.nil_append] at h
      obtain ⟨h1, h2⟩ := text_split (fun hm => (hn _ hm).1 rfl) (fun hm => (hn' _ hm).1 rfl) h
      obtain ⟨rfl, h3⟩ := op_inj h2
      obtain ⟨h4, h5⟩ := text_split (hf.clean c).1 (hf.clean c').1 h3
      exact ⟨by rw [hf.inj h4, String.toList_injective h1], h5⟩
    · simp at h
    · next h2 hp =>
      simp only [List.cons_append, List.append_assoc, List.cons.injEq, true_and] at h
      exact (name_ne_join hn (.inl rfl) h2 hp h).elim
    · next h2 hp =>
      simp only [List.cons_append, List.append_assoc, List.cons.injEq, true_and] at h
      exact (name_ne_join hn (.inr rfl) h2 hp h).elim
    · rw [alwaysHead_unbounded] at h; simp at h
    · rw [eventuallyHead_unbounded] at h; simp at h
  | @not e he ih =>
    intro e' he' r r' h
    cases he' <;> rw [expr, expr] at h
    · next b' => cases b' <;> simp [Fmt.bool] at h
    · simp at h
    · next e' he' =>
      simp only [List.cons_append, List.cons.injEq, true_and] at h
      obtain ⟨rfl, h9⟩ := ih e' he' _ _ h
      exact ⟨rfl, h9⟩
    · simp at h
    · simp at h
    · rw [alwaysHead_unbounded] at h; simp at h
    · rw [eventuallyHead_unbounded] at h; simp at h
  | @and es h2 hp ih =>
    intro e' he' r r' h
    cases he' <;> rw [expr, expr] at h
    · next b' => cases b' <;> simp [Fmt.bool] at h
    · next n' o' c' hn' =>
      simp only [List.cons_append, List.append_assoc, List.cons.injEq, true_and] at h
      exact (name_ne_join hn' (.inl rfl) h2 hp h.symm).elim
    · simp at h
    · next es' h2' hp' =>
      simp only [List.cons_append, List.append_assoc, List.cons.injEq, true_and, List.nil_append] at h
      obtain ⟨rfl, h9⟩ := join_inj es (by rintro rfl; simp at h2) ih es' (by rintro rfl; simp at h2') hp' _ _ h
      exact ⟨rfl, h9⟩
    · next es' h2' hp' =>
      simp only [List.cons_append, List.append_assoc, List.cons.injEq, true_and] at h
      exact (join_sep (by decide) h2 h2' ih hp' h).elim
    · rw [alwaysHead_unbounded] at h; simp at h
    · rw [eventuallyHead_unbounded] at h; simp at h
  | @or es h2 hp ih =>
    intro e' he' r r' h
    cases he' <;> rw [expr, expr] at h
    · next b' => cases b' <;> simp [Fmt.bool] at h
    · next n' o' c' hn' =>
      simp only [List.cons_append, List.append_assoc, List.cons.injEq, true_and] at h
      exact (name_ne_join hn' (.inr rfl) h2 hp h.symm).elim
    · simp at h
    · next es' h2' hp' =>
      simp only [List.cons_append, List.append_assoc, List.cons.injEq, true_and] at h
      exact (join_sep (by decide) h2 h2' ih hp' h).elim
    · next es' h2' hp' =>
      simp only [List.cons_append, List.append_assoc, List.cons.injEq, true_and, List.nil_append] at h
      obtain ⟨rfl, h9⟩ := join_inj es (by rintro rfl; simp at h2) ih es' (by rintro rfl; simp at h2') hp' _ _ h
      exact ⟨rfl, h9⟩
    · rw [alwaysHead_unbounded] at h; simp at h
    · rw [eventuallyHead_unbounded] at h; simp at h
  | @always e he ih =>
    intro e' he' r r' h
    cases he' <;> rw [expr, expr, alwaysHead_unbounded] at h
    · next b' => cases b' <;> simp [Fmt.bool] at h
    · simp at h
    · simp at h
    · simp at h
    · simp at h
    · next e' he' =>
      rw [List.append_assoc, List.append_assoc] at h
      obtain ⟨rfl, h9⟩ := ih e' he' _ _ (List.append_cancel_left h)
      exact ⟨rfl, h9⟩
    · rw [eventuallyHead_unbounded] at h; simp at h
  | @eventually e he ih =>
    intro e' he' r r' h
    cases he' <;> rw [expr, expr, eventuallyHead_unbounded] at h
    · next b' => cases b' <;> simp [Fmt.bool] at h
    · simp at h
    · simp at h
    · simp at h
    · simp at h
    · rw [alwaysHead_unbounded] at h; simp at h
    · next e' he' =>
      rw [List.append_assoc, List.append_assoc] at h
      obtain ⟨rfl, h9⟩ := ih e' he' _ _ (List.append_cancel_left h)
      exact ⟨rfl, h9⟩

theorem samples_inj (hf : Faithful num) : ∀ (l l' : List (Sample K)),
    samples num l = samples num l' →
      l.map (fun s => (s.time, s.value)) = l'.map (fun s => (s.time, s.value)) := by
  have one : ∀ (s s' : Sample K) (r r' : List Char), sample num s ++ r = sample num s' ++ r' →
      (s.time, s.value) = (s'.time, s'.value) ∧ r = r' := by
    intro s s' r r' h
    simp only [sample, List.cons_append, List.append_assoc, List.cons.injEq, true_and, List.nil_append] at h
    obtain ⟨h1, h2⟩ := text_split (hf.clean _).2.1 (hf.clean _).2.1 h
    simp only [List.cons.injEq, true_and] at h2
    obtain ⟨h3, h4⟩ := text_split (hf.clean _).1 (hf.clean _).1 h2
    exact ⟨by rw [hf.inj h1, hf.inj h3], h4⟩
  intro l
  induction l with
  | nil =>
    intro l' h
    match l' with
    | [] => rfl
    | [s] => simp [samples, sample] at h
    | s :: s' :: l => simp [samples, sample] at h
  | cons s l ih =>
    intro l' h
    match l, l' with
    | [], [] => simp [samples, sample] at h
    | _ :: _, [] => simp [samples, sample] at h
    | [], [s'] =>
      have := one s s' [] [] (by simpa [samples] using h)
      simp [this.1]
    | [], s' :: s2 :: l' =>
      have := one s s' [] _ (by simpa only [samples, List.append_nil] using h)
      simp at this
    | s2 :: l, [s'] =>
      have := one s s' _ [] (by simpa only [samples, List.append_nil] using h)
      simp at this
    | s2 :: l, s' :: s2' :: l' =>
      obtain ⟨h1, h2⟩ := one s s' _ _ (by simpa only [samples] using h)
      simp only [List.cons.injEq, true_and] at h2
      have := ih (s2' :: l') h2
      rw [List.map_cons, this, h1]; rfl

end Verif
