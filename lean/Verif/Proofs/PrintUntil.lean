import Verif.Proofs.Print
import Verif.Spec.Discrete

/-!
# Helper lemmas for C59: chains of Until
-/

set_option linter.unusedSectionVars false

namespace Verif
open Spec Fmt

variable {K : Type} [Field K] [LinearOrder K] [IsStrictOrderedRing K] [Arith K] {num : D K → List Char}

theorem untilMid_unbounded : untilMid num (⟨.dbl 0, .dbl .pinf⟩ : Interval K) =
    ' ' :: 'U' :: '[' :: (num 0 ++ [',', ' ', 'i', 'n', 'f', ')', ' ']) := by
  unfold untilMid
  rw [if_pos hasValue_unbounded]
  simp [Interval.asDouble, Interval.numAsDouble, D.isinf]

theorem hasValue_one : (⟨.dbl (.fin 1), .dbl (.fin 1)⟩ : Interval K).hasValue = false := by
  simp [Interval.hasValue, Interval.isZeroToInf, Interval.numIsZero, D.eq, D.zero_def]

theorem alwaysHead_one : alwaysHead num (⟨.dbl (.fin 1), .dbl (.fin 1)⟩ : Interval K) = ['G', ' '] := by
  simp [alwaysHead, hasValue_one]

theorem eventuallyHead_one : eventuallyHead num (⟨.dbl (.fin 1), .dbl (.fin 1)⟩ : Interval K) = ['F', ' '] := by
  simp [eventuallyHead, hasValue_one]

theorem untilMid_one : untilMid num (⟨.dbl (.fin 1), .dbl (.fin 1)⟩ : Interval K) = [' ', 'U', ' '] := by
  simp [untilMid, hasValue_one]

/-- One of the two intervals of `blur`. -/
inductive Two : Interval K → Prop
  | all : Two ⟨.dbl 0, .dbl .pinf⟩
  | one : Two ⟨.dbl (.fin 1), .dbl (.fin 1)⟩

theorem Two.always {i : Interval K} (h : Two i) : ∃ x, alwaysHead num i = 'G' :: x := by
  cases h
  · exact ⟨_, alwaysHead_unbounded⟩
  · exact ⟨_, alwaysHead_one⟩

theorem Two.eventually {i : Interval K} (h : Two i) : ∃ x, eventuallyHead num i = 'F' :: x := by
  cases h
  · exact ⟨_, eventuallyHead_unbounded⟩
  · exact ⟨_, eventuallyHead_one⟩

theorem Two.untl {i : Interval K} (h : Two i) : ∃ x, untilMid num i = ' ' :: 'U' :: x := by
  cases h
  · exact ⟨_, untilMid_unbounded⟩
  · exact ⟨_, untilMid_one⟩

theorem Two.always_inj {i j : Interval K} (hi : Two i) (hj : Two j) {x y : List Char}
    (h : alwaysHead num i ++ x = alwaysHead num j ++ y) : i = j ∧ x = y := by
  cases hi <;> cases hj
  · exact ⟨rfl, List.append_cancel_left h⟩
  · rw [alwaysHead_unbounded, alwaysHead_one] at h; simp at h
  · rw [alwaysHead_unbounded, alwaysHead_one] at h; simp at h
  · exact ⟨rfl, List.append_cancel_left h⟩

theorem Two.eventually_inj {i j : Interval K} (hi : Two i) (hj : Two j) {x y : List Char}
    (h : eventuallyHead num i ++ x = eventuallyHead num j ++ y) : i = j ∧ x = y := by
  cases hi <;> cases hj
  · exact ⟨rfl, List.append_cancel_left h⟩
  · rw [eventuallyHead_unbounded, eventuallyHead_one] at h; simp at h
  · rw [eventuallyHead_unbounded, eventuallyHead_one] at h; simp at h
  · exact ⟨rfl, List.append_cancel_left h⟩

theorem Two.untl_inj {i j : Interval K} (hi : Two i) (hj : Two j) {x y : List Char}
    (h : untilMid num i ++ x = untilMid num j ++ y) : i = j ∧ x = y := by
  cases hi <;> cases hj
  · exact ⟨rfl, List.append_cancel_left h⟩
  · rw [untilMid_unbounded, untilMid_one] at h; simp at h
  · rw [untilMid_unbounded, untilMid_one] at h; simp at h
  · exact ⟨rfl, List.append_cancel_left h⟩

/-- Formulas in the form of `rebracket`; with `true` those that are not an Until. -/
inductive NFp : Bool → Expr K → Prop
  | const (b : Bool) : NFp true (.const b)
  | pred {n : String} {o : ComparisonOp} {c : D K} : PlainName n → NFp true (.pred n o c)
  | not {e : Expr K} : NFp true e → NFp true (.not e)
  | and {args : List (Expr K)} : 2 ≤ args.length → (∀ e ∈ args, NFp false e) → NFp true (.and args)
  | or {args : List (Expr K)} : 2 ≤ args.length → (∀ e ∈ args, NFp false e) → NFp true (.or args)
  | always {e : Expr K} {i : Interval K} : Two i → NFp true e → NFp true (.always e i)
  | eventually {e : Expr K} {i : Interval K} : Two i → NFp true e → NFp true (.eventually e i)
  | lift {e : Expr K} : NFp true e → NFp false e
  | untl {a b : Expr K} {i : Interval K} : Two i → NFp true a → NFp false b → NFp false (.untl a b i)

/-! ## Bringing formulas into this form -/

theorem expr_onFirst {f : Expr K → Expr K} {h : List Char} (hf : ∀ e, expr num (f e) = h ++ expr num e) :
    ∀ e : Expr K, expr num (onFirst f e) = h ++ expr num e
  | .untl a b i => by rw [onFirst, expr, expr_onFirst hf a, expr]; simp
  | .const _ => hf _
  | .pred _ _ _ => hf _
  | .not _ => hf _
  | .and _ => hf _
  | .or _ => hf _
  | .always _ _ => hf _
  | .eventually _ _ => hf _

theorem expr_untl {a b : Expr K} {i : Interval K} :
    expr num (.untl a b i) = expr num a ++ (untilMid num i ++ expr num b) := by rw [expr]

theorem expr_chain {i : Interval K} {b : Expr K} :
    ∀ e : Expr K, expr num (chain i b e) = expr num e ++ (untilMid num i ++ expr num b)
  | .untl a a' j => by rw [chain, expr, expr_chain a', expr]; simp
  | .const _ => by simp only [chain]; exact expr_untl
  | .pred _ _ _ => by simp only [chain]; exact expr_untl
  | .not _ => by simp only [chain]; exact expr_untl
  | .and _ => by simp only [chain]; exact expr_untl
  | .or _ => by simp only [chain]; exact expr_untl
  | .always _ _ => by simp only [chain]; exact expr_untl
  | .eventually _ _ => by simp only [chain]; exact expr_untl

mutual
theorem expr_rebracket : ∀ e : Expr K, expr num (rebracket e) = expr num e
  | .const _ => by rw [rebracket]
  | .pred _ _ _ => by rw [rebracket]
  | .not e => by
    rw [rebracket, expr_onFirst (h := ['~']) (fun e => by rw [expr]; rfl), expr_rebracket e, expr]; rfl
  | .and es => by rw [rebracket, expr, join_rebracket, expr]
  | .or es => by rw [rebracket, expr, join_rebracket, expr]
  | .always e i => by
    rw [rebracket, expr_onFirst (h := alwaysHead num i) (fun e => by rw [expr]), expr_rebracket e, expr]
  | .eventually e i => by
    rw [rebracket, expr_onFirst (h := eventuallyHead num i) (fun e => by rw [expr]), expr_rebracket e, expr]
  | .untl a b i => by rw [rebracket, expr_chain, expr_rebracket a, expr_rebracket b, expr]
theorem join_rebracket {sep : List Char} : ∀ es : List (Expr K), join num sep (rebracketAll es) = join num sep es
  | [] => by rw [rebracketAll]
  | [e] => by rw [rebracketAll, rebracketAll, join, join, expr_rebracket e]
  | e :: e' :: es => by
    have := join_rebracket (sep := sep) (e' :: es)
    rw [rebracketAll, rebracketAll, join, expr_rebracket e, join]
    rw [rebracketAll] at this
    rw [this]
end

theorem nf_onFirst {f : Expr K → Expr K} (hf : ∀ e, NFp true e → NFp true (f e)) {c : Bool} {e : Expr K}
    (h : NFp c e) : NFp c (onFirst f e) := by
  induction h with
  | const b => exact hf _ (.const b)
  | pred hn => exact hf _ (.pred hn)
  | not h => exact hf _ (.not h)
  | and h1 h2 => exact hf _ (.and h1 h2)
  | or h1 h2 => exact hf _ (.or h1 h2)
  | always hi h => exact hf _ (.always hi h)
  | eventually hi h => exact hf _ (.eventually hi h)
  | lift _ ih => exact .lift ih
  | untl hi _ hb ih _ => rw [onFirst]; exact .untl hi ih hb

theorem nf_true_untl {a b : Expr K} {i : Interval K} : ¬ NFp true (.untl a b i) := by
  intro h; cases h

theorem nf_chain {b : Expr K} {i : Interval K} (hi : Two i) (hb : NFp false b) {c : Bool} {e : Expr K} (h : NFp c e) :
    NFp false (chain i b e) := by
  induction h with
  | const c => exact .untl hi (.const c) hb
  | pred hn => exact .untl hi (.pred hn) hb
  | not h => exact .untl hi (.not h) hb
  | and h1 h2 => exact .untl hi (.and h1 h2) hb
  | or h1 h2 => exact .untl hi (.or h1 h2) hb
  | always hj h => exact .untl hi (.always hj h) hb
  | eventually hj h => exact .untl hi (.eventually hj h) hb
  | lift _ ih => exact ih
  | untl hj ha _ _ ih => rw [chain]; exact .untl hj ha ih

theorem rebracketAll_eq : ∀ es : List (Expr K), rebracketAll es = es.map rebracket
  | [] => by rw [rebracketAll]; rfl
  | e :: es => by rw [rebracketAll, rebracketAll_eq es]; rfl

theorem blurredAll_eq : ∀ es : List (Expr K), blurredAll es = es.map blurred
  | [] => by rw [blurredAll]; rfl
  | e :: es => by rw [blurredAll, blurredAll_eq es]; rfl

theorem blur_two (i : Interval K) : Two (blur i) := by
  unfold blur
  split
  · exact .all
  · exact .one

theorem nf_rebracket {e : Expr K} (h : PrintableI e) : NFp false (rebracket (blurred e)) := by
  induction h with
  | const b => rw [blurred, rebracket]; exact .lift (.const b)
  | pred hn => rw [blurred, rebracket]; exact .lift (.pred hn)
  | not _ ih => rw [blurred, rebracket]; exact nf_onFirst (fun e h => .not h) ih
  | and h2 _ ih =>
    rw [blurred, rebracket, rebracketAll_eq, blurredAll_eq]
    exact .lift (.and (by simpa using h2) (by simpa using ih))
  | or h2 _ ih =>
    rw [blurred, rebracket, rebracketAll_eq, blurredAll_eq]
    exact .lift (.or (by simpa using h2) (by simpa using ih))
  | always _ ih => rw [blurred, rebracket]; exact nf_onFirst (fun e h => .always (blur_two _) h) ih
  | eventually _ ih => rw [blurred, rebracket]; exact nf_onFirst (fun e h => .eventually (blur_two _) h) ih
  | untl _ _ iha ihb => rw [blurred, rebracket]; exact nf_chain (blur_two _) ihb iha

/-! The formula with the two intervals has the same text. -/

theorem hasValue_iff (i : Interval K) : i.hasValue = true ↔ ZeroBound i.low ∧ InfBound i.high := by
  have h1 : ∀ d : D K, d.isinf = true ↔ d = .pinf ∨ d = .ninf := by intro d; cases d <;> simp [D.isinf]
  have h2 : Interval.numIsZero i.low = true ↔ ZeroBound i.low := by
    cases i.low with
    | ull n => simp [Interval.numIsZero, ZeroBound]
    | dbl d => cases d <;> simp [Interval.numIsZero, ZeroBound, D.eq, D.zero_def]
  have h3 : (Interval.numAsDouble i.high).isinf = true ↔ InfBound i.high := by
    rw [h1]
    cases i.high <;> rfl
  rw [Interval.hasValue, Interval.isZeroToInf, Bool.and_eq_true, h2, h3]

theorem low_zero [SaneArith K] {i : Interval K} (h : ZeroBound i.low) : i.asDouble.1 = 0 := by
  unfold Interval.asDouble Interval.numAsDouble
  revert h
  cases i.low with
  | ull n =>
    rintro rfl
    simpa [D.zero_def] using SaneArith.rnd_zero (K := K)
  | dbl d => exact fun h => h

theorem blur_hasValue (i : Interval K) : (blur i).hasValue = i.hasValue := by
  unfold blur
  split
  · next h => rw [hasValue_unbounded, (hasValue_iff i).2 h]
  · next h => rw [hasValue_one]; exact (Bool.eq_false_iff.2 fun h' => h ((hasValue_iff i).1 h')).symm

theorem blur_heads [SaneArith K] (i : Interval K) : alwaysHead num (blur i) = alwaysHead num i ∧
    eventuallyHead num (blur i) = eventuallyHead num i ∧ untilMid num (blur i) = untilMid num i := by
  by_cases h : ZeroBound i.low ∧ InfBound i.high
  · have h1 := (hasValue_iff i).2 h
    have h2 : i.asDouble.2.isinf = true := by
      rw [Interval.hasValue, Interval.isZeroToInf, Bool.and_eq_true] at h1
      exact h1.2
    rw [blur, if_pos h, alwaysHead_unbounded, eventuallyHead_unbounded, untilMid_unbounded]
    unfold alwaysHead eventuallyHead untilMid
    rw [h1, h2, low_zero h.1]
    exact ⟨rfl, rfl, rfl⟩
  · have h1 : i.hasValue = false := Bool.eq_false_iff.2 fun h' => h ((hasValue_iff i).1 h')
    rw [blur, if_neg h, alwaysHead_one, eventuallyHead_one, untilMid_one]
    unfold alwaysHead eventuallyHead untilMid
    rw [h1]
    exact ⟨rfl, rfl, rfl⟩

mutual
theorem expr_blurred [SaneArith K] : ∀ e : Expr K, expr num (blurred e) = expr num e
  | .const _ => by rw [blurred]
  | .pred _ _ _ => by rw [blurred]
  | .not e => by rw [blurred, expr, expr_blurred e, expr]
  | .and es => by rw [blurred, expr, join_blurred, expr]
  | .or es => by rw [blurred, expr, join_blurred, expr]
  | .always e i => by rw [blurred, expr, expr_blurred e, (blur_heads i).1, expr]
  | .eventually e i => by rw [blurred, expr, expr_blurred e, (blur_heads i).2.1, expr]
  | .untl a b i => by rw [blurred, expr, expr_blurred a, expr_blurred b, (blur_heads i).2.2, expr]
theorem join_blurred [SaneArith K] {sep : List Char} : ∀ es : List (Expr K), join num sep (blurredAll es) = join num sep es
  | [] => by rw [blurredAll]
  | [e] => by rw [blurredAll, blurredAll, join, join, expr_blurred e]
  | e :: e' :: es => by
    have := join_blurred (sep := sep) (e' :: es)
    rw [blurredAll, blurredAll, join, expr_blurred e, join]
    rw [blurredAll] at this
    rw [this]
end

/-! Formulas with unbounded intervals are not changed. -/

theorem printableI_of {e : Expr K} (h : PrintableU e) : PrintableI e := by
  induction h with
  | const b => exact .const b
  | pred hn => exact .pred hn
  | not _ ih => exact .not ih
  | and h2 _ ih => exact .and h2 ih
  | or h2 _ ih => exact .or h2 ih
  | always _ ih => exact .always ih
  | eventually _ ih => exact .eventually ih
  | untl _ _ iha ihb => exact .untl iha ihb

theorem blur_unbounded : blur (⟨.dbl 0, .dbl .pinf⟩ : Interval K) = ⟨.dbl 0, .dbl .pinf⟩ :=
  if_pos ⟨rfl, .inl rfl⟩

theorem blurred_of {e : Expr K} (h : PrintableU e) : blurred e = e := by
  induction h with
  | const b => rw [blurred]
  | pred hn => rw [blurred]
  | not _ ih => rw [blurred, ih]
  | and h2 _ ih => rw [blurred, blurredAll_eq, List.map_congr_left ih, List.map_id']
  | or h2 _ ih => rw [blurred, blurredAll_eq, List.map_congr_left ih, List.map_id']
  | always _ ih => rw [blurred, ih, blur_unbounded]
  | eventually _ ih => rw [blurred, ih, blur_unbounded]
  | untl _ _ iha ihb => rw [blurred, iha, ihb, blur_unbounded]

theorem nf_rebracketU {e : Expr K} (h : PrintableU e) : NFp false (rebracket e) := by
  have := nf_rebracket (printableI_of h)
  rwa [blurred_of h] at this

/-! ## Reading back -/

/-- The rest does not continue a chain. -/
def NoU (r : List Char) : Prop := ∀ x, r ≠ ' ' :: 'U' :: x

theorem expr_head {f : Bool} {e : Expr K} (he : NFp f e) : ∃ d z, expr num e = d :: z ∧ d ≠ '<' ∧ d ≠ '>' := by
  induction he with
  | const b => rw [expr]; cases b <;> exact ⟨_, _, rfl, by decide, by decide⟩
  | pred => rw [expr]; exact ⟨_, _, rfl, by decide, by decide⟩
  | not => rw [expr]; exact ⟨_, _, rfl, by decide, by decide⟩
  | and => rw [expr]; exact ⟨_, _, rfl, by decide, by decide⟩
  | or => rw [expr]; exact ⟨_, _, rfl, by decide, by decide⟩
  | always hi =>
    obtain ⟨x, hx⟩ := hi.always (num := num)
    rw [expr, hx]; exact ⟨_, _, rfl, by decide, by decide⟩
  | eventually hi =>
    obtain ⟨x, hx⟩ := hi.eventually (num := num)
    rw [expr, hx]; exact ⟨_, _, rfl, by decide, by decide⟩
  | lift _ ih => exact ih
  | untl _ _ _ ih _ =>
    obtain ⟨d, z, h1, h2⟩ := ih
    rw [expr, h1]; exact ⟨d, _, rfl, h2⟩

/-- A predicate is not mistaken for the first operand of And or Or. -/
theorem name_neU {n : String} (hn : PlainName n) {o : ComparisonOp} {c : Char} (hc : c = '&' ∨ c = '|' ∨ c = 'U')
    {f : Bool} {e : Expr K} (he : NFp f e) {x y : List Char} :
    n.toList ++ ' ' :: (op o ++ x) ≠ expr num e ++ (' ' :: c :: y) := by
  intro h
  have key : ∀ (d : Char) (z : List Char), d = '(' ∨ d = '~' → n.toList ++ ' ' :: (op o ++ x) ≠ d :: z := by
    intro d z hd h
    cases hl : n.toList with
    | nil => rw [hl] at h; simp at h; rcases hd with rfl | rfl <;> simp at h
    | cons b l =>
      rw [hl] at h
      simp only [List.cons_append, List.cons.injEq] at h
      have := hn b (by rw [hl]; simp)
      rcases hd with rfl | rfl
      · exact this.2.1 h.1
      · exact this.2.2.1 h.1
  have key2 : ∀ (d : Char) (z : List Char), d ≠ ' ' → n.toList ++ ' ' :: (op o ++ x) ≠ d :: '[' :: z := by
    intro d z hd h
    cases hl : n.toList with
    | nil => rw [hl] at h; simp at h; exact hd h.1.symm
    | cons b l =>
      rw [hl] at h
      simp only [List.cons_append, List.cons.injEq] at h
      cases l with
      | nil => simp at h
      | cons b' l =>
        simp only [List.cons_append, List.cons.injEq] at h
        exact (hn b' (by rw [hl]; simp)).2.2.2 h.2.1
  have key3 : ∀ (d : Char) {f : Bool} {e : Expr K} (z : List Char), d ≠ ' ' → NFp f e →
      n.toList ++ ' ' :: (op o ++ x) ≠ d :: ' ' :: (expr num e ++ z) := by
    intro d f e z hd he h
    obtain ⟨-, h2⟩ := text_split (b := [d]) (fun hm => (hn _ hm).1 rfl) (by simpa using hd.symm) h
    obtain ⟨d', z', h3, h4, h5⟩ := expr_head (num := num) he
    rw [h3] at h2
    cases o <;> simp [op] at h2
    · exact h5 h2.1.symm
    · exact h5 h2.1.symm
    · exact h4 h2.1.symm
    · exact h4 h2.1.symm
  induction he generalizing c y with
  | const b =>
    rw [expr] at h
    have hb : ' ' ∉ Fmt.bool b := by cases b <;> decide
    obtain ⟨-, h2⟩ := text_split (fun hm => (hn _ hm).1 rfl) hb h
    rcases hc with rfl | rfl | rfl <;> cases o <;> simp [op] at h2
  | pred => rw [expr] at h; exact key _ _ (.inl rfl) h
  | not => rw [expr] at h; exact key _ _ (.inr rfl) h
  | and => rw [expr] at h; exact key _ _ (.inl rfl) h
  | or => rw [expr] at h; exact key _ _ (.inl rfl) h
  | always hi he =>
    cases hi with
    | all => rw [expr, alwaysHead_unbounded] at h; exact key2 _ _ (by decide) h
    | one =>
      rw [expr, alwaysHead_one, List.append_assoc] at h
      exact key3 _ _ (by decide) he h
  | eventually hi he =>
    cases hi with
    | all => rw [expr, eventuallyHead_unbounded] at h; exact key2 _ _ (by decide) h
    | one =>
      rw [expr, eventuallyHead_one, List.append_assoc] at h
      exact key3 _ _ (by decide) he h
  | lift _ ih => exact ih hc h
  | untl hi _ _ ih _ =>
    obtain ⟨u, hu⟩ := hi.untl (num := num)
    rw [expr, hu] at h
    simp only [List.cons_append, List.append_assoc] at h
    exact ih (.inr (.inr rfl)) h

/-- The text of `e` can be split off. -/
def ReadsU (num : D K → List Char) (f : Bool) (e : Expr K) : Prop :=
  ∀ e', NFp f e' → ∀ r r', (f = false → NoU r ∧ NoU r') → expr num e ++ r = expr num e' ++ r' → e = e' ∧ r = r'

theorem noU_sep {c : Char} (hc : c ≠ 'U') (x : List Char) : NoU (' ' :: c :: x) := by
  intro y h; simp only [List.cons.injEq, true_and] at h; exact hc h.1

theorem noU_rp (x : List Char) : NoU (')' :: x) := by intro y h; simp at h

theorem join_injU {c c' : Char} (hc : c ≠ 'U') (hc' : c' ≠ 'U') (es : List (Expr K)) (hne : es ≠ [])
    (h : ∀ e ∈ es, ReadsU num false e) :
    ∀ es' : List (Expr K), es' ≠ [] → (∀ e ∈ es', NFp false e) → ∀ r r',
      join num [' ', c, ' '] es ++ ')' :: r = join num [' ', c', ' '] es' ++ ')' :: r' → es = es' ∧ r = r' := by
  induction es with
  | nil => exact (hne rfl).elim
  | cons e es ih =>
    intro es' hne' hp r r' heq
    cases es' with
    | nil => exact (hne' rfl).elim
    | cons e' es' =>
      cases es with
      | nil =>
        cases es' with
        | nil =>
          rw [join, join] at heq
          obtain ⟨rfl, h2⟩ := h e (by simp) e' (hp _ (by simp)) _ _ (fun _ => ⟨noU_rp _, noU_rp _⟩) heq
          exact ⟨rfl, by simpa using h2⟩
        | cons e'' es' =>
          rw [join, join, List.append_assoc] at heq
          obtain ⟨rfl, h2⟩ := h e (by simp) e' (hp _ (by simp)) _ _ (fun _ => ⟨noU_rp _, noU_sep hc' _⟩) heq
          simp at h2
      | cons e2 es =>
        cases es' with
        | nil =>
          rw [join, join, List.append_assoc] at heq
          obtain ⟨rfl, h2⟩ := h e (by simp) e' (hp _ (by simp)) _ _ (fun _ => ⟨noU_sep hc _, noU_rp _⟩) heq
          simp at h2
        | cons e2' es' =>
          rw [join, join] at heq
          simp only [List.append_assoc] at heq
          obtain ⟨rfl, h2⟩ := h e (by simp) e' (hp _ (by simp)) _ _ (fun _ => ⟨noU_sep hc _, noU_sep hc' _⟩) heq
          simp only [List.cons_append, List.cons.injEq, true_and] at h2
          obtain ⟨h3, h4⟩ := ih (by simp) (fun x hx => h x (by simp [hx])) (e2' :: es') (by simp)
            (fun x hx => hp x (by simp [hx])) r r' (by simpa using h2.2)
          exact ⟨by rw [h3], h4⟩

theorem join_sepU {c c' : Char} (hn : c ≠ 'U') (hn' : c' ≠ 'U') (hc : c ≠ c') {es es' : List (Expr K)}
    (h2 : 2 ≤ es.length) (h2' : 2 ≤ es'.length)
    (h : ∀ e ∈ es, ReadsU num false e) (hp : ∀ e ∈ es', NFp false e) {r r' : List Char} :
    join num [' ', c, ' '] es ++ r ≠ join num [' ', c', ' '] es' ++ r' := by
  intro heq
  match es, es', h2, h2' with
  | e :: e2 :: es, e' :: e2' :: es', _, _ =>
    rw [join, join] at heq
    simp only [List.append_assoc] at heq
    obtain ⟨-, h3⟩ := h e (by simp) e' (hp _ (by simp)) _ _ (fun _ => ⟨noU_sep hn _, noU_sep hn' _⟩) heq
    simp only [List.cons_append, List.nil_append, List.cons.injEq, true_and] at h3
    exact hc h3.1

theorem name_ne_joinU {n : String} (hn : PlainName n) {o : ComparisonOp} {c : Char} (hc : c = '&' ∨ c = '|')
    {es : List (Expr K)} (h2 : 2 ≤ es.length) (hp : ∀ e ∈ es, NFp false e) {x r : List Char} :
    n.toList ++ ' ' :: (op o ++ x) ≠ join num [' ', c, ' '] es ++ r := by
  match es, h2 with
  | e :: e2 :: es, _ =>
    rw [join, List.append_assoc]
    exact name_neU hn (by tauto) (hp e (by simp))

theorem readsU (hf : Faithful num) {f : Bool} {e : Expr K} (he : NFp f e) : ReadsU num f e := by
  induction he with
  | const b =>
    intro e' he' r r' _ h
    cases he' <;> rw [expr, expr] at h
    · next b' => cases b <;> cases b' <;> simp_all [Fmt.bool]
    all_goals first
      | (next hi _ =>
          obtain ⟨u, hu⟩ := hi.always (num := num)
          rw [hu] at h; cases b <;> simp [Fmt.bool] at h; done)
      | (next hi _ =>
          obtain ⟨u, hu⟩ := hi.eventually (num := num)
          rw [hu] at h; cases b <;> simp [Fmt.bool] at h; done)
      | (cases b <;> simp [Fmt.bool] at h; done)
  | @pred n o c hn =>
    intro e' he' r r' _ h
    cases he' <;> rw [expr, expr] at h
    · next b' => cases b' <;> simp [Fmt.bool] at h
    · next n' o' c' hn' =>
      simp only [List.cons_append, List.append_assoc, List.cons.injEq, true_and, List.nil_append] at h
      obtain ⟨h1, h2⟩ := text_split (fun hm => (hn _ hm).1 rfl) (fun hm => (hn' _ hm).1 rfl) h
      obtain ⟨rfl, h3⟩ := op_inj h2
      obtain ⟨h4, h5⟩ := text_split (hf.clean c).1 (hf.clean c').1 h3
      exact ⟨by rw [hf.inj h4, String.toList_injective h1], h5⟩
    · simp at h
    · next h2 hp =>
      simp only [List.cons_append, List.append_assoc, List.cons.injEq, true_and] at h
      exact (name_ne_joinU hn (.inl rfl) h2 hp h).elim
    · next h2 hp =>
      simp only [List.cons_append, List.append_assoc, List.cons.injEq, true_and] at h
      exact (name_ne_joinU hn (.inr rfl) h2 hp h).elim
    · next hi _ =>
      obtain ⟨u, hu⟩ := hi.always (num := num)
      rw [hu] at h; simp at h
    · next hi _ =>
      obtain ⟨u, hu⟩ := hi.eventually (num := num)
      rw [hu] at h; simp at h
  | @not e he ih =>
    intro e' he' r r' _ h
    cases he' <;> rw [expr, expr] at h
    · next b' => cases b' <;> simp [Fmt.bool] at h
    · simp at h
    · next e' he' =>
      simp only [List.cons_append, List.cons.injEq, true_and] at h
      obtain ⟨rfl, h9⟩ := ih _ he' _ _ (by simp) h
      exact ⟨rfl, h9⟩
    · simp at h
    · simp at h
    · next hi _ =>
      obtain ⟨u, hu⟩ := hi.always (num := num)
      rw [hu] at h; simp at h
    · next hi _ =>
      obtain ⟨u, hu⟩ := hi.eventually (num := num)
      rw [hu] at h; simp at h
  | @and es h2 hp ih =>
    intro e' he' r r' _ h
    cases he' <;> rw [expr, expr] at h
    · next b' => cases b' <;> simp [Fmt.bool] at h
    · next n' o' c' hn' =>
      simp only [List.cons_append, List.append_assoc, List.cons.injEq, true_and] at h
      exact (name_ne_joinU hn' (.inl rfl) h2 hp h.symm).elim
    · simp at h
    · next es' h2' hp' =>
      simp only [List.cons_append, List.append_assoc, List.cons.injEq, true_and, List.nil_append] at h
      obtain ⟨rfl, h9⟩ := join_injU (by decide) (by decide) es (by rintro rfl; simp at h2) ih es'
        (by rintro rfl; simp at h2') hp' _ _ h
      exact ⟨rfl, h9⟩
    · next es' h2' hp' =>
      simp only [List.cons_append, List.append_assoc, List.cons.injEq, true_and] at h
      exact (join_sepU (by decide) (by decide) (by decide) h2 h2' ih hp' h).elim
    · next hi _ =>
      obtain ⟨u, hu⟩ := hi.always (num := num)
      rw [hu] at h; simp at h
    · next hi _ =>
      obtain ⟨u, hu⟩ := hi.eventually (num := num)
      rw [hu] at h; simp at h
  | @or es h2 hp ih =>
    intro e' he' r r' _ h
    cases he' <;> rw [expr, expr] at h
    · next b' => cases b' <;> simp [Fmt.bool] at h
    · next n' o' c' hn' =>
      simp only [List.cons_append, List.append_assoc, List.cons.injEq, true_and] at h
      exact (name_ne_joinU hn' (.inr rfl) h2 hp h.symm).elim
    · simp at h
    · next es' h2' hp' =>
      simp only [List.cons_append, List.append_assoc, List.cons.injEq, true_and] at h
      exact (join_sepU (by decide) (by decide) (by decide) h2 h2' ih hp' h).elim
    · next es' h2' hp' =>
      simp only [List.cons_append, List.append_assoc, List.cons.injEq, true_and, List.nil_append] at h
      obtain ⟨rfl, h9⟩ := join_injU (by decide) (by decide) es (by rintro rfl; simp at h2) ih es'
        (by rintro rfl; simp at h2') hp' _ _ h
      exact ⟨rfl, h9⟩
    · next hi _ =>
      obtain ⟨u, hu⟩ := hi.always (num := num)
      rw [hu] at h; simp at h
    · next hi _ =>
      obtain ⟨u, hu⟩ := hi.eventually (num := num)
      rw [hu] at h; simp at h
  | @always e i hi0 he ih =>
    intro e' he' r r' _ h
    obtain ⟨v, hv⟩ := hi0.always (num := num)
    cases he' <;> rw [expr, expr] at h
    · next b' => rw [hv] at h; cases b' <;> simp [Fmt.bool] at h
    · rw [hv] at h; simp at h
    · rw [hv] at h; simp at h
    · rw [hv] at h; simp at h
    · rw [hv] at h; simp at h
    · next hi he' =>
      rw [List.append_assoc, List.append_assoc] at h
      obtain ⟨rfl, h10⟩ := hi0.always_inj hi h
      obtain ⟨rfl, h9⟩ := ih _ he' _ _ (by simp) h10
      exact ⟨rfl, h9⟩
    · next hi _ =>
      obtain ⟨u, hu⟩ := hi.eventually (num := num)
      rw [hv, hu] at h; simp at h
  | @eventually e i hi0 he ih =>
    intro e' he' r r' _ h
    obtain ⟨v, hv⟩ := hi0.eventually (num := num)
    cases he' <;> rw [expr, expr] at h
    · next b' => rw [hv] at h; cases b' <;> simp [Fmt.bool] at h
    · rw [hv] at h; simp at h
    · rw [hv] at h; simp at h
    · rw [hv] at h; simp at h
    · rw [hv] at h; simp at h
    · next hi _ =>
      obtain ⟨u, hu⟩ := hi.always (num := num)
      rw [hv, hu] at h; simp at h
    · next hi he' =>
      rw [List.append_assoc, List.append_assoc] at h
      obtain ⟨rfl, h10⟩ := hi0.eventually_inj hi h
      obtain ⟨rfl, h9⟩ := ih _ he' _ _ (by simp) h10
      exact ⟨rfl, h9⟩
  | @lift e he ih =>
    intro e' he' r r' hr h
    cases he' with
    | lift he' => exact ih e' he' r r' (by simp) h
    | untl hi ha hb =>
      rw [expr, List.append_assoc, List.append_assoc] at h
      obtain ⟨-, h9⟩ := ih _ ha _ _ (by simp) h
      obtain ⟨u, hu⟩ := hi.untl (num := num)
      rw [hu] at h9
      exact ((hr rfl).1 _ h9).elim
  | @untl a b i hi0 ha hb iha ihb =>
    intro e' he' r r' hr h
    rw [expr, List.append_assoc, List.append_assoc] at h
    cases he' with
    | lift he' =>
      obtain ⟨-, h9⟩ := iha _ he' _ _ (by simp) h
      obtain ⟨u, hu⟩ := hi0.untl (num := num)
      rw [hu] at h9
      exact ((hr rfl).2 _ h9.symm).elim
    | untl hi ha' hb' =>
      rw [expr, List.append_assoc, List.append_assoc] at h
      obtain ⟨rfl, h9⟩ := iha _ ha' _ _ (by simp) h
      obtain ⟨rfl, h10⟩ := hi0.untl_inj hi h9
      obtain ⟨rfl, h8⟩ := ihb _ hb' _ _ hr h10
      exact ⟨rfl, h8⟩

end Verif
