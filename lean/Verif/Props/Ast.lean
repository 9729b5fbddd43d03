import Verif.Spec.Ast
import Verif.Props.Totality

/-!
# The expression interface: C44 - C49
-/

set_option linter.unusedSectionVars false

namespace Verif
open Spec

section ast
variable {K : Type} [Field K] [LinearOrder K]

theorem bvalAll_append (v : Expr K → Bool) (a b : List (Expr K)) :
    bvalAll v (a ++ b) = (bvalAll v a && bvalAll v b) := by
  induction a with
  | nil => simp [bvalAll]
  | cons e a ih => simp [bvalAll, ih, Bool.and_assoc]

theorem bvalAny_append (v : Expr K → Bool) (a b : List (Expr K)) :
    bvalAny v (a ++ b) = (bvalAny v a || bvalAny v b) := by
  induction a with
  | nil => simp [bvalAny]
  | cons e a ih => simp [bvalAny, ih, Bool.or_assoc]

theorem And_ok {args : List (Expr K)} {r : Expr K} (h : Expr.And args = .ok r) :
    r = .and args ∧ 2 ≤ args.length := by
  unfold Expr.And at h
  split at h
  · simp at h
  · next h2 => cases h; exact ⟨rfl, by omega⟩

theorem Or_ok {args : List (Expr K)} {r : Expr K} (h : Expr.Or args = .ok r) :
    r = .or args ∧ 2 ≤ args.length := by
  unfold Expr.Or at h
  split at h
  · simp at h
  · next h2 => cases h; exact ⟨rfl, by omega⟩

/-! ## C44 -/

/-- **C44.** The functions that build a single node build this node, with the operands in order; without an
interval they use `[0, inf)`, and a predicate without a bound is `name >= 0`. -/
theorem C44_nodes (b : Bool) (n : String) (op : ComparisonOp) (c : D K) (e e' : Expr K) (i : Interval K) :
    Expr.Const b = (.const b : Expr K) ∧ Expr.Predicate n = (.pred n .GE 0 : Expr K) ∧
    Expr.withOp n op c = .pred n op c ∧
    Expr.Always e = .always e ⟨.dbl 0, .dbl .pinf⟩ ∧ Expr.AlwaysI e i = .always e i ∧
    Expr.Eventually e = .eventually e ⟨.dbl 0, .dbl .pinf⟩ ∧ Expr.EventuallyI e i = .eventually e i ∧
    Expr.Until e e' = .untl e e' ⟨.dbl 0, .dbl .pinf⟩ ∧ Expr.UntilI e e' i = .untl e e' i :=
  ⟨rfl, rfl, rfl, rfl, rfl, rfl, rfl, rfl, rfl⟩

/-- **C44.** `a & b`, when it returns, is true exactly when both are. -/
theorem C44_and (a b r : Expr K) (h : Expr.andOp a b = .ok r) (v : Expr K → Bool) :
    bval v r = (bval v a && bval v b) := by
  unfold Expr.andOp at h
  split at h
  · next c =>
    cases h
    cases c <;> simp [bval]
  · next args =>
    unfold Expr.andHelper at h
    split at h
    · next c =>
      obtain ⟨rfl, h2⟩ := And_ok h
      cases c
      · simp at h2
      · simp [bval]
    · obtain ⟨rfl, h2⟩ := And_ok h
      simp [bval, bvalAll_append]
    · obtain ⟨rfl, h2⟩ := And_ok h
      simp [bval, bvalAll_append, bvalAll]
  · obtain ⟨rfl, h2⟩ := And_ok h
    simp [bval, bvalAll]

/-- **C44.** `a | b`, when it returns, is true exactly when one of them is. -/
theorem C44_or (a b r : Expr K) (h : Expr.orOp a b = .ok r) (v : Expr K → Bool) :
    bval v r = (bval v a || bval v b) := by
  unfold Expr.orOp at h
  split at h
  · next c =>
    cases h
    cases c <;> simp [bval]
  · next args =>
    unfold Expr.orHelper at h
    split at h
    · next c =>
      obtain ⟨rfl, h2⟩ := Or_ok h
      cases c
      · simp [bval]
      · simp at h2
    · obtain ⟨rfl, h2⟩ := Or_ok h
      simp [bval, bvalAny_append]
    · obtain ⟨rfl, h2⟩ := Or_ok h
      simp [bval, bvalAny_append, bvalAny]
  · obtain ⟨rfl, h2⟩ := Or_ok h
    simp [bval, bvalAny]

/-- **C44.** `~a` (and `Not(a)`) is true exactly when `a` is not. -/
theorem C44_not (a : Expr K) (v : Expr K → Bool) : bval v (.Not a) = !bval v a := by
  cases a <;> simp [Expr.Not, bval]

-- flattening of both operands
example : Expr.andOp (.and [.pred "a" .GE 0, .pred "b" .GE 0] : Expr ℚ)
    (.and [.pred "c" .GE 0, .pred "d" .GE 0]) =
    .ok (.and [.pred "a" .GE 0, .pred "b" .GE 0, .pred "c" .GE 0, .pred "d" .GE 0]) := rfl
-- no flattening of the right operand alone
example : Expr.orOp (.pred "a" .GE 0 : Expr ℚ) (.or [.pred "c" .GE 0, .const true]) =
    .ok (.or [.pred "a" .GE 0, .or [.pred "c" .GE 0, .const true]]) := rfl
example : bval (fun e => match e with | .pred "a" _ _ => true | _ => false)
    (.or [.pred "c" .GE 0, .Not (.pred "a" .GE 0)] : Expr ℚ) = false := by decide +kernel

/-! ## C45 -/

/-- **C45.** Truth table of Implies. -/
theorem C45_implies (a b r : Expr K) (h : Expr.Implies a b = .ok r) (v : Expr K → Bool) :
    bval v r = true ↔ (bval v a = true → bval v b = true) := by
  rw [C44_or _ _ _ h v, C44_not]
  cases bval v a <;> simp

/-- **C45.** Truth table of Xor. -/
theorem C45_xor (a b r : Expr K) (h : Expr.Xor a b = .ok r) (v : Expr K → Bool) :
    bval v r = true ↔ bval v a ≠ bval v b := by
  unfold Expr.Xor at h
  simp only [Outcome.bind_eq_ok] at h
  obtain ⟨p, hp, q, hq, h⟩ := h
  rw [C44_and _ _ _ h v, C44_or _ _ _ hp v, C44_or _ _ _ hq v, C44_not, C44_not]
  cases bval v a <;> cases bval v b <;> simp

/-- **C45.** Truth table of Iff. -/
theorem C45_iff (a b r : Expr K) (h : Expr.Iff a b = .ok r) (v : Expr K → Bool) :
    bval v r = true ↔ bval v a = bval v b := by
  unfold Expr.Iff at h
  simp only [Outcome.bind_eq_ok] at h
  obtain ⟨p, hp, q, hq, h⟩ := h
  rw [C44_or _ _ _ h v, C44_and _ _ _ hp v, C44_and _ _ _ hq v, C44_not, C44_not]
  cases bval v a <;> cases bval v b <;> simp

example : Expr.Xor (.pred "a" .GE 0 : Expr ℚ) (.pred "b" .GE 0) =
    .ok (.and [.or [.pred "a" .GE 0, .pred "b" .GE 0],
      .or [.not (.pred "a" .GE 0), .not (.pred "b" .GE 0)]]) := rfl
example : Expr.Iff (.const true : Expr ℚ) (.or [.pred "a" .GE 0, .pred "b" .GE 0]) =
    .ok (.or [.pred "a" .GE 0, .pred "b" .GE 0]) := rfl

/-! ## C46 -/

/-- **C46 is false**: a conjunction `&` the constant false throws `std::invalid_argument`, and so do a
disjunction `|` the constant true, and the corresponding Xor and Iff. -/
theorem C46_refuted :
    ∃ a b : Expr K, Built a ∧ Built b ∧ Expr.andOp a b = .throw .invalidArgument ∧
      Expr.Iff a b = .throw .invalidArgument ∧
    ∃ a b : Expr K, Built a ∧ Built b ∧ Expr.orOp a b = .throw .invalidArgument ∧
      Expr.Xor a b = .throw .invalidArgument := by
  have hp : ∀ e ∈ [Expr.Predicate "p", Expr.Predicate "q"], Built (e : Expr K) := by
    intro e he
    simp only [List.mem_cons, List.not_mem_nil, or_false] at he
    rcases he with rfl | rfl <;> exact .predicate _
  exact ⟨.and [.Predicate "p", .Predicate "q"], .Const false, .and hp rfl, .const _, rfl, rfl,
    .or [.Predicate "p", .Predicate "q"], .Const true, .or hp rfl, .const _, rfl, rfl⟩

theorem And_of {args : List (Expr K)} (h : 2 ≤ args.length) : Expr.And args = .ok (.and args) := by
  unfold Expr.And; rw [if_neg (by omega)]

theorem Or_of {args : List (Expr K)} (h : 2 ≤ args.length) : Expr.Or args = .ok (.or args) := by
  unfold Expr.Or; rw [if_neg (by omega)]

theorem Not_arity {a : Expr K} (h : Arity a) : Arity (.Not a) := by
  cases a with
  | const b => exact .const _
  | _ => exact .not h


theorem andOp_arity {a b r : Expr K} (ha : Arity a) (hb : Arity b) (h : Expr.andOp a b = .ok r) :
    Arity r := by
  unfold Expr.andOp at h
  split at h
  · next c =>
    cases h
    cases c
    · exact .const _
    · exact hb
  · next args =>
    cases ha with
    | and h2 hall =>
      unfold Expr.andHelper at h
      split at h
      · obtain ⟨rfl, h3⟩ := And_ok h
        refine .and h3 ?_
        intro e he
        split at he
        · simp at he; subst he; exact .const _
        · exact hall e he
      · obtain ⟨rfl, h3⟩ := And_ok h
        refine .and h3 ?_
        cases hb with
        | and _ hall' =>
          intro e he
          rcases List.mem_append.1 he with he | he
          · exact hall e he
          · exact hall' e he
      · obtain ⟨rfl, h3⟩ := And_ok h
        refine .and h3 ?_
        intro e he
        rcases List.mem_append.1 he with he | he
        · exact hall e he
        · simp at he; subst he; exact hb
  · obtain ⟨rfl, h3⟩ := And_ok h
    refine .and h3 ?_
    intro e he
    simp at he
    rcases he with rfl | rfl <;> assumption

theorem orOp_arity {a b r : Expr K} (ha : Arity a) (hb : Arity b) (h : Expr.orOp a b = .ok r) :
    Arity r := by
  unfold Expr.orOp at h
  split at h
  · next c =>
    cases h
    cases c
    · exact hb
    · exact .const _
  · next args =>
    cases ha with
    | or h2 hall =>
      unfold Expr.orHelper at h
      split at h
      · obtain ⟨rfl, h3⟩ := Or_ok h
        refine .or h3 ?_
        intro e he
        split at he
        · simp at he; subst he; exact .const _
        · exact hall e he
      · obtain ⟨rfl, h3⟩ := Or_ok h
        refine .or h3 ?_
        cases hb with
        | or _ hall' =>
          intro e he
          rcases List.mem_append.1 he with he | he
          · exact hall e he
          · exact hall' e he
      · obtain ⟨rfl, h3⟩ := Or_ok h
        refine .or h3 ?_
        intro e he
        rcases List.mem_append.1 he with he | he
        · exact hall e he
        · simp at he; subst he; exact hb
  · obtain ⟨rfl, h3⟩ := Or_ok h
    refine .or h3 ?_
    intro e he
    simp at he
    rcases he with rfl | rfl <;> assumption

/-- **C46**, what holds: `a & b` throws exactly if `a` is a conjunction and `b` the constant false.
Missing from C46: this failure. -/
theorem C46_andOp_partial (a b : Expr K) (ha : Arity a) :
    ((∃ args, a = .and args) ∧ b = .const false → Expr.andOp a b = .throw .invalidArgument) ∧
    (¬((∃ args, a = .and args) ∧ b = .const false) → ∃ r, Expr.andOp a b = .ok r) := by
  constructor
  · rintro ⟨⟨args, rfl⟩, rfl⟩; rfl
  intro h
  unfold Expr.andOp
  split
  · exact ⟨_, rfl⟩
  · next args =>
    cases ha with
    | and h2 _ =>
      unfold Expr.andHelper
      split
      · next c =>
        cases c
        · exact absurd ⟨⟨_, rfl⟩, rfl⟩ h
        · exact ⟨_, And_of h2⟩
      · exact ⟨_, And_of (by simp; omega)⟩
      · exact ⟨_, And_of (by simp; omega)⟩
  · exact ⟨_, rfl⟩

/-- `a | b` throws exactly if `a` is a disjunction and `b` the constant true. -/
theorem C46_orOp_partial (a b : Expr K) (ha : Arity a) :
    ((∃ args, a = .or args) ∧ b = .const true → Expr.orOp a b = .throw .invalidArgument) ∧
    (¬((∃ args, a = .or args) ∧ b = .const true) → ∃ r, Expr.orOp a b = .ok r) := by
  constructor
  · rintro ⟨⟨args, rfl⟩, rfl⟩; rfl
  intro h
  unfold Expr.orOp
  split
  · exact ⟨_, rfl⟩
  · next args =>
    cases ha with
    | or h2 _ =>
      unfold Expr.orHelper
      split
      · next c =>
        cases c
        · exact ⟨_, Or_of h2⟩
        · exact absurd ⟨⟨_, rfl⟩, rfl⟩ h
      · exact ⟨_, Or_of (by simp; omega)⟩
      · exact ⟨_, Or_of (by simp; omega)⟩
  · exact ⟨_, rfl⟩

/-- Implies never throws. -/
theorem C46_implies_partial (a b : Expr K) (ha : Arity a) : ∃ r, Expr.Implies a b = .ok r := by
  unfold Expr.Implies
  apply (C46_orOp_partial (.Not a) b (Not_arity ha)).2
  rintro ⟨⟨args, h⟩, -⟩
  cases a <;> simp [Expr.Not] at h

/-- Xor throws exactly for a disjunction and the constant true. -/
theorem C46_xor_partial (a b : Expr K) (ha : Arity a) (hb : Arity b) :
    ((∃ args, a = .or args) ∧ b = .const true → Expr.Xor a b = .throw .invalidArgument) ∧
    (¬((∃ args, a = .or args) ∧ b = .const true) → ∃ r, Expr.Xor a b = .ok r) := by
  constructor
  · rintro ⟨⟨args, rfl⟩, rfl⟩; rfl
  intro hc
  unfold Expr.Xor
  obtain ⟨p, h⟩ := (C46_orOp_partial a b ha).2 hc
  obtain ⟨q, hq⟩ := C46_implies_partial a (.Not b) ha
  unfold Expr.Implies at hq
  simp only [h, hq, Outcome.bind_ok]
  have hA : (∃ args, p = .and args) → q = .const true := by
    unfold Expr.orOp at h
    split at h
    · next c =>
      cases h
      cases c
      · intro _
        simp [Expr.Not, Expr.orOp] at hq
        exact hq.symm
      · simp
    · next args =>
      unfold Expr.orHelper at h
      split at h <;> (obtain ⟨rfl, h3⟩ := Or_ok h; simp)
    · obtain ⟨rfl, h3⟩ := Or_ok h
      simp
  apply (C46_andOp_partial p q (orOp_arity ha hb h)).2
  rintro ⟨h1, h2⟩
  rw [hA h1] at h2; simp at h2

/-- Iff throws exactly for a conjunction and the constant false. -/
theorem C46_iff_partial (a b : Expr K) (ha : Arity a) (hb : Arity b) :
    ((∃ args, a = .and args) ∧ b = .const false → Expr.Iff a b = .throw .invalidArgument) ∧
    (¬((∃ args, a = .and args) ∧ b = .const false) → ∃ r, Expr.Iff a b = .ok r) := by
  constructor
  · rintro ⟨⟨args, rfl⟩, rfl⟩; rfl
  intro hc
  unfold Expr.Iff
  obtain ⟨p, h⟩ := (C46_andOp_partial a b ha).2 hc
  obtain ⟨q, hq⟩ : ∃ q, Expr.andOp (.Not a) (.Not b) = .ok q := by
    apply (C46_andOp_partial (.Not a) (.Not b) (Not_arity ha)).2
    rintro ⟨⟨args, h⟩, -⟩
    cases a <;> simp [Expr.Not] at h
  simp only [h, hq, Outcome.bind_ok]
  have hA : (∃ args, p = .or args) → q = .const false := by
    unfold Expr.andOp at h
    split at h
    · next c =>
      cases h
      cases c
      · simp
      · intro _
        simp [Expr.Not, Expr.andOp] at hq
        exact hq.symm
    · next args =>
      unfold Expr.andHelper at h
      split at h <;> (obtain ⟨rfl, h3⟩ := And_ok h; simp)
    · obtain ⟨rfl, h3⟩ := And_ok h
      simp
  apply (C46_orOp_partial p q (andOp_arity ha hb h)).2
  rintro ⟨h1, h2⟩
  rw [hA h1] at h2; simp at h2

example : Arity (.and [.pred "a" .GE 0, .not (.pred "b" .GE 0)] : Expr ℚ) :=
  .and (by decide) (by
    intro e he
    simp only [List.mem_cons, List.not_mem_nil, or_false] at he
    rcases he with rfl | rfl
    · exact .pred ..
    · exact .not (.pred ..))

/-! ## C47 -/

/-- **C47.** Every And/Or node of an expression built by the interface has at least two operands. -/
theorem C47_arity (e : Expr K) (h : Built e) : Arity e := by
  induction h with
  | const b => exact .const b
  | predicate n => exact .pred ..
  | comparison n op c => exact .pred ..
  | not _ ih => exact Not_arity ih
  | and _ h ih => obtain ⟨rfl, h2⟩ := And_ok h; exact .and h2 ih
  | or _ h ih => obtain ⟨rfl, h2⟩ := Or_ok h; exact .or h2 ih
  | andOp _ _ h ih ih' => exact andOp_arity ih ih' h
  | orOp _ _ h ih ih' => exact orOp_arity ih ih' h
  | implies _ _ h ih ih' => exact orOp_arity (Not_arity ih) ih' h
  | xor _ _ h ih ih' =>
    unfold Expr.Xor at h
    simp only [Outcome.bind_eq_ok] at h
    obtain ⟨p, hp, q, hq, h⟩ := h
    exact andOp_arity (orOp_arity ih ih' hp) (orOp_arity (Not_arity ih) (Not_arity ih') hq) h
  | iff _ _ h ih ih' =>
    unfold Expr.Iff at h
    simp only [Outcome.bind_eq_ok] at h
    obtain ⟨p, hp, q, hq, h⟩ := h
    exact orOp_arity (andOp_arity ih ih' hp) (andOp_arity (Not_arity ih) (Not_arity ih') hq) h
  | always _ ih => exact .always ih
  | alwaysI i _ ih => exact .always ih
  | eventually _ ih => exact .eventually ih
  | eventuallyI i _ ih => exact .eventually ih
  | untl _ _ ih ih' => exact .untl ih ih'
  | untlI i _ _ ih ih' => exact .untl ih ih'

-- a history with a flattening step
example : Built (.always (.and [.pred "a" .GE 0, .pred "b" .GT (.fin 3), .const false,
    .const false]) Interval.default :
    Expr ℚ) :=
  .always (.andOp (a := .and [.pred "a" .GE 0, .pred "b" .GT (.fin 3)])
    (b := .and [.const false, .const false]) (.andOp (.predicate "a") (.comparison "b" .GT (.fin 3)) rfl)
    (.and (args := [.const false, .const false]) (by
      intro e he
      simp only [List.mem_cons, List.not_mem_nil, or_false, or_self] at he
      subst he; exact .const false) rfl) rfl)

end ast

/-! ## C48 -/

section flatten
variable {K : Type} [Field K] [LinearOrder K] [Arith K]

theorem computeArgs_append (r : RobustnessOp K) : ∀ (as bs : List (Expr K)),
    r.computeArgs (as ++ bs) = (r.computeArgs as >>= fun xs => r.computeArgs bs >>= fun ys =>
      .ok (xs ++ ys))
  | [], bs => by simp [RobustnessOp.computeArgs]
  | a :: as, bs => by
    simp only [List.cons_append, RobustnessOp.computeArgs, computeArgs_append r as bs, Outcome.bind_assoc',
      Outcome.pure_eq_ok, Outcome.bind_ok]

theorem computeArgs_len (r : RobustnessOp K) : ∀ (as : List (Expr K)) (xs : List (Signal K)),
    r.computeArgs as = .ok xs → xs.length = as.length
  | [], xs, h => by simp [RobustnessOp.computeArgs] at h; subst h; rfl
  | a :: as, xs, h => by
    simp only [RobustnessOp.computeArgs, Outcome.bind_eq_ok, Outcome.pure_eq_ok] at h
    obtain ⟨y, -, ys, h2, h3⟩ := h
    cases h3
    simp [computeArgs_len r as ys h2]

theorem minmaxFold_append (nd : Bool) (comp : Cmp K) (sy : Bool) : ∀ (xs ys : List (Signal K))
    (acc : Signal K), minmaxFold nd comp sy acc (xs ++ ys) =
      (minmaxFold nd comp sy acc xs >>= fun a => minmaxFold nd comp sy a ys)
  | [], ys, acc => by simp [minmaxFold]
  | x :: xs, ys, acc => by
    simp only [List.cons_append, minmaxFold, Outcome.bind_assoc', minmaxFold_append nd comp sy xs ys]

theorem minmaxVec_fold (nd : Bool) (comp : Cmp K) (sy : Bool) (x y : Signal K) (xs : List (Signal K)) :
    minmaxVec nd comp (x :: y :: xs) sy = minmaxFold nd comp sy x (y :: xs) := by
  cases xs with
  | nil => simp [minmaxVec, minmaxFold]
  | cons _ _ => rfl

theorem minmaxVec_snoc (nd : Bool) (comp : Cmp K) (sy : Bool) (xs : List (Signal K)) (h : 2 ≤ xs.length)
    (z : Signal K) : minmaxVec nd comp (xs ++ [z]) sy =
      (minmaxVec nd comp xs sy >>= fun a => minmaxVec nd comp [a, z] sy) := by
  match xs, h with
  | x :: y :: xs, _ =>
    rw [List.cons_append, List.cons_append, minmaxVec_fold, minmaxVec_fold, ← List.cons_append,
      minmaxFold_append]
    congr 1; funext a
    simp [minmaxFold, minmaxVec]

theorem compute_and_vec (r : RobustnessOp K) (args : List (Expr K)) :
    r.compute (.and args) = (r.computeArgs args >>= fun ys => minmaxVec r.ndebug Sample.le ys false) := by
  rw [RobustnessOp.compute]
  cases h : r.computeArgs args with
  | ok ys =>
    have := computeArgs_len r args ys h
    simp [assert_, this, elementwiseMin]
  | _ => rfl

theorem compute_or_vec (r : RobustnessOp K) (args : List (Expr K)) :
    r.compute (.or args) = (r.computeArgs args >>= fun ys => minmaxVec r.ndebug Sample.ge ys false) := by
  rw [RobustnessOp.compute]
  cases h : r.computeArgs args with
  | ok ys =>
    have := computeArgs_len r args ys h
    simp [assert_, this, elementwiseMax]
  | _ => rfl

theorem vec_nested (r : RobustnessOp K) (comp : Cmp K) (args : List (Expr K)) (h : 2 ≤ args.length)
    (d : Expr K) (flat nested : Outcome (Signal K))
    (hf : flat = (r.computeArgs (args ++ [d]) >>= fun ys => minmaxVec r.ndebug comp ys false))
    (hn : nested = ((r.computeArgs args >>= fun ys => minmaxVec r.ndebug comp ys false) >>= fun c =>
        r.compute d >>= fun z => minmaxVec r.ndebug comp [c, z] false)) :
    (∀ z, flat = .ok z ↔ nested = .ok z) ∧ ((∃ x, r.compute d = .ok x) → flat = nested) := by
  subst hf hn
  rw [computeArgs_append]
  have h1 : r.computeArgs [d] = (r.compute d >>= fun z => .ok [z]) := by
    simp [RobustnessOp.computeArgs]
  rw [h1]
  cases ha : r.computeArgs args with
  | ok xs =>
    have hl : 2 ≤ xs.length := by rw [computeArgs_len r args xs ha]; exact h
    cases hd : r.compute d with
    | ok x => simp [minmaxVec_snoc, hl]
    | _ =>
      constructor
      · intro z
        simp only [Outcome.bind_ok, Outcome.bind_throw, Outcome.bind_abort, Outcome.bind_ub,
          Outcome.bind_diverge, Outcome.bind_eq_ok, reduceCtorEq, and_false, exists_false]
      · simp
  | _ => simp

theorem and_nested (r : RobustnessOp K) (c d : Expr K) :
    r.compute (.and [c, d]) =
      (r.compute c >>= fun x => r.compute d >>= fun z => minmaxVec r.ndebug Sample.le [x, z] false) := by
  rw [compute_and_vec]
  simp [RobustnessOp.computeArgs, Outcome.bind_assoc']

theorem or_nested (r : RobustnessOp K) (c d : Expr K) :
    r.compute (.or [c, d]) =
      (r.compute c >>= fun x => r.compute d >>= fun z => minmaxVec r.ndebug Sample.ge [x, z] false) := by
  rw [compute_or_vec]
  simp [RobustnessOp.computeArgs, Outcome.bind_assoc']

/-- **C48.** For a conjunction `c` and `d` neither a conjunction nor a constant, `c & d` (which appends
`d` to the operands of `c`) and the nested `And({c, d})` return the same signal or both fail; if the
robustness of `d` itself can be computed they have the same outcome in all respects.  (If both `c` and `d`
fail, the flattened version fails first in `d` where the nested one fails in `c`.) -/
theorem C48_and (nd : Bool) (fuel : Nat) (trace : Trace K) (sy : Bool) (args : List (Expr K)) (d e : Expr K)
    (hc : Arity (.and args)) (hd : ∀ as, d ≠ .and as) (hd' : ∀ b, d ≠ .const b)
    (he : Expr.andOp (.and args) d = .ok e) :
    (∀ z, computeRobustness nd fuel e trace sy = .ok z ↔
      computeRobustness nd fuel (.and [.and args, d]) trace sy = .ok z) ∧
    ((∃ x, computeRobustness nd fuel d trace sy = .ok x) → computeRobustness nd fuel e trace sy =
      computeRobustness nd fuel (.and [.and args, d]) trace sy) := by
  have h2 : 2 ≤ args.length := by cases hc; assumption
  have : e = .and (args ++ [d]) := by
    cases d with
    | const b => exact absurd rfl (hd' b)
    | and as => exact absurd rfl (hd as)
    | _ => exact (And_ok he).1
  subst this
  unfold computeRobustness
  simp only
  refine vec_nested _ Sample.le args h2 d _ _ (compute_and_vec _ _) ?_
  rw [and_nested, compute_and_vec]

/-- **C48** for disjunctions. -/
theorem C48_or (nd : Bool) (fuel : Nat) (trace : Trace K) (sy : Bool) (args : List (Expr K)) (d e : Expr K)
    (hc : Arity (.or args)) (hd : ∀ as, d ≠ .or as) (hd' : ∀ b, d ≠ .const b)
    (he : Expr.orOp (.or args) d = .ok e) :
    (∀ z, computeRobustness nd fuel e trace sy = .ok z ↔
      computeRobustness nd fuel (.or [.or args, d]) trace sy = .ok z) ∧
    ((∃ x, computeRobustness nd fuel d trace sy = .ok x) → computeRobustness nd fuel e trace sy =
      computeRobustness nd fuel (.or [.or args, d]) trace sy) := by
  have h2 : 2 ≤ args.length := by cases hc; assumption
  have : e = .or (args ++ [d]) := by
    cases d with
    | const b => exact absurd rfl (hd' b)
    | or as => exact absurd rfl (hd as)
    | _ => exact (Or_ok he).1
  subst this
  unfold computeRobustness
  simp only
  refine vec_nested _ Sample.ge args h2 d _ _ (compute_or_vec _ _) ?_
  rw [or_nested, compute_or_vec]

example : computeRobustness false 0 (.and [.pred "x" .GE (.fin 1), .pred "y" .GE 0, .pred "y" .LE (.fin 2)])
      exTrace false =
    computeRobustness false 0 (.and [.and [.pred "x" .GE (.fin 1), .pred "y" .GE 0], .pred "y" .LE (.fin 2)])
      exTrace false ∧
    computeRobustness false 0 (.and [.pred "x" .GE (.fin 1), .pred "y" .GE 0, .pred "y" .LE (.fin 2)])
      exTrace false =
      .ok (ofPts [(0, -1), (4/3, 1/3), (2, 1), (3, 0), (13/4, 1/2), (4, -1)]) := by
  decide +kernel

end flatten

/-! ## C49 -/

section interval
variable {K : Type} [Field K] [LinearOrder K]

/-- `0 <= low < high` for the bounds read as extended real numbers; false if one of them is NaN. -/
def ValidInterval (i : Interval K) : Prop :=
  (match i.low with
    | .ull _ => True
    | .dbl a => D.le 0 a = true) ∧
  (match i.low, i.high with
    | .ull a, .ull b => a.toNat < b.toNat
    | .dbl a, .dbl b => D.lt a b = true
    | .ull a, .dbl b => D.lt (.fin (a.toNat : K)) b = true
    | .dbl a, .ull b => D.lt a (.fin (b.toNat : K)) = true)

/-- **C49 is false**: the integer constructor checks nothing, and the floating point one accepts NaN. -/
theorem C49_refuted [IsStrictOrderedRing K] :
    (∃ i : Interval K, Interval.ofULL 5 3 = .ok i ∧ ¬ ValidInterval i) ∧
    (∃ i : Interval K, Interval.ofULL 0 0 = .ok i ∧ ¬ ValidInterval i) ∧
    (∃ i : Interval K, Interval.ofDouble .nan (.fin 1) = .ok i ∧ ¬ ValidInterval i) ∧
    (∃ i : Interval K, Interval.ofDouble 0 .nan = .ok i ∧ ¬ ValidInterval i) := by
  refine ⟨⟨_, rfl, ?_⟩, ⟨_, rfl, ?_⟩, ⟨⟨.dbl .nan, .dbl (.fin 1)⟩, ?_, ?_⟩, ⟨⟨.dbl 0, .dbl .nan⟩, ?_, ?_⟩⟩
  · simp [ValidInterval]
  · simp [ValidInterval]
  · simp [Interval.ofDouble, D.lt, D.le, D.eq]
  · simp [ValidInterval, D.lt, D.le, D.eq]
  · simp [Interval.ofDouble, D.lt, D.le, D.eq]
  · simp [ValidInterval, D.lt, D.le, D.eq]

/-- **C49**, what holds: the default interval is valid; the floating point constructor, for bounds other
than NaN, returns the interval with these bounds exactly if it is valid, and throws otherwise; the
integer constructor always returns.  Missing: NaN, and invalid integer bounds. -/
theorem C49_interval_partial [IsStrictOrderedRing K] :
    ValidInterval (Interval.default : Interval K) ∧
    (∀ a b : D K, a ≠ .nan → b ≠ .nan →
      (ValidInterval ⟨.dbl a, .dbl b⟩ → Interval.ofDouble a b = .ok ⟨.dbl a, .dbl b⟩) ∧
      (¬ ValidInterval ⟨.dbl a, .dbl b⟩ → Interval.ofDouble a b = .throw .invalidArgument)) ∧
    (∀ a b : UInt64, a.toNat < b.toNat → ∃ i : Interval K, Interval.ofULL a b = .ok i ∧ ValidInterval i) := by
  refine ⟨?_, ?_, fun a b h => ⟨_, rfl, trivial, h⟩⟩
  · simp [ValidInterval, Interval.default, D.lt, D.le, D.zero_def, D.eq]
  · intro a b ha hb
    cases a <;> cases b <;> simp_all [ValidInterval, Interval.ofDouble, D.le, D.lt, D.eq, D.zero_def] <;> grind

example : ValidInterval (⟨.dbl (.fin 1), .dbl (.fin 3)⟩ : Interval ℚ) := by
  simp [ValidInterval, D.lt, D.le, D.zero_def]

/-- **C49**: the bounds as numbers. The floating point constructor keeps its bounds; integer bounds become the
nearest floating point numbers, so with exact arithmetic (`C49_values_exact`) the integers. -/
theorem C49_values [Arith K] :
    (∀ (a b : D K) (i : Interval K), Interval.ofDouble a b = .ok i → i.asDouble = (a, b)) ∧
    (∀ (a b : UInt64) (i : Interval K), Interval.ofULL a b = .ok i →
      i.asDouble = (Arith.rnd (a.toNat : K), Arith.rnd (b.toNat : K))) ∧
    (Interval.default : Interval K).asDouble = (0, .pinf) := by
  refine ⟨fun a b i h => ?_, fun a b i h => ?_, rfl⟩
  · unfold Interval.ofDouble at h
    split at h
    · cases h
    · split at h
      · cases h
      · cases h; rfl
  · cases h; rfl

/-- **C49** with exact arithmetic. -/
theorem C49_values_exact [IsStrictOrderedRing K] [Arith K] [ExactArith K] (a b : UInt64) (i : Interval K)
    (h : Interval.ofULL a b = .ok i) : i.asDouble = (.fin (a.toNat : K), .fin (b.toNat : K)) := by
  rw [C49_values.2.1 a b i h, ExactArith.rnd_eq, ExactArith.rnd_eq]

end interval

end Verif
