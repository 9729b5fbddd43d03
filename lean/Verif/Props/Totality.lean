import Verif.Spec.Formula
import Verif.Props.Until

/-!
# Totality, missing signals, independence: C34 - C36
-/

set_option linter.unusedSectionVars false

namespace Verif
open Spec

section any
variable {K : Type} [Field K] [LinearOrder K] [Arith K]

theorem computeArgs_member_fails {r : RobustnessOp K} : ∀ (args : List (Expr K)) (e : Expr K), e ∈ args →
    (∀ z, r.compute e ≠ .ok z) → ∀ ys, r.computeArgs args ≠ .ok ys := by
  intro args
  induction args with
  | nil => intro e h; simp at h
  | cons a args ih =>
    intro e he hf ys h
    rw [RobustnessOp.computeArgs] at h
    simp only [Outcome.bind_eq_ok] at h
    obtain ⟨y, h1, ys', h2, -⟩ := h
    rcases List.mem_cons.1 he with rfl | he
    · exact hf y h1
    · exact ih e he hf ys' h2

/-! ## C35 -/

/-- **C35.** If the formula uses a name that is not in the trace, no signal is returned. -/
theorem C35_missing_signal (nd : Bool) (fuel : Nat) (phi : Expr K) (trace : Trace K) (sy : Bool)
    (n : String) (hn : Uses n phi) (hm : trace.lookup n = none) (z : Signal K) :
    computeRobustness nd fuel phi trace sy ≠ .ok z := by
  unfold computeRobustness
  simp only
  induction hn generalizing z with
  | pred op c =>
    rw [RobustnessOp.compute, RobustnessOp.pred, Trace.at_]
    simp [hm]
  | not _ ih =>
    rw [compute_not]; intro h
    simp only [Outcome.bind_eq_ok] at h
    obtain ⟨x, h1, -⟩ := h
    exact ih x h1
  | and he _ ih =>
    rw [RobustnessOp.compute]; intro h
    simp only [Outcome.bind_eq_ok] at h
    obtain ⟨ys, h1, -⟩ := h
    exact computeArgs_member_fails _ _ he ih ys h1
  | or he _ ih =>
    rw [RobustnessOp.compute]; intro h
    simp only [Outcome.bind_eq_ok] at h
    obtain ⟨ys, h1, -⟩ := h
    exact computeArgs_member_fails _ _ he ih ys h1
  | always _ ih =>
    rw [compute_always]; intro h
    simp only [Outcome.bind_eq_ok] at h
    obtain ⟨x, h1, -⟩ := h
    exact ih x h1
  | eventually _ ih =>
    rw [compute_eventually]; intro h
    simp only [Outcome.bind_eq_ok] at h
    obtain ⟨x, h1, -⟩ := h
    exact ih x h1
  | untl_left _ ih =>
    rw [compute_untl]; intro h
    simp only [Outcome.bind_eq_ok] at h
    obtain ⟨x, h1, -⟩ := h
    exact ih x h1
  | untl_right _ ih =>
    rw [compute_untl]; intro h
    simp only [Outcome.bind_eq_ok] at h
    obtain ⟨x, -, y, h1, -⟩ := h
    exact ih y h1

example : Uses "w" (.and [.pred "x" .GE 0, .not (.Eventually (.pred "w" .GE 0))] : Expr ℚ) :=
  .and (e := .not (.Eventually (.pred "w" .GE 0))) (by simp) (.not (.eventually (.pred _ _)))
example : exTrace.lookup "w" = none := by decide +kernel
example : computeRobustness false 100 (.and [.pred "x" .GE 0, .not (.Eventually (.pred "w" .GE 0))])
    exTrace false = .throw .outOfRange := by decide +kernel

/-! ## C36 -/

/-- **C36.** For a formula without Boolean constants the outcome depends only on the signals whose names
occur in it. -/
theorem C36_depends_only_on_used_signals (nd : Bool) (fuel : Nat) (phi : Expr K) (hc : ConstFree phi)
    (trace trace' : Trace K) (sy sy' : Bool)
    (h : ∀ n, Uses n phi → trace.lookup n = trace'.lookup n) :
    computeRobustness nd fuel phi trace sy = computeRobustness nd fuel phi trace' sy' := by
  unfold computeRobustness
  simp only
  set r : RobustnessOp K := ⟨nd, fuel, (minMaxTime trace).1, (minMaxTime trace).2, trace⟩ with hr
  set r' : RobustnessOp K := ⟨nd, fuel, (minMaxTime trace').1, (minMaxTime trace').2, trace'⟩ with hr'
  have hargs : ∀ args : List (Expr K), (∀ e ∈ args, r.compute e = r'.compute e) →
      r.computeArgs args = r'.computeArgs args := by
    intro args
    induction args with
    | nil => intro _; rfl
    | cons e args ih =>
      intro h
      rw [RobustnessOp.computeArgs, RobustnessOp.computeArgs, h e (by simp),
        ih fun e' he' => h e' (by simp [he'])]
  induction hc with
  | pred n op c =>
    rw [RobustnessOp.compute, RobustnessOp.compute, RobustnessOp.pred, RobustnessOp.pred, Trace.at_,
      Trace.at_, hr, hr', h n (.pred op c)]
  | not _ ih => rw [compute_not, compute_not, ih fun n hn => h n (.not hn)]
  | @and args _ ih =>
    rw [RobustnessOp.compute, RobustnessOp.compute, hargs args fun e he => ih e he fun n hn =>
      h n (.and he hn)]
  | @or args _ ih =>
    rw [RobustnessOp.compute, RobustnessOp.compute, hargs args fun e he => ih e he fun n hn =>
      h n (.or he hn)]
  | always _ ih => rw [compute_always, compute_always, ih fun n hn => h n (.always hn)]; rfl
  | eventually _ ih => rw [compute_eventually, compute_eventually, ih fun n hn => h n (.eventually hn)]; rfl
  | untl _ _ ih1 ih2 =>
    rw [compute_untl, compute_untl, ih1 fun n hn => h n (.untl_left hn),
      ih2 fun n hn => h n (.untl_right hn)]; rfl

/-- **C36.** The flag `synchronized` has no influence; for every formula. -/
theorem C36_flag_ignored (nd : Bool) (fuel : Nat) (phi : Expr K) (trace : Trace K) (sy sy' : Bool) :
    computeRobustness nd fuel phi trace sy = computeRobustness nd fuel phi trace sy' := rfl

/-- The hypothesis `ConstFree` is needed: the constants depend on all signals of the trace. -/
example : computeRobustness false 0 (.const true) ([("x", ofPts [(0, 1), (1, 1)])] : Trace ℚ) false ≠
    computeRobustness false 0 (.const true)
      ([("x", ofPts [(0, 1), (1, 1)]), ("y", ofPts [(0, 1), (5, 1)])] : Trace ℚ) false := by decide +kernel
example : ConstFree (.untl (.pred "x" .GE (.fin 1)) (.Always (.pred "x" .LE (.fin 2))) Interval.default : Expr ℚ) :=
  .untl (.pred _ _ _) (.always (.pred _ _ _))

end any

/-! ## C34 -/

section exact
variable {K : Type} [Field K] [LinearOrder K] [IsStrictOrderedRing K] [Arith K] [ExactArith K]

theorem intervalBuilt_high {i : Interval K} (h : IntervalBuilt i) : i.asDouble.2 ≠ .ninf := by
  rcases h with rfl | ⟨a, b, h⟩ | ⟨a, b, h⟩
  · exact default_high
  · simp only [Interval.ofULL, Outcome.ok.injEq] at h; subst h
    simp [Interval.asDouble, Interval.numAsDouble, ExactArith.rnd_eq]
  · unfold Interval.ofDouble at h
    split at h
    · cases h
    · rename_i hlt
      split at h
      · cases h
      · simp only [Outcome.ok.injEq] at h; subst h
        intro e
        have : b = .ninf := e
        subst this
        simp [D.lt, D.zero_def] at hlt

theorem EvalsTo.of_starts {nd : Bool} {fuel : Nat} {trace : Trace K} {sy : Bool} {t0 : K}
    {p : Expr K → List (K × K)} {e : Expr K} {x : Signal K}
    (h : computeRobustness nd fuel e trace sy = .ok x) (hr : Represents x (p e)) (hs : StartsAt t0 (p e)) :
    EvalsTo nd fuel trace sy t0 p e := ⟨x, h, hr, hs⟩

theorem startsAt_of_fst {t0 : K} {xs zs : List (K × K)} (h : zs.map Prod.fst = xs.map Prod.fst)
    (hx : StartsAt t0 xs) : StartsAt t0 zs := by
  obtain ⟨v, r, rfl⟩ := hx
  cases zs with
  | nil => simp at h
  | cons p zs =>
    simp only [List.map_cons, List.cons.injEq] at h
    exact ⟨p.2, zs, by rw [← h.1]⟩

theorem StartsAt.ne {t0 : K} {xs : List (K × K)} (h : StartsAt t0 xs) : xs ≠ [] := by
  obtain ⟨v, r, rfl⟩ := h; simp

/-- **C34.** All signals used by the formula are finite, well formed and start at `t0`.  Then a plain
formula (no Boolean constants, built by the constructors, any intervals) has a robustness signal: no
exception, no assertion failure, no undefined behaviour.  It is finite and well formed, starts at `t0`,
and its domain is the intersection of the domains of the signals used, so that it ends at the smallest
end time. -/
theorem C34_total (nd : Bool) (fuel : Nat) (trace : Trace K) (sy : Bool) (t0 : K)
    (sig : String → List (K × K)) (phi : Expr K) (hp : Plain phi)
    (hs : ∀ n, Uses n phi → ∃ x, trace.lookup n = some x ∧ Represents x (sig n) ∧
      ∃ v r, sig n = (t0, v) :: r) :
    ∃ z zs, computeRobustness nd fuel phi trace sy = .ok z ∧ Represents z zs ∧
      (∃ v r, zs = (t0, v) :: r) ∧
      ∀ t, t ∈ dom zs ↔ ∀ n, Uses n phi → t ∈ dom (sig n) := by
  induction hp with
  | pred n op c =>
    obtain ⟨x, hx, hr, h0⟩ := hs n (.pred op _)
    obtain ⟨z, zs, e, hz, ht, hd, -⟩ := C20_predicate nd fuel trace sy n op c x (sig n) hx hr
    refine ⟨z, zs, e, hz, startsAt_of_fst ht h0, fun t => ?_⟩
    rw [hd]
    constructor
    · rintro h m hm
      cases hm; exact h
    · intro h; exact h n (.pred op _)
  | @not e _ ih =>
    obtain ⟨z, zs, e1, hz, h0, hd⟩ := ih fun n hn => hs n (.not hn)
    obtain ⟨iz, rfl⟩ := (represents_iff _ _).1 hz
    refine ⟨ofPts (negPts zs), negPts zs, ?_, represents_ofPts (increasing_negPts.2 iz),
      startsAt_of_fst (negPts_times zs) h0, fun t => ?_⟩
    · rw [C21_not_negates, e1]
      exact congrArg Outcome.ok (negSig_ofPts iz)
    · rw [dom_negPts, hd]
      exact ⟨fun h n hn => by cases hn with | not hn => exact h n hn, fun h n hn => h n (.not hn)⟩
  | @and args hl _ ih =>
    have ih' : ∀ e : Expr K, ∃ zs : List (K × K), e ∈ args → ∃ x,
        computeRobustness nd fuel e trace sy = .ok x ∧ Represents x zs ∧ (∃ v r, zs = (t0, v) :: r) ∧
          ∀ t, t ∈ dom zs ↔ ∀ n, Uses n e → t ∈ dom (sig n) := by
      intro e
      by_cases he : e ∈ args
      · obtain ⟨z, zs, h1, h2, h3, h4⟩ := ih e he fun n hn => hs n (.and he hn)
        exact ⟨zs, fun _ => ⟨z, h1, h2, h3, h4⟩⟩
      · exact ⟨[], fun h => absurd h he⟩
    choose p hpe using ih'
    have hne : args ≠ [] := by rintro rfl; simp at hl
    obtain ⟨z, zs, e1, hz, h0, hd, -⟩ := C24_and_nary nd fuel trace sy t0 p args hne fun e he => by
      obtain ⟨x, h1, h2, h3, -⟩ := hpe e he
      exact ⟨x, h1, h2, h3⟩
    refine ⟨z, zs, e1, hz, h0, fun t => ?_⟩
    rw [hd]
    constructor
    · intro h n hn
      cases hn with
      | and he hn =>
        obtain ⟨x, -, -, -, h4⟩ := hpe _ he
        exact (h4 t).1 (h _ he) n hn
    · intro h e he
      obtain ⟨x, -, -, -, h4⟩ := hpe e he
      exact (h4 t).2 fun n hn => h n (.and he hn)
  | @or args hl _ ih =>
    have ih' : ∀ e : Expr K, ∃ zs : List (K × K), e ∈ args → ∃ x,
        computeRobustness nd fuel e trace sy = .ok x ∧ Represents x zs ∧ (∃ v r, zs = (t0, v) :: r) ∧
          ∀ t, t ∈ dom zs ↔ ∀ n, Uses n e → t ∈ dom (sig n) := by
      intro e
      by_cases he : e ∈ args
      · obtain ⟨z, zs, h1, h2, h3, h4⟩ := ih e he fun n hn => hs n (.or he hn)
        exact ⟨zs, fun _ => ⟨z, h1, h2, h3, h4⟩⟩
      · exact ⟨[], fun h => absurd h he⟩
    choose p hpe using ih'
    have hne : args ≠ [] := by rintro rfl; simp at hl
    obtain ⟨z, zs, e1, hz, h0, hd, -⟩ := C24_or_nary nd fuel trace sy t0 p args hne fun e he => by
      obtain ⟨x, h1, h2, h3, -⟩ := hpe e he
      exact ⟨x, h1, h2, h3⟩
    refine ⟨z, zs, e1, hz, h0, fun t => ?_⟩
    rw [hd]
    constructor
    · intro h n hn
      cases hn with
      | or he hn =>
        obtain ⟨x, -, -, -, h4⟩ := hpe _ he
        exact (h4 t).1 (h _ he) n hn
    · intro h e he
      obtain ⟨x, -, -, -, h4⟩ := hpe e he
      exact (h4 t).2 fun n hn => h n (.or he hn)
  | @always e i hi _ ih =>
    obtain ⟨z, zs, e1, hz, h0, hd⟩ := ih fun n hn => hs n (.always hn)
    have iz := ((represents_iff _ _).1 hz).1
    refine ⟨_, sufPts min zs, (eventually_fin e1 hz (StartsAt.ne h0) i (intervalBuilt_high hi)).2,
      represents_ofPts (increasing_sufPts.2 iz), startsAt_of_fst (sufPts_fst _ _) h0, fun t => ?_⟩
    rw [dom_sufPts, hd]
    exact ⟨fun h n hn => by cases hn with | always hn => exact h n hn, fun h n hn => h n (.always hn)⟩
  | @eventually e i hi _ ih =>
    obtain ⟨z, zs, e1, hz, h0, hd⟩ := ih fun n hn => hs n (.eventually hn)
    have iz := ((represents_iff _ _).1 hz).1
    refine ⟨_, sufPts max zs, (eventually_fin e1 hz (StartsAt.ne h0) i (intervalBuilt_high hi)).1,
      represents_ofPts (increasing_sufPts.2 iz), startsAt_of_fst (sufPts_fst _ _) h0, fun t => ?_⟩
    rw [dom_sufPts, hd]
    exact ⟨fun h n hn => by cases hn with | eventually hn => exact h n hn,
      fun h n hn => h n (.eventually hn)⟩
  | @untl a b i hi _ _ ih1 ih2 =>
    obtain ⟨x, xs, e1, hx, hx0, hdx⟩ := ih1 fun n hn => hs n (.untl_left hn)
    obtain ⟨y, ys, e2, hy, hy0, hdy⟩ := ih2 fun n hn => hs n (.untl_right hn)
    rw [compute_until_ok e1 e2]
    obtain ⟨ix, rfl⟩ := (represents_iff _ _).1 hx
    obtain ⟨iy, rfl⟩ := (represents_iff _ _).1 hy
    obtain ⟨ts, t1, t2, t3, t4, t5, -, -⟩ := computeUntil_pts nd ix iy t0 (StartsAt.mem hx0)
      (StartsAt.mem hy0) (fun t ht => StartsAt.le hx0 ix ht.1)
    have hfst : (untilPts (sample2 (eval xs) (eval ys) ts)).map Prod.fst = ts := by
      rw [untilPts_fst]; simp [sample2, Function.comp_def]
    have hi : Increasing (untilPts (sample2 (eval xs) (eval ys) ts)) := by
      unfold Increasing; rw [hfst]; exact t1
    have hdz : ∀ t, t ∈ dom (untilPts (sample2 (eval xs) (eval ys) ts)) ↔ t ∈ dom xs ∧ t ∈ dom ys := by
      intro t
      rw [dom_of_fst (zs := sampleAt (eval xs) ts) (by rw [hfst]; simp [sampleAt, Function.comp_def])]
      exact t5 _ t
    refine ⟨_, _, t4, represents_ofPts hi, ?_, fun t => ?_⟩
    · apply startsAt_of_dom hi
      · rw [hdz]; exact ((t3 t0).1 t2).2
      · intro t ht; exact StartsAt.le hx0 ix ((hdz t).1 ht).1
    · rw [hdz, hdx, hdy]
      constructor
      · rintro ⟨h1, h2⟩ n hn
        cases hn with
        | untl_left hn => exact h1 n hn
        | untl_right hn => exact h2 n hn
      · intro h; exact ⟨fun n hn => h n (.untl_left hn), fun n hn => h n (.untl_right hn)⟩

/-- A formula with all operators and a bounded interval. -/
def exFormula : Expr ℚ :=
  .and [.not (.pred "x" .GE (.fin 3)), .or [.untl (.pred "x" .GE 0) (.pred "y" .LE (.fin 1)) Interval.default,
    .always (.pred "y" .GT (.fin 1)) ⟨.ull 1, .ull 2⟩]]

example : Plain exFormula :=
  .and (by simp) (by
    intro e he
    simp only [List.mem_cons, List.not_mem_nil, or_false] at he
    rcases he with rfl | rfl
    · exact .not (.pred _ _ _)
    · refine .or (by simp) ?_
      intro e he
      simp only [List.mem_cons, List.not_mem_nil, or_false] at he
      rcases he with rfl | rfl
      · exact .untl (.inl rfl) (.pred _ _ (0 : ℚ)) (.pred _ _ _)
      · exact .always (.inr (.inl ⟨1, 2, rfl⟩)) (.pred _ _ _))
example : computeRobustness false 0 exFormula exTrace false =
    .ok (ofPts [(0, 0), (6/5, 3/5), (2, -1), (3, 1), (4, 1)]) := by decide +kernel

end exact
end Verif
