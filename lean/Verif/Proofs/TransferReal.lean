import Verif.Proofs.Transfer
import Verif.Proofs.OverUntil
import Verif.Spec.OverUntil

/-! # Theorems about real-valued traces for traces of other numbers -/

set_option linter.unusedSectionVars false

namespace Verif
open Spec

theorem sameRounding_exact {K L : Type} [Arith K] [Arith L] [ExactArith K] [ExactArith L] (ι : K → L) :
    SameRounding ι := fun q => by rw [ExactArith.rnd_eq, ExactArith.rnd_eq]; rfl

variable {K : Type} [Field K] [LinearOrder K] [IsStrictOrderedRing K] [Arith K] [ExactArith K]
variable {ι : K →+* ℝ} (hι : StrictMono ι)

/-- Where the formula is the same, the variables are. -/
theorem uses_cast {n : String} : ∀ {e : Expr K}, Uses n (castExpr ι e) → Uses n e := by
  have key : ∀ e : Expr ℝ, Uses n e → ∀ e' : Expr K, castExpr ι e' = e → Uses n e' := by
    intro e h
    induction h with
    | pred op c =>
      intro e' he
      cases e' <;> simp only [castExpr, Expr.pred.injEq, reduceCtorEq] at he
      obtain ⟨rfl, -, -⟩ := he
      exact .pred _ _
    | not _ ih =>
      intro e' he
      cases e' <;> simp only [castExpr, Expr.not.injEq, reduceCtorEq] at he
      exact .not (ih _ he)
    | and hm _ ih =>
      intro e' he
      cases e' <;> simp only [castExpr, Expr.and.injEq, reduceCtorEq] at he
      rw [castExprs_eq] at he
      subst he
      obtain ⟨e, he, rfl⟩ := List.mem_map.1 hm
      exact .and he (ih _ rfl)
    | or hm _ ih =>
      intro e' he
      cases e' <;> simp only [castExpr, Expr.or.injEq, reduceCtorEq] at he
      rw [castExprs_eq] at he
      subst he
      obtain ⟨e, he, rfl⟩ := List.mem_map.1 hm
      exact .or he (ih _ rfl)
    | always _ ih =>
      intro e' he
      cases e' <;> simp only [castExpr, Expr.always.injEq, reduceCtorEq] at he
      exact .always (ih _ he.1)
    | eventually _ ih =>
      intro e' he
      cases e' <;> simp only [castExpr, Expr.eventually.injEq, reduceCtorEq] at he
      exact .eventually (ih _ he.1)
    | untl_left _ ih =>
      intro e' he
      cases e' <;> simp only [castExpr, Expr.untl.injEq, reduceCtorEq] at he
      exact .untl_left (ih _ he.1)
    | untl_right _ ih =>
      intro e' he
      cases e' <;> simp only [castExpr, Expr.untl.injEq, reduceCtorEq] at he
      exact .untl_right (ih _ he.2.1)
  exact fun {e} h => key _ h e rfl

theorem propositional_cast {e : Expr K} (h : Propositional e) : Propositional (castExpr ι e) := by
  induction h with
  | pred n op c => exact .pred n op (ι c)
  | not _ ih => exact .not ih
  | and hl _ ih =>
    rw [castExpr, castExprs_eq]
    refine .and (by simpa using hl) fun e he => ?_
    obtain ⟨a, ha, rfl⟩ := List.mem_map.1 he
    exact ih a ha
  | or hl _ ih =>
    rw [castExpr, castExprs_eq]
    refine .or (by simpa using hl) fun e he => ?_
    obtain ⟨a, ha, rfl⟩ := List.mem_map.1 he
    exact ih a ha

theorem stack_cast {e : Expr K} (h : Stack e) : Stack (castExpr ι e) := by
  induction h with
  | propositional h => exact .propositional (propositional_cast h)
  | not _ ih => exact .not ih
  | always _ ih =>
    have := Stack.always ih
    simpa [castExpr, castInterval, castNum, castD, D.zero_def] using this
  | eventually _ ih =>
    have := Stack.eventually ih
    simpa [castExpr, castInterval, castNum, castD, D.zero_def] using this

theorem combination_cast {e : Expr K} (h : Combination e) : Combination (castExpr ι e) := by
  induction h with
  | stack h => exact .stack (stack_cast h)
  | not _ ih => exact .not ih
  | and hl _ ih =>
    rw [castExpr, castExprs_eq]
    refine .and (by simpa using hl) fun e he => ?_
    obtain ⟨a, ha, rfl⟩ := List.mem_map.1 he
    exact ih a ha
  | or hl _ ih =>
    rw [castExpr, castExprs_eq]
    refine .or (by simpa using hl) fun e he => ?_
    obtain ⟨a, ha, rfl⟩ := List.mem_map.1 he
    exact ih a ha

include hι

theorem safety_cast {pol : Bool} {e : Expr K} (h : Safety pol e) : Safety pol (castExpr ι e) := by
  induction h with
  | pred pol n op c => exact .pred pol n op (ι c)
  | not _ ih => exact .not ih
  | and hl _ ih =>
    rw [castExpr, castExprs_eq]
    refine .and (by simpa using hl) fun e he => ?_
    obtain ⟨a, ha, rfl⟩ := List.mem_map.1 he
    exact ih a ha
  | or hl _ ih =>
    rw [castExpr, castExprs_eq]
    refine .or (by simpa using hl) fun e he => ?_
    obtain ⟨a, ha, rfl⟩ := List.mem_map.1 he
    exact ih a ha
  | always hi _ ih => exact .always (castInterval_built hι hi) ih
  | eventually hi _ ih => exact .eventually (castInterval_built hι hi) ih

omit hι in
theorem cast_default : castInterval ι (Interval.default : Interval K) = Interval.default := by
  simp [castInterval, Interval.default, castNum, castD, D.zero_def]

theorem overUntil_cast {pol : Bool} {e : Expr K} (h : OverUntil pol e) : OverUntil pol (castExpr ι e) := by
  induction h with
  | base h => exact .base (safety_cast hι h)
  | untl hi h h' => exact .untl (castInterval_built hι hi) (safety_cast hι h) (safety_cast hι h')
  | not _ ih => exact .not ih
  | always hi _ ih => exact .always (castInterval_built hι hi) ih
  | eventually hi _ ih => exact .eventually (castInterval_built hι hi) ih
  | globally _ ih => rw [castExpr, cast_default]; exact .globally ih
  | sometime _ ih => rw [castExpr, cast_default]; exact .sometime ih

theorem mixUntil_cast {pol : Bool} {e : Expr K} (h : MixUntil pol e) : MixUntil pol (castExpr ι e) := by
  induction h with
  | base h => exact .base (overUntil_cast hι h)
  | not _ ih => exact .not ih
  | and hl _ ih =>
    rw [castExpr, castExprs_eq]
    refine .and (by simpa using hl) fun e he => ?_
    obtain ⟨a, ha, rfl⟩ := List.mem_map.1 he
    exact ih a ha
  | or hl _ ih =>
    rw [castExpr, castExprs_eq]
    refine .or (by simpa using hl) fun e he => ?_
    obtain ⟨a, ha, rfl⟩ := List.mem_map.1 he
    exact ih a ha

theorem represents_cast {x : Signal K} {pts : List (K × K)} (h : Represents x pts) :
    Represents (castSignal ι x) (castPts ι pts) := by
  refine ⟨SMap.wf (castMap ι hι (sameRounding_exact ι)) h.1, ?_⟩
  have := congrArg (List.map fun p : D K × D K => (castD ι p.1, castD ι p.2)) h.2
  simp only [List.map_map] at this
  simp only [castSignal, castPts, List.map_map]
  exact this

omit hι in
theorem castTrace_lookup (trace : Trace K) (n : String) :
    (castTrace ι trace).lookup n = (trace.lookup n).map (castSignal ι) := by
  induction trace with
  | nil => rfl
  | cons e l ih =>
    obtain ⟨m, x⟩ := e
    simp only [castTrace, List.map_cons, List.lookup_cons]
    by_cases hn : (n == m) = true <;> simp [hn]
    exact ih

/-- Signals that start at `t0`. -/
theorem aligned_start_cast {trace : Trace K} {t0 : K} {sig : String → List (K × K)} {phi : Expr K}
    (hs : ∀ n, Uses n phi → ∃ x, trace.lookup n = some x ∧ Represents x (sig n) ∧ ∃ v r, sig n = (t0, v) :: r) :
    Aligned (castTrace ι trace) (ι t0) (fun n => castPts ι (sig n)) (castExpr ι phi) := by
  intro n hn
  obtain ⟨x, h1, h2, v, r, h3⟩ := hs n (uses_cast hn)
  exact ⟨castSignal ι x, by rw [castTrace_lookup, h1]; rfl, represents_cast hι h2, ι v, castPts ι r, by
    show castPts ι (sig n) = _
    rw [h3]; rfl⟩

/-- Signals that start at `t0` and end at `T`. -/
theorem aligned_cast {trace : Trace K} {t0 T : K} {sig : String → List (K × K)} {phi : Expr K}
    (hs : ∀ n, Uses n phi → ∃ x, trace.lookup n = some x ∧ Represents x (sig n) ∧ (∃ v r, sig n = (t0, v) :: r) ∧
      ∃ v, (sig n).getLast? = some (T, v)) :
    Aligned (castTrace ι trace) (ι t0) (fun n => castPts ι (sig n)) (castExpr ι phi) ∧
      ∀ n, Uses n (castExpr ι phi) → dom (castPts ι (sig n)) = Set.Icc (ι t0) (ι T) := by
  refine ⟨aligned_start_cast hι fun n hn => ?_, fun n hn => ?_⟩
  · obtain ⟨x, h1, h2, h3, -⟩ := hs n hn
    exact ⟨x, h1, h2, h3⟩
  · obtain ⟨x, h1, h2, ⟨v, r, h3⟩, w, h4⟩ := hs n (uses_cast hn)
    exact castPts_dom hι ((represents_iff _ _).1 h2).1 h3 h4

/-- What is computed from the real-valued trace is computed from the given one. -/
theorem result_cast (nd : Bool) (fuel : Nat) (trace : Trace K) (sy : Bool) (t0 : K) (sig : String → List (K × K))
    (phi : Expr K) (hp : Plain phi)
    (hs : ∀ n, Uses n phi → ∃ x, trace.lookup n = some x ∧ Represents x (sig n) ∧ ∃ v r, sig n = (t0, v) :: r)
    {z' : Signal ℝ} {zs' : List (ℝ × ℝ)}
    (h : computeRobustness nd fuel (castExpr ι phi) (castTrace ι trace) sy = .ok z') (hz : Represents z' zs') :
    ∃ z zs, computeRobustness nd fuel phi trace sy = .ok z ∧ Represents z zs ∧ (∃ v r, zs = (t0, v) :: r) ∧
      z' = castSignal ι z ∧ zs' = castPts ι zs := by
  obtain ⟨z, zs, e, h1, h2, -⟩ := C34_total nd fuel trace sy t0 sig phi hp hs
  have hc := compute_cast hι (sameRounding_exact ι)
    ⟨nd, fuel, (minMaxTime trace).1, (minMaxTime trace).2, trace⟩ phi
  unfold computeRobustness at h e
  simp only at h e
  rw [minMaxTime_cast hι (sameRounding_exact ι)] at h
  rw [h, e] at hc
  simp only [Outcome.map', Outcome.ok.injEq] at hc
  subst hc
  exact ⟨z, zs, e, h1, h2, rfl, represents_unique hz (represents_cast hι h1)⟩

end Verif
