import Verif.Proofs.ActualRob
import Verif.Proofs.TransferReal
import Verif.Props.Rounding
import Verif.Props.Errors

/-! # Formulas of `Safety` and their translation by `actual`, which only drops the intervals -/

set_option linter.unusedSectionVars false

namespace Verif
open Spec

section any
variable {K : Type} [Field K] [LinearOrder K] [IsStrictOrderedRing K] [Arith K]

theorem computeArgs_map {r : RobustnessOp K} {f : Expr K → Expr K} : ∀ {args : List (Expr K)},
    (∀ e ∈ args, r.compute (f e) = r.compute e) → r.computeArgs (args.map f) = r.computeArgs args
  | [], _ => rfl
  | e :: es, h => by
    rw [List.map_cons, RobustnessOp.computeArgs, RobustnessOp.computeArgs, h e (by simp),
      computeArgs_map fun e he => h e (by simp [he])]

/-- The code does not see the intervals. -/
theorem compute_actual [SaneArith K] [MonoArith K] {r : RobustnessOp K} (ht : TraceFin r.trace)
    (hm : (r.minTime, r.maxTime) = (.pinf, .ninf) ∨ ∃ a b, (r.minTime, r.maxTime) = (.fin a, .fin b)) {pol : Bool}
    {e : Expr K} (h : Safety pol e) : r.compute (actual e) = r.compute e := by
  have fin : ∀ (e : Expr K) (y : Signal K), r.compute e = .ok y → FinTimes y.samples := fun e y h =>
    (compute_any r (fun n => ((r.trace.lookup n).map fun x => x.samples.length).getD 0) ht hm
      (by intro n x h; simp [h]) e y h).1.2
  have same : ∀ (comp : Cmp K) {e : Expr K} {y : Signal K} {i : Interval K}, r.compute e = .ok y → IntervalBuilt i →
      r.temporal comp y i = minmaxSeq comp y := by
    intro comp e y i hy hi
    rcases temporal_sane r comp (fin e y hy) i with h | ⟨h, -⟩
    · exact h
    · exact absurd h (built_high hi)
  induction h with
  | pred => rfl
  | not _ ih => rw [actual, compute_not, compute_not, ih]
  | and _ _ ih => rw [actual, actuals_eq, RobustnessOp.compute, RobustnessOp.compute, computeArgs_map ih, List.length_map]
  | or _ _ ih => rw [actual, actuals_eq, RobustnessOp.compute, RobustnessOp.compute, computeArgs_map ih, List.length_map]
  | always hi _ ih =>
    rw [actual, compute_always, compute_always, ih]
    exact Outcome.bind_congr_ok fun y hy => by rw [same _ hy hi, same _ hy built_default]
  | eventually hi _ ih =>
    rw [actual, compute_eventually, compute_eventually, ih]
    exact Outcome.bind_congr_ok fun y hy => by rw [same _ hy hi, same _ hy built_default]

theorem cast_actual {ι : K →+* ℝ} {pol : Bool} {e : Expr K} (h : Safety pol e) :
    castExpr ι (actual e) = actual (castExpr ι e) := by
  have hmap : ∀ args : List (Expr K), (∀ e ∈ args, castExpr ι (actual e) = actual (castExpr ι e)) →
      (args.map actual).map (castExpr ι) = (args.map (castExpr ι)).map actual := by
    intro args h
    rw [List.map_map, List.map_map]
    exact List.map_congr_left h
  have hd : castInterval ι (⟨.dbl 0, .dbl .pinf⟩ : Interval K) = ⟨.dbl 0, .dbl .pinf⟩ := by
    simp [castInterval, castNum, castD, D.zero_def]
  induction h with
  | pred => rfl
  | not _ ih => rw [actual, castExpr, ih, castExpr, actual]
  | and _ _ ih => rw [actual, actuals_eq, castExpr, castExprs_eq, hmap _ ih, castExpr, castExprs_eq, actual, actuals_eq]
  | or _ _ ih => rw [actual, actuals_eq, castExpr, castExprs_eq, hmap _ ih, castExpr, castExprs_eq, actual, actuals_eq]
  | always _ _ ih => rw [actual, castExpr, ih, castExpr, actual, hd]
  | eventually _ _ ih => rw [actual, castExpr, ih, castExpr, actual, hd]

theorem safety_cast_any {ι : K →+* ℝ} (hι : StrictMono ι) {pol : Bool} {e : Expr K} (h : Safety pol e) :
    Safety pol (castExpr ι e) := by
  induction h with
  | pred pol n op c => exact .pred pol n op (ι c)
  | not _ ih => exact .not ih
  | and hl _ ih =>
    rw [castExpr, castExprs_eq]
    refine .and (by simpa using hl) fun e he => ?_
    obtain ⟨a, ha, rfl⟩ := List.mem_map.1 he
    exact ih a ha
  | or hl _ ih =>
    rw [castExpr, castExprs_eq]
    refine .or (by simpa using hl) fun e he => ?_
    obtain ⟨a, ha, rfl⟩ := List.mem_map.1 he
    exact ih a ha
  | always hi _ ih => exact .always (castInterval_built hι hi) ih
  | eventually hi _ ih => exact .eventually (castInterval_built hι hi) ih

end any

/-- Without the intervals the formula is stronger (weaker). -/
theorem rob_bare {T : ℝ} {x : String → ℝ → ℝ} {pol : Bool} {e : Expr ℝ} (h : Safety pol e) : ∀ t : ℝ,
    (pol = true → rob T x (actual e) t ≤ rob T x e t) ∧ (pol = false → rob T x e t ≤ rob T x (actual e) t) := by
  induction h with
  | pred => exact fun t => ⟨fun _ => le_rfl, fun _ => le_rfl⟩
  | @not pol e _ ih =>
    intro t
    rw [actual, rob, rob, EReal.neg_le_neg_iff, EReal.neg_le_neg_iff]
    exact ⟨fun h => (ih t).2 (by simp [h]), fun h => (ih t).1 (by simp [h])⟩
  | @and pol args _ _ ih =>
    intro t
    rw [actual, actuals_eq, rob, rob]
    constructor
    · intro h
      rw [le_robAll]
      exact fun e he => (robAll_le (List.mem_map_of_mem he)).trans ((ih e he t).1 h)
    · intro h
      rw [le_robAll]
      intro e he
      obtain ⟨a, ha, rfl⟩ := List.mem_map.1 he
      exact (robAll_le ha).trans ((ih a ha t).2 h)
  | @or pol args _ _ ih =>
    intro t
    rw [actual, actuals_eq, rob, rob]
    constructor
    · intro h
      rw [robAny_le]
      intro e he
      obtain ⟨a, ha, rfl⟩ := List.mem_map.1 he
      exact ((ih a ha t).1 h).trans (le_robAny ha)
    · intro h
      rw [robAny_le]
      exact fun e he => ((ih e he t).2 h).trans (le_robAny (List.mem_map_of_mem he))
  | always hi _ ih =>
    intro t
    refine ⟨fun _ => ?_, fun h => by cases h⟩
    rw [actual, rob, rob, window_default]
    exact le_iInf₂ fun s hs => (iInf₂_le s (window_ge hi hs)).trans ((ih s).1 rfl)
  | eventually hi _ ih =>
    intro t
    refine ⟨fun h => (by cases h), fun _ => ?_⟩
    rw [actual, rob, rob, window_default]
    exact iSup₂_le fun s hs => ((ih s).2 rfl).trans (le_iSup₂_of_le s (window_ge hi hs) le_rfl)

end Verif
