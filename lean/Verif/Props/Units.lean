import Verif.Proofs.Units
import Verif.Props.Boolean

/-!
# Change of the units of time and values: C69
-/

set_option linter.unusedSectionVars false

namespace Verif
open Spec

variable {K : Type} [Field K] [LinearOrder K] [IsStrictOrderedRing K] [Arith K] [ExactArith K]

/-! ## C69 -/

/-- **C69.** Measuring time in another unit (all times `a` times larger, also the bounds of the intervals)
and the values in another unit (all values `c` times larger, also the constants of the predicates)
multiplies the times of the robustness by `a` and its values by `c`, and changes nothing else: the same
outcome, and if it is a signal the same number of samples.  All formulas, all traces with finite
timestamps; the values may be infinite or NaN. -/
theorem C69_units (nd : Bool) (fuel : Nat) (phi : Expr K) (trace : Trace K) (sy : Bool) (a c : K)
    (ha : 0 < a) (hc : 0 < c) (ht : FiniteTimes trace) :
    computeRobustness nd fuel (exprUnits a c phi) (traceUnits a c trace) sy =
      (computeRobustness nd fuel phi trace sy).map' (signalUnits a c) := by
  have htf : TraceFin trace := ht
  have hmm : ((minMaxTime trace).1, (minMaxTime trace).2) = (.pinf, .ninf) ∨
      ∃ a b, ((minMaxTime trace).1, (minMaxTime trace).2) = (.fin a, .fin b) := minMaxTime_fin htf
  have := compute_unit ha hc ⟨nd, fuel, (minMaxTime trace).1, (minMaxTime trace).2, trace⟩ htf hmm phi
  unfold computeRobustness
  simp only
  rw [minMaxTime_unit ha hc]
  exact this

/-- Seconds to milliseconds, and metres to centimetres, in the example trace of `Props/Boolean.lean` with a
formula that has a bounded temporal operator. -/
def exUnits : Expr ℚ :=
  .or [.always (.pred "x" .GE (.fin 1)) ⟨.ull 1, .dbl (.fin 2)⟩, .not (.pred "y" .LT (.fin (1/2)))]

example : FiniteTimes exTrace := by
  intro e he s hs
  simp only [exTrace, List.mem_cons, List.not_mem_nil, or_false] at he
  rcases he with rfl | rfl <;>
    simp [ofPts, lift] at hs <;> rcases hs with rfl | rfl | rfl <;> exact ⟨_, rfl⟩

example : ((computeRobustness false 20 exUnits exTrace false).map' Signal.size = .ok 4) ∧
    computeRobustness false 20 (exprUnits 1000 100 exUnits) (traceUnits 1000 100 exTrace) false =
      (computeRobustness false 20 exUnits exTrace false).map' (signalUnits 1000 100) := by
  decide +kernel

/-- The formula has to be converted as well. -/
example : computeRobustness false 20 exUnits (traceUnits 1000 100 exTrace) false ≠
    (computeRobustness false 20 exUnits exTrace false).map' (signalUnits 1000 100) := by decide +kernel

/-- The factors have to be positive: a negative factor of the values exchanges minimum and maximum. -/
example : computeRobustness false 0 (exprUnits 1 (-1) (.and [.pred "x" .GE (.fin 1), .pred "y" .GE 0]))
      (traceUnits 1 (-1) exTrace) false ≠
    (computeRobustness false 0 (.and [.pred "x" .GE (.fin 1), .pred "y" .GE 0]) exTrace false).map'
      (signalUnits 1 (-1)) := by decide +kernel

end Verif
