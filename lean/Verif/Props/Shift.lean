import Verif.Proofs.Shift
import Verif.Props.Boolean

/-!
# Translation in time: C41
-/

set_option linter.unusedSectionVars false

namespace Verif
open Spec

variable {K : Type} [Field K] [LinearOrder K] [IsStrictOrderedRing K] [Arith K] [ExactArith K]

/-- The signal with `dt` added to all timestamps. -/
def later (dt : K) (x : Signal K) : Signal K :=
  ⟨x.samples.map fun s => ⟨s.time + .fin dt, s.value, s.derivative⟩⟩

/-! ## C41 -/

/-- **C41.** The robustness of the shifted trace is the shifted robustness: the same outcome, and if it is
a signal the same samples, `dt` later.  All formulas in which And and Or have at least two operands
(others cannot be built), all traces of non-empty signals with finite timestamps; the values may be
infinite or NaN. -/
theorem C41_shift (nd : Bool) (fuel : Nat) (phi : Expr K) (ha : Arity phi) (trace : Trace K) (sy : Bool)
    (dt : K) (hne : ∀ e ∈ trace, e.2.samples ≠ []) (ht : FiniteTimes trace) :
    computeRobustness nd fuel phi (trace.map fun e => (e.1, later dt e.2)) sy =
      (computeRobustness nd fuel phi trace sy).map' (later dt) := by
  have hn : TraceNe trace := hne
  have htf : TraceFin trace := ht
  have hm := minMaxTime_shift dt trace hn
  have hmm : ((minMaxTime trace).1, (minMaxTime trace).2) = (.pinf, .ninf) ∨
      ∃ a b, ((minMaxTime trace).1, (minMaxTime trace).2) = (.fin a, .fin b) := minMaxTime_fin htf
  have := compute_shift dt ⟨nd, fuel, (minMaxTime trace).1, (minMaxTime trace).2, trace⟩ htf hn hmm phi ha
  unfold computeRobustness
  simp only
  change RobustnessOp.compute ⟨nd, fuel, (minMaxTime (shiftTrace dt trace)).1,
    (minMaxTime (shiftTrace dt trace)).2, shiftTrace dt trace⟩ phi = _
  rw [hm]
  exact this

/-- The hypothesis `Arity` is needed: the conjunction of nothing is the sample `(0, -inf)`. -/
example : computeRobustness false 0 (.and []) ([("x", ofPts [(0, 1)])] : Trace ℚ) false =
    computeRobustness false 0 (.and []) ([("x", ofPts [(5, 1)])] : Trace ℚ) false ∧
    computeRobustness false 0 (.and []) ([("x", ofPts [(5, 1)])] : Trace ℚ) false =
      .ok ⟨[⟨.fin 0, .ninf, .fin 0⟩]⟩ := by decide +kernel

example : ∀ e ∈ exTrace, e.2.samples ≠ [] := by decide +kernel
example : FiniteTimes exTrace := by
  intro e he a ha
  simp only [exTrace, List.mem_cons, List.not_mem_nil, or_false] at he
  rcases he with rfl | rfl <;>
    simp [ofPts, lift] at ha <;> rcases ha with rfl | rfl | rfl <;> exact ⟨_, rfl⟩
example : computeRobustness false 0 (.and [.pred "x" .GE (.fin 1), .pred "y" .GE 0])
      (exTrace.map fun e => (e.1, later 10 e.2)) false =
    .ok (ofPts [(10, -1), (34/3, 5/3), (12, 1), (13, 0), (53/4, 1/2), (14, -1)]) := by decide +kernel

end Verif
