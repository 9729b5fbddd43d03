import Verif.Proofs.EvalCostFormula
import Mathlib.Tactic.Ring

/-!
# The evaluation of a formula takes polynomially many rounds: C109
-/

set_option linter.unusedSectionVars false

namespace Verif
open Spec

section
variable {K : Type} [Field K] [LinearOrder K] [Arith K]

/-- **C109.** The rounds that are counted are those of the model: the counting version has the outcome of
`compute_robustness`. -/
theorem C109_same (nd : Bool) (fuel : Nat) (phi : Expr K) (trace : Trace K) (sy : Bool) :
    (computeRobustnessS nd fuel phi trace).out = computeRobustness nd fuel phi trace sy :=
  computeRobustnessS_out nd fuel phi trace sy

/-- **C109.** Every operation on signals takes linearly many rounds, whatever the samples and the rounding are and
however the call ends; so do their results have linearly many samples. -/
theorem C109_operations (nd : Bool) (comp : Cmp K) (x y : Signal K) (sy : Bool) (xs : List (Sample K)) :
    ((ofSamplesS xs).out = Signal.ofSamples xs ∧ (ofSamplesS xs).count ≤ xs.length) ∧
    ((synchronizeS x y).out = synchronize x y ∧
      (synchronizeS x y).count ≤ 4 * (x.samples.length + y.samples.length) + 4) ∧
    ((minmaxPairS nd comp x y sy).out = minmaxPair nd comp x y sy ∧
      (minmaxPairS nd comp x y sy).count ≤ 5 * (x.samples.length + y.samples.length) + 6) ∧
    ((minmaxSeqS comp x).out = minmaxSeq comp x ∧ (minmaxSeqS comp x).count ≤ 3 * x.samples.length) ∧
    ((computeUntilS nd x y).out = computeUntil nd x y ∧
      (computeUntilS nd x y).count ≤ 7 * (x.samples.length + y.samples.length) + 10) ∧
    ((RobustnessOp.negateS x).out = RobustnessOp.negate x ∧ (RobustnessOp.negateS x).count ≤ 2 * x.samples.length) :=
  ⟨⟨ofSamplesS_out xs, ofSamplesS_count xs⟩, ⟨synchronizeS_out x y, synchronizeS_count x y⟩,
    ⟨minmaxPairS_out nd comp x y sy, minmaxPairS_count nd comp x y sy⟩,
    ⟨minmaxSeqS_out comp x, minmaxSeqS_count comp x⟩, ⟨computeUntilS_out nd x y, computeUntilS_count nd x y⟩,
    ⟨RobustnessOp.negateS_out x, RobustnessOp.negateS_count x⟩⟩

/-- **C109.** Nothing is left out: the numbers of successful calls are these, or at least these. -/
theorem C109_counted (nd : Bool) (comp : Cmp K) (x y z : Signal K) (r : Signal K × Signal K) (xs : List (Sample K)) :
    (Signal.ofSamples xs = .ok z → (ofSamplesS xs).count = xs.length) ∧
    (synchronize x y = .ok r → 2 * r.1.samples.length + r.2.samples.length ≤ (synchronizeS x y).count + 2 ∧
      r.1.samples.length + 2 * r.2.samples.length ≤ (synchronizeS x y).count + 2) ∧
    (minmaxPair nd comp x y true = .ok z →
      (minmaxPairS nd comp x y true).count = min x.samples.length y.samples.length) ∧
    (minmaxPair nd comp x y false = .ok z → (synchronizeS x y).count ≤ (minmaxPairS nd comp x y false).count) ∧
    (minmaxSeq comp x = .ok z → (minmaxSeqS comp x).count + 1 = 3 * x.samples.length) ∧
    (computeUntil nd x y = .ok z → 3 * z.samples.length ≤ (computeUntilS nd x y).count) ∧
    (RobustnessOp.negate x = .ok z → (RobustnessOp.negateS x).count = 2 * x.samples.length) := by
  refine ⟨fun h => ofSamplesS_eq (by rw [ofSamplesS_out]; exact h), fun h => synchronizeS_ge (by rw [synchronizeS_out]; exact h),
    fun h => ?_, fun h => ?_, fun h => minmaxSeqS_eq (by rw [minmaxSeqS_out]; exact h),
    fun h => computeUntilS_ge (by rw [computeUntilS_out]; exact h),
    fun h => negateS_eq (by rw [RobustnessOp.negateS_out]; exact h)⟩
  · rw [← minmaxPairS_out] at h
    unfold minmaxPairS at h ⊢
    rw [if_pos rfl] at h ⊢
    obtain ⟨_, h1, h, e⟩ := Steps.bind_ok h
    cases h1
    rw [e]
    obtain ⟨_, -, h, e⟩ := Steps.bind_ok h
    rw [e]
    obtain ⟨_, -, h, e⟩ := Steps.bind_ok h
    rw [e]
    obtain ⟨_, -, h, e⟩ := Steps.bind_ok h
    rw [e, minmaxPairLoopS_eq comp h]
    simp
  · rw [← minmaxPairS_out] at h
    unfold minmaxPairS at h ⊢
    rw [if_neg (by decide)] at h ⊢
    obtain ⟨_, h1, h, e⟩ := Steps.bind_ok h
    rw [e]
    exact Nat.le_add_right _ _

/-- **C109.** A successful evaluation takes at least one round for each node. -/
theorem C109_nodes (nd : Bool) (fuel : Nat) (phi : Expr K) (trace : Trace K) (sy : Bool) (z : Signal K)
    (h : computeRobustness nd fuel phi trace sy = .ok z) :
    trace.length + phi.nodes ≤ (computeRobustnessS nd fuel phi trace).count := by
  rw [← computeRobustnessS_out nd fuel phi trace sy] at h
  unfold computeRobustnessS at h ⊢
  obtain ⟨_, -, h, e⟩ := Steps.bind_ok h
  rw [e]
  exact Nat.add_le_add_left (nodes_le_count _ h) _

/-- **C109.** With any rounding, for every formula and every trace with finite timestamps, however the evaluation
ends: the number of rounds is linear in the number of nodes and in the bound of C63 on the number of samples. -/
theorem C109_rounding [IsStrictOrderedRing K] [SaneArith K] (nd : Bool) (fuel : Nat) (phi : Expr K) (trace : Trace K)
    (ht : FiniteTimes trace) (count : String → Nat)
    (hc : ∀ n x, trace.lookup n = some x → x.samples.length ≤ count n) :
    (computeRobustnessS nd fuel phi trace).count ≤
      trace.length + (11 * sampleBound count phi + 9) * phi.nodes :=
  computeRobustnessS_count (sized_any nd fuel trace ht count hc (sampleBound count phi)) le_rfl

variable [IsStrictOrderedRing K] [ExactArith K]

/-- **C109.** If the signals have at most `n ≥ 1` samples each, the formula has `p` predicates and its temporal
operators are nested at most `d` deep, then the evaluation takes at most `20 n p ^ (2 d + 3)` rounds for each
node of the formula, and one for each signal of the trace. -/
theorem C109_polynomial (nd : Bool) (fuel : Nat) (trace : Trace K) (t0 : K)
    (sig : String → List (K × K)) (n : Nat) (hn : 1 ≤ n) (phi : Expr K) (hp : Plain phi)
    (hs : ∀ m, Uses m phi → ∃ x, trace.lookup m = some x ∧ Represents x (sig m) ∧ (sig m).length ≤ n ∧
      ∃ v r, sig m = (t0, v) :: r) :
    (computeRobustnessS nd fuel phi trace).count ≤
      trace.length + 20 * n * predCount phi ^ (2 * temporalDepth phi + 3) * phi.nodes := by
  have h1 := (literalSamples_le n hp).1
  have hpos : 1 ≤ predCount phi := by
    have := (literalSamples_le n hp).2.1
    omega
  refine (computeRobustnessS_count (sized_plain nd fuel trace t0 sig n (predCount phi) (temporalDepth phi) hpos)
    ⟨hp, le_rfl, le_rfl, hs⟩).trans (Nat.add_le_add_left (Nat.mul_le_mul_right _ ?_) _)
  have : 1 ≤ n * predCount phi ^ (2 * temporalDepth phi + 3) :=
    Nat.mul_pos hn (Nat.pow_pos hpos)
  rw [Nat.mul_assoc]; omega

end

/-! The formula of C34 (see the example of C108 for the hypotheses): 9 nodes, 107 rounds. -/
example : (computeRobustnessS true 0 exFormula exTrace).count = 107 ∧ exFormula.nodes = 9 := by decide +kernel
example : FiniteTimes exTrace := by
  intro e he a ha
  simp only [exTrace, List.mem_cons, List.not_mem_nil, or_false] at he
  rcases he with rfl | rfl <;>
    simp [ofPts, lift] at ha <;> rcases ha with rfl | rfl | rfl <;> exact ⟨_, rfl⟩

end Verif
