import Verif.Props.AnyRound

/-!
# The flag `synchronized` of the element-wise functions, and idempotence of And and Or: C66, C67
-/

set_option linter.unusedSectionVars false

namespace Verif
open Spec

/-- The signals are well-formed, not empty and have the same timestamps, none of them NaN: they are what
`synchronize` calls synchronized. -/
def SyncedSignals {K : Type} [Field K] [LinearOrder K] [Arith K] (xs : List (Signal K)) : Prop :=
  ∀ x ∈ xs, WF x ∧ x.samples ≠ [] ∧ (∀ a ∈ x.samples, a.time ≠ .nan) ∧
    ∀ y ∈ xs, x.samples.map Sample.time = y.samples.map Sample.time

/-- The claim of C66: telling the element-wise functions that the signals are synchronized, if they are,
does not change the outcome. -/
def FlagHarmless (K : Type) [Field K] [LinearOrder K] [Arith K] : Prop :=
  ∀ (nd : Bool) (xs : List (Signal K)), SyncedSignals xs →
    elementwiseMinFlag nd xs true = elementwiseMinFlag nd xs false ∧
    elementwiseMaxFlag nd xs true = elementwiseMaxFlag nd xs false

/-! ## C66 -/

def flagX : Signal ℚ := ofPts [(0, 0), (2, 2)]
def flagY : Signal ℚ := ofPts [(0, 2), (2, 0)]
def flagZ : Signal ℚ := ofPts [(0, 5), (2, 5)]

/-- **C66 is false** for three operands: the minimum of the first two has a sample at their crossing, and so
is not synchronized with the third.  In a debug build the assertion fails; in a release build the end of
the result is wrong: it ends at time 1. -/
theorem C66_refuted : ¬ FlagHarmless ℚ ∧
    elementwiseMinFlag false [flagX, flagY, flagZ] true = .abort ∧
    (elementwiseMinFlag true [flagX, flagY, flagZ] true).map' Signal.endTime ≠
      (elementwiseMinFlag true [flagX, flagY, flagZ] false).map' Signal.endTime := by
  refine ⟨fun h => ?_, by decide +kernel, by decide +kernel⟩
  have hs : SyncedSignals [flagX, flagY, flagZ] := by
    have w : ∀ p q : ℚ × ℚ, p.1 < q.1 → WF (ofPts [p, q]) := by
      intro p q h
      rw [wf_iff]
      refine ⟨_, ?_, rfl⟩
      refine ⟨?_, trivial⟩
      show D.le (.fin q.1) (.fin p.1) = false
      rw [D.le_fin]; exact decide_eq_false (not_le.2 h)
    intro x hx
    simp only [List.mem_cons, List.not_mem_nil, or_false] at hx
    refine ⟨?_, ?_, ?_, ?_⟩
    · rcases hx with rfl | rfl | rfl <;> exact w _ _ (by norm_num)
    · rcases hx with rfl | rfl | rfl <;> decide +kernel
    · rcases hx with rfl | rfl | rfl <;> decide +kernel
    · rcases hx with rfl | rfl | rfl <;> decide +kernel
  exact absurd (h false _ hs).1 (by decide +kernel)

section any
variable {K : Type} [Field K] [LinearOrder K] [IsStrictOrderedRing K] [Arith K]

/-- **C66, partial:** for at most two operands the flag changes nothing, whatever the rounding (NaN and
infinite values included).  Missing: three and more operands, where the claim is false. -/
theorem C66_flag_partial (nd : Bool) (xs : List (Signal K)) (h : SyncedSignals xs) (hl : xs.length ≤ 2) :
    elementwiseMinFlag nd xs true = elementwiseMinFlag nd xs false ∧
    elementwiseMaxFlag nd xs true = elementwiseMaxFlag nd xs false := by
  unfold elementwiseMinFlag elementwiseMaxFlag
  match xs, h, hl with
  | [], _, _ => exact ⟨rfl, rfl⟩
  | [x], _, _ => exact ⟨rfl, rfl⟩
  | [x, y], h, _ =>
    obtain ⟨wx, hne, hn, ht⟩ := h x (by simp)
    obtain ⟨wy, -, -, -⟩ := h y (by simp)
    have hs := synchronize_same_times wx wy hne hn (ht y (by simp))
    simp only [minmaxVec, minmaxPair_eq, hs]
    exact ⟨rfl, rfl⟩
  | _ :: _ :: _ :: _, _, hl => simp at hl

/-- **C66, partial:** the functions of two signals. -/
theorem C66_pair_partial (nd : Bool) (x y : Signal K) (h : SyncedSignals [x, y]) :
    elementwiseMin2 nd x y true = elementwiseMin2 nd x y false ∧
    elementwiseMax2 nd x y true = elementwiseMax2 nd x y false :=
  C66_flag_partial nd [x, y] h (by simp)

/-! ## C67 -/

theorem pairLoop_self {comp : Cmp K} (hc : ∀ a, comp a a = true) : ∀ (l : List (Sample K)) (out : Signal K)
    (last : Chosen) (pi pj : Option (Sample K)), last ≠ .Y →
    minmaxPairLoop comp out last pi pj l l = out.pushAll l := by
  intro l
  induction l with
  | nil => intro out last pi pj _; rfl
  | cons i l ih =>
    intro out last pi pj h
    rw [minmaxPairLoop_cons, if_pos (hc i), if_neg h, Signal.pushAll, Outcome.bind_ok]
    refine Outcome.bind_congr_ok ?_
    intro o _
    exact ih o .X _ _ (by simp)

theorem minmaxPair_self (nd : Bool) {comp : Cmp K} (hc : ∀ a, comp a a = true) (synced : Bool) {x : Signal K}
    (hx : FinT x) (hne : x.samples ≠ []) : minmaxPair nd comp x x synced = .ok x := by
  have hs := synchronize_same_times hx.1 hx.1 hne hx.2.noNaN rfl
  have hw := hx.1
  obtain ⟨b, hb⟩ := beginTime_fin hx.2
  obtain ⟨e, he⟩ := endTime_fin hx.2
  rw [minmaxPair_eq, hs]
  have : (if synced = true then Outcome.ok (x, x) else Outcome.ok (x, x)) = .ok (x, x) := by
    cases synced <;> rfl
  rw [this, Outcome.bind_ok]
  simp only [hb, he, D.eq_fin, beq_self_eq_true, decide_true, assert_]
  simp only [Bool.or_true, if_true, Outcome.bind_ok]
  rw [pairLoop_self hc _ _ _ _ _ (by simp)]
  obtain ⟨l, hl, rfl⟩ := (wf_iff x).1 hw
  show Signal.ofSamples _ = _
  rw [ofSamples_eq, build_map_tv, if_pos hl]

theorem le_self (a : Sample K) : Sample.le a a = true := by
  simp [Sample.le, Sample.gt, Sample.lt, D.lt_irrefl]

theorem ge_self (a : Sample K) : Sample.ge a a = true := by
  simp [Sample.ge, Sample.lt, D.lt_irrefl]

theorem minmaxFold_self (nd : Bool) {comp : Cmp K} (hc : ∀ a, comp a a = true) (synced : Bool)
    {x : Signal K} (hx : FinT x) (hne : x.samples ≠ []) (n : Nat) :
    minmaxFold nd comp synced x (List.replicate n x) = .ok x := by
  induction n with
  | zero => rfl
  | succ n ih => rw [List.replicate_succ, minmaxFold, minmaxPair_self nd hc synced hx hne]; exact ih

theorem minmaxVec_self (nd : Bool) {comp : Cmp K} (hc : ∀ a, comp a a = true) (synced : Bool)
    {x : Signal K} (hx : FinT x) (hne : x.samples ≠ []) (n : Nat) :
    minmaxVec nd comp (List.replicate (n + 1) x) synced = .ok x := by
  match n with
  | 0 => rfl
  | 1 => exact minmaxPair_self nd hc synced hx hne
  | n + 2 =>
    have := minmaxFold_self nd hc synced hx hne (n + 2)
    simpa [List.replicate_succ, minmaxVec] using this

theorem computeArgs_replicate (r : RobustnessOp K) (phi : Expr K) (x : Signal K) (h : r.compute phi = .ok x)
    (n : Nat) : r.computeArgs (List.replicate n phi) = .ok (List.replicate n x) := by
  induction n with
  | zero => rfl
  | succ n ih => rw [List.replicate_succ, RobustnessOp.computeArgs, h, ih]; rfl

/-- **C67.** And and Or of copies of one formula have the outcome of the formula: the same samples, bit for
bit, or the same failure.  For every rounding that does not produce NaN, every number of copies, and NaN
and infinite values. -/
theorem C67_idempotent [SaneArith K] (nd : Bool) (fuel : Nat) (phi : Expr K) (trace : Trace K) (sy : Bool)
    (ht : FiniteTimes trace) (n : Nat)
    (hne : ∀ y, computeRobustness nd fuel phi trace sy = .ok y → y.samples ≠ []) :
    computeRobustness nd fuel (.and (List.replicate (n + 1) phi)) trace sy =
      computeRobustness nd fuel phi trace sy ∧
    computeRobustness nd fuel (.or (List.replicate (n + 1) phi)) trace sy =
      computeRobustness nd fuel phi trace sy := by
  have hy := compute_any ⟨nd, fuel, (minMaxTime trace).1, (minMaxTime trace).2, trace⟩
    (fun n => ((trace.lookup n).map fun x => x.samples.length).getD 0) ht
    (minMaxTime_fin ht) (by intro n x h; simp only at h; simp [h]) phi
  unfold computeRobustness at *
  simp only at hne ⊢
  rw [RobustnessOp.compute, RobustnessOp.compute]
  cases h : RobustnessOp.compute ⟨nd, fuel, (minMaxTime trace).1, (minMaxTime trace).2, trace⟩ phi with
  | ok y =>
    have f := (hy y h).1
    have e := computeArgs_replicate _ phi y h (n + 1)
    rw [e]
    simp only [Outcome.bind_ok, List.length_replicate, beq_self_eq_true, assert_, Bool.or_true, if_true]
    exact ⟨minmaxVec_self nd le_self false f (hne y h) n, minmaxVec_self nd ge_self false f (hne y h) n⟩
  | throw e => rw [List.replicate_succ, RobustnessOp.computeArgs, h]; exact ⟨rfl, rfl⟩
  | abort => rw [List.replicate_succ, RobustnessOp.computeArgs, h]; exact ⟨rfl, rfl⟩
  | ub u => rw [List.replicate_succ, RobustnessOp.computeArgs, h]; exact ⟨rfl, rfl⟩
  | diverge => rw [List.replicate_succ, RobustnessOp.computeArgs, h]; exact ⟨rfl, rfl⟩

end any

/-- In binary64, with three copies. -/
example : computeRobustness (K := B64) false 0 (.or (List.replicate 3 exB64Formula)) exB64 false =
    computeRobustness (K := B64) false 0 exB64Formula exB64 false ∧
    (computeRobustness (K := B64) false 0 exB64Formula exB64 false).map' Signal.size = .ok 8 := by
  decide +kernel

/-- The hypothesis on the result is needed: empty signals cannot be synchronized. -/
example : computeRobustness false 0 (.and [.pred "x" .GE 0, .pred "x" .GE 0]) ([("x", ⟨[]⟩)] : Trace ℚ) false ≠
    computeRobustness false 0 (.pred "x" .GE 0) ([("x", ⟨[]⟩)] : Trace ℚ) false := by decide +kernel

end Verif
