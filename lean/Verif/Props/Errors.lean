import Verif.Proofs.Errors
import Verif.Props.Rounding

/-!
# How the robustness computation can fail: C93
-/

namespace Verif
open Spec

section any
variable {K : Type} [Field K] [LinearOrder K] [IsStrictOrderedRing K] [Arith K]

/-- **C93.** If `synchronize` succeeds, the two results have the same timestamps (none of them NaN) and are not
empty; for all signals, whether or not they are well formed, and for every rounding. -/
theorem C93_timestamps (x y x' y' : Signal K) (h : synchronize x y = .ok (x', y')) :
    x'.samples.map Sample.time = y'.samples.map Sample.time ∧ x'.samples ≠ [] ∧
      ∀ s ∈ x'.samples, s.time ≠ .nan :=
  let ⟨⟨h1, h2⟩, h3⟩ := synchronize_paired h
  ⟨h1, h3, h2⟩

/-- **C93.** Debug and release builds do the same: for all formulas and all traces. -/
theorem C93_builds (nd nd' : Bool) (fuel : Nat) (phi : Expr K) (trace : Trace K) (sy : Bool) :
    computeRobustness nd fuel phi trace sy = computeRobustness nd' fuel phi trace sy :=
  compute_nd nd nd' fuel _ _ trace phi

/-- **C93.** No assertion fails. -/
theorem C93_assertions (nd : Bool) (fuel : Nat) (phi : Expr K) (trace : Trace K) (sy : Bool) :
    computeRobustness nd fuel phi trace sy ≠ .abort := by
  intro h
  have hc : Calm [.invalidArgument, .outOfRange, .logicError, .notImplemented]
      (computeRobustness nd fuel phi trace sy) :=
    compute_calm (by simp) _ (by simp) phi (Intervals.all (by simp) phi) (by simp)
  rw [h] at hc
  exact hc

/-- **C93.** The exceptions: of `push_back`, of a missing signal, and of an interval that ends at -inf.  The
exception of the bounded Until is never thrown. -/
theorem C93_exceptions [SaneArith K] (nd : Bool) (fuel : Nat) (phi : Expr K) (trace : Trace K) (sy : Bool) (e : Exn)
    (h : computeRobustness nd fuel phi trace sy = .throw e) :
    e = .invalidArgument ∨ e = .outOfRange ∨ e = .logicError := by
  have hc : Calm [.invalidArgument, .outOfRange, .logicError] (computeRobustness nd fuel phi trace sy) :=
    compute_calm (by simp) _ (.inl SaneArith.rnd_zero) phi (Intervals.all (by simp) phi) (by simp)
  rw [h] at hc
  simpa [Calm] using hc

/-- **C93.** A missing signal is the only cause of `std::out_of_range`. -/
theorem C93_missing [SaneArith K] (nd : Bool) (fuel : Nat) (phi : Expr K) (trace : Trace K) (sy : Bool)
    (h : computeRobustness nd fuel phi trace sy = .throw .outOfRange) :
    ∃ n, Uses n phi ∧ trace.lookup n = none := by
  by_contra hn
  push Not at hn
  have hc : Calm [.invalidArgument, .logicError] (computeRobustness nd fuel phi trace sy) :=
    compute_calm (by simp) _ (.inl SaneArith.rnd_zero) phi (Intervals.all (by simp) phi) (.inl hn)
  rw [h] at hc
  simp [Calm] at hc

/-- The upper bound of a constructed interval is not -inf. -/
theorem built_high [SaneArith K] [MonoArith K] {i : Interval K} (h : IntervalBuilt i) : i.asDouble.2 ≠ .ninf := by
  rcases h with rfl | ⟨a, b, h⟩ | ⟨a, b, h⟩
  · simp [Interval.default, Interval.asDouble, Interval.numAsDouble]
  · simp only [Interval.ofULL, Outcome.ok.injEq] at h
    subst h
    intro hn
    simp only [Interval.asDouble, Interval.numAsDouble] at hn
    have := MonoArith.rnd_mono (0 : K) (b.toNat : K) (Nat.cast_nonneg _)
    rw [SaneArith.rnd_zero, hn] at this
    simp [D.le, D.lt, D.eq] at this
  · unfold Interval.ofDouble at h
    split at h
    · cases h
    · rename_i h0
      split at h
      · cases h
      · cases h
        intro hn
        simp only [Interval.asDouble, Interval.numAsDouble] at hn
        rw [hn] at h0
        simp [D.lt, D.zero_def] at h0

/-- **C93.** For formulas whose intervals are made by the constructors, `std::logic_error` is not thrown either:
if no signal is missing, the only exception is the one of `push_back`. -/
theorem C93_constructed [SaneArith K] [MonoArith K] (nd : Bool) (fuel : Nat) (phi : Expr K) (trace : Trace K)
    (sy : Bool) (hi : Intervals IntervalBuilt phi) (e : Exn)
    (h : computeRobustness nd fuel phi trace sy = .throw e) :
    e = .invalidArgument ∨ e = .outOfRange ∧ ∃ n, Uses n phi ∧ trace.lookup n = none := by
  have hc : Calm [.invalidArgument, .outOfRange] (computeRobustness nd fuel phi trace sy) :=
    compute_calm (by simp) _ (.inl SaneArith.rnd_zero) phi (Intervals.mono (fun _ hb => .inl (built_high hb)) hi) (by simp)
  rw [h] at hc
  have hc : e = .invalidArgument ∨ e = .outOfRange := by simpa [Calm] using hc
  refine hc.imp id fun he => ⟨he, ?_⟩
  rw [he] at h
  exact C93_missing nd fuel phi trace sy h

/-- **C93.** If a caller claims that two signals are synchronized, a debug build aborts if and only if the number
of samples, the begin or the end differ (or are NaN). -/
theorem C93_flag (x y : Signal K) :
    (elementwiseMin2 false x y true = .abort ↔
      ¬ (x.size = y.size ∧ x.beginTime.eq y.beginTime = true ∧ x.endTime.eq y.endTime = true)) ∧
    (elementwiseMax2 false x y true = .abort ↔
      ¬ (x.size = y.size ∧ x.beginTime.eq y.beginTime = true ∧ x.endTime.eq y.endTime = true)) := by
  have key : ∀ comp : Cmp K, minmaxPair false comp x y true = .abort ↔
      ¬ (x.size = y.size ∧ x.beginTime.eq y.beginTime = true ∧ x.endTime.eq y.endTime = true) := by
    intro comp
    have hc : minmaxPairLoop comp Signal.empty .NONE none none x.samples y.samples ≠ .abort := by
      intro h
      have := minmaxPairLoop_calm (l := [.invalidArgument]) (by simp) comp x.samples y.samples Signal.empty .NONE
        none none
      rw [h] at this
      exact this
    unfold minmaxPair
    simp only [if_true, Outcome.bind_ok, assert_, Bool.false_or]
    by_cases h1 : x.size = y.size
    · by_cases h2 : x.beginTime.eq y.beginTime = true
      · by_cases h3 : x.endTime.eq y.endTime = true
        · simp [h1, h2, h3, hc]
        · simp [h1, h2, h3]
      · simp [h1, h2]
    · simp [h1]
  exact ⟨key _, key _⟩

end any

/-! ## Cases -/

/-- A signal with a NaN timestamp; the program loops for it, in both builds. -/
example : computeRobustness (K := ℚ) false 9 (.and [.pred "x" .GE 0, .pred "y" .GE 0])
    [("x", ⟨[⟨0, 0, 0⟩, ⟨.nan, 0, 0⟩]⟩), ("y", ofPts [(0, 1), (1, 1)])] false = .diverge := by decide +kernel

/-- The three exceptions; the last one for an interval that the constructors refuse. -/
example : computeRobustness (K := ℚ) false 9 (.and [.pred "x" .GE 0, .pred "y" .GE 0])
      [("x", ofPts [(0, 1), (2, 1)]), ("y", ofPts [(1, 1), (2, 1)])] false = .throw .invalidArgument ∧
    computeRobustness (K := ℚ) false 9 (.pred "z" .GE 0) [("x", ofPts [(0, 1), (2, 1)])] false =
      .throw .outOfRange ∧
    computeRobustness (K := ℚ) false 9 (.always (.pred "x" .GE 0) ⟨.dbl 0, .dbl .ninf⟩)
      [("x", ofPts [(0, 1), (2, 1)])] false = .throw .logicError := by
  refine ⟨?_, ?_, ?_⟩ <;> decide +kernel

/-- A formula with constructed intervals. -/
example : Intervals (K := B64) IntervalBuilt
    (.always (.untl (.pred "x" .GE 0) (.pred "y" .LT 0) ⟨.ull 3, .ull 1⟩) Interval.default) :=
  .always (.inl rfl) (.untl (.inr (.inl ⟨3, 1, rfl⟩)) (.pred _ _ _) (.pred _ _ _))

/-- The flag. -/
example : elementwiseMin2 (K := ℚ) false (ofPts [(0, 1), (2, 1)]) (ofPts [(0, 1), (1, 1), (2, 1)]) true = .abort ∧
    elementwiseMin2 (K := ℚ) false (ofPts [(0, 1), (2, 1)]) (ofPts [(0, 2), (2, 2)]) true =
      .ok (ofPts [(0, 1), (2, 1)]) := by
  constructor <;> decide +kernel

end Verif
