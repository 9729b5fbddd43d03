import Verif.Proofs.Temporal
import Verif.Props.Boolean

/-!
# Unbounded and bounded Always/Eventually: C26 - C31

`Eventually(phi)` is `compute_max_seq`, `Always(phi)` is `compute_min_seq` of the operand's robustness.
-/

set_option linter.unusedSectionVars false

namespace Verif
open Spec

section exact
variable {K : Type} [Field K] [LinearOrder K] [IsStrictOrderedRing K] [Arith K] [ExactArith K]

/-- The values of the function from time `t` on. -/
def valuesFrom (xs : List (K × K)) (t : K) : Set K := {w | ∃ s ∈ dom xs, t ≤ s ∧ w = eval xs s}

/-- The values of the function between the times `a` and `b`. -/
def valuesIn (xs : List (K × K)) (a b : K) : Set K :=
  {w | ∃ s ∈ dom xs, a ≤ s ∧ s ≤ b ∧ w = eval xs s}

/-- The outcome for an operand with finite samples. -/
theorem eventually_fin {nd : Bool} {fuel : Nat} {phi : Expr K} {trace : Trace K} {sy : Bool}
    {x : Signal K} {xs : List (K × K)} (h : computeRobustness nd fuel phi trace sy = .ok x)
    (hx : Represents x xs) (hne : xs ≠ []) (i : Interval K)
    (hi : i.asDouble.2 ≠ .ninf) :
    computeRobustness nd fuel (.eventually phi i) trace sy = .ok (ofPts (sufPts max xs)) ∧
    computeRobustness nd fuel (.always phi i) trace sy = .ok (ofPts (sufPts min xs)) := by
  obtain ⟨hinc, rfl⟩ := (represents_iff _ _).1 hx
  have hf := (finT_ofPts hinc).2
  constructor
  · unfold computeRobustness at h ⊢
    rw [RobustnessOp.compute, h, Outcome.bind_ok]
    rcases temporal_finT ⟨nd, fuel, (minMaxTime trace).1, (minMaxTime trace).2, trace⟩ Sample.ge hf i with
      e | ⟨e, -, -⟩
    · rw [e]; exact minmaxSeq_ge_pts hinc hne
    · exact absurd e hi
  · unfold computeRobustness at h ⊢
    rw [RobustnessOp.compute, h, Outcome.bind_ok]
    rcases temporal_finT ⟨nd, fuel, (minMaxTime trace).1, (minMaxTime trace).2, trace⟩ Sample.le hf i with
      e | ⟨e, -, -⟩
    · rw [e]; exact minmaxSeq_le_pts hinc hne
    · exact absurd e hi

theorem default_high : (Interval.default : Interval K).asDouble.2 ≠ .ninf := by
  simp [Interval.default, Interval.asDouble, Interval.numAsDouble]

theorem valuesIn_negPts (xs : List (K × K)) (a b v : K) :
    IsLeast (valuesIn xs a b) v ↔ IsGreatest (valuesIn (negPts xs) a b) (-v) := by
  constructor
  · rintro ⟨⟨s, h1, h2, h3, e⟩, hl⟩
    refine ⟨⟨s, by rwa [dom_negPts], h2, h3, by rw [eval_negPts, e]⟩, ?_⟩
    rintro w ⟨s, h1, h2, h3, rfl⟩
    rw [dom_negPts] at h1
    rw [eval_negPts]
    exact neg_le_neg (hl ⟨s, h1, h2, h3, rfl⟩)
  · rintro ⟨⟨s, h1, h2, h3, e⟩, hl⟩
    rw [dom_negPts] at h1
    rw [eval_negPts] at e
    refine ⟨⟨s, h1, h2, h3, neg_injective e⟩, ?_⟩
    rintro w ⟨s, h1, h2, h3, rfl⟩
    have := hl ⟨s, by rwa [dom_negPts], h2, h3, rfl⟩
    rw [eval_negPts] at this
    exact neg_le_neg_iff.1 this

theorem valuesFrom_negPts (xs : List (K × K)) (t v : K) :
    IsLeast (valuesFrom xs t) v ↔ IsGreatest (valuesFrom (negPts xs) t) (-v) := by
  constructor
  · rintro ⟨⟨s, h1, h2, e⟩, hl⟩
    refine ⟨⟨s, by rwa [dom_negPts], h2, by rw [eval_negPts, e]⟩, ?_⟩
    rintro w ⟨s, h1, h2, rfl⟩
    rw [dom_negPts] at h1
    rw [eval_negPts]
    exact neg_le_neg (hl ⟨s, h1, h2, rfl⟩)
  · rintro ⟨⟨s, h1, h2, e⟩, hl⟩
    rw [dom_negPts] at h1
    rw [eval_negPts] at e
    refine ⟨⟨s, h1, h2, neg_injective e⟩, ?_⟩
    rintro w ⟨s, h1, h2, rfl⟩
    have := hl ⟨s, by rwa [dom_negPts], h2, rfl⟩
    rw [eval_negPts] at this
    exact neg_le_neg_iff.1 this

/-! ## C26, C27 -/

/-- **C26.** For an operand with finitely many finite samples, `Eventually(phi)` has the timestamps of
`phi`, and at each of them its value is the greatest value of the operand's robustness (as a function of
real time) from then to the end. -/
theorem C26_eventually_is_supremum (nd : Bool) (fuel : Nat) (phi : Expr K) (trace : Trace K) (sy : Bool)
    (x : Signal K) (xs : List (K × K)) (h : computeRobustness nd fuel phi trace sy = .ok x)
    (hx : Represents x xs) (hne : xs ≠ []) :
    ∃ z zs, computeRobustness nd fuel (.Eventually phi) trace sy = .ok z ∧ Represents z zs ∧
      zs.map Prod.fst = xs.map Prod.fst ∧
      ∀ p ∈ zs, IsGreatest (valuesFrom xs p.1) p.2 := by
  have hinc := ((represents_iff _ _).1 hx).1
  exact ⟨_, sufPts max xs, (eventually_fin h hx hne _ default_high).1,
    represents_ofPts (increasing_sufPts.2 hinc), sufPts_fst _ _,
    fun p hp => sufPts_max_isGreatest hinc hp⟩

/-- **C27.** Dually for `Always(phi)`: the least value from then to the end. -/
theorem C27_always_is_infimum (nd : Bool) (fuel : Nat) (phi : Expr K) (trace : Trace K) (sy : Bool)
    (x : Signal K) (xs : List (K × K)) (h : computeRobustness nd fuel phi trace sy = .ok x)
    (hx : Represents x xs) (hne : xs ≠ []) :
    ∃ z zs, computeRobustness nd fuel (.Always phi) trace sy = .ok z ∧ Represents z zs ∧
      zs.map Prod.fst = xs.map Prod.fst ∧
      ∀ p ∈ zs, IsLeast (valuesFrom xs p.1) p.2 := by
  have hinc := ((represents_iff _ _).1 hx).1
  refine ⟨_, sufPts min xs, (eventually_fin h hx hne _ default_high).2,
    represents_ofPts (increasing_sufPts.2 hinc), sufPts_fst _ _, fun p hp => ?_⟩
  rw [valuesFrom_negPts]
  rw [sufPts_min] at hp
  obtain ⟨q, hq, rfl⟩ := List.mem_map.1 hp
  have := sufPts_max_isGreatest (increasing_negPts.2 hinc) hq
  simpa [valuesFrom] using this

example : computeRobustness false 100 (.Eventually (.pred "x" .GE (.fin 1))) exTrace false =
    .ok (ofPts [(0, 3), (2, 3), (4, -1)]) := by decide +kernel
example : computeRobustness false 100 (.Always (.pred "y" .GE (.fin 1))) exTrace false =
    .ok (ofPts [(0, -1), (3, -1), (4, 1)]) := by decide +kernel
example : Represents (ofPts [((0 : ℚ), (-1 : ℚ)), (2, 3), (4, -1)]) [(0, -1), (2, 3), (4, -1)] :=
  represents_ofPts (by unfold Increasing; decide +kernel)

/-! ## C28: between the samples -/

/-- The statement of C28 for `Eventually`. -/
def EventuallyExact (K : Type) [Field K] [LinearOrder K] [Arith K] : Prop :=
  ∀ (phi : Expr K) (trace : Trace K) (x z : Signal K) (xs zs : List (K × K)),
    computeRobustness false 0 phi trace false = .ok x → Represents x xs → xs ≠ [] →
    computeRobustness false 0 (.Eventually phi) trace false = .ok z → Represents z zs →
    ∀ t ∈ dom xs, IsGreatest (valuesFrom xs t) (eval zs t)

/-- The statement of C28 for `Always`. -/
def AlwaysExact (K : Type) [Field K] [LinearOrder K] [Arith K] : Prop :=
  ∀ (phi : Expr K) (trace : Trace K) (x z : Signal K) (xs zs : List (K × K)),
    computeRobustness false 0 phi trace false = .ok x → Represents x xs → xs ≠ [] →
    computeRobustness false 0 (.Always phi) trace false = .ok z → Represents z zs →
    ∀ t ∈ dom xs, IsLeast (valuesFrom xs t) (eval zs t)

/-- **C28 is false.** The signal 1, -1, 0 at the times 0, 2, 3: at time 1 the supremum is 0, the computed
robustness of Eventually is 1/2 (and -1/2 for Always of the negated signal). -/
theorem C28_refuted : ¬ EventuallyExact ℚ ∧ ¬ AlwaysExact ℚ := by
  constructor
  · intro H
    have hi : Increasing [((0 : ℚ), (1 : ℚ)), (2, -1), (3, 0)] := by unfold Increasing; decide +kernel
    have hz : Increasing [((0 : ℚ), (1 : ℚ)), (2, 0), (3, 0)] := by unfold Increasing; decide +kernel
    have h := H (.pred "x" .GE 0) [("x", ofPts [(0, 1), (2, -1), (3, 0)])]
      (ofPts [(0, 1), (2, -1), (3, 0)]) (ofPts [(0, 1), (2, 0), (3, 0)]) _ _
      (by decide +kernel) (represents_ofPts hi) (by simp) (by decide +kernel) (represents_ofPts hz)
      1 ⟨⟨_, List.mem_cons_self, by norm_num⟩, ⟨(2, -1), by simp, by norm_num⟩⟩
    obtain ⟨s, hs, h1, e⟩ := h.1
    have h3 : s ≤ 3 := by obtain ⟨p, hp, h⟩ := hs.2; simp at hp; rcases hp with rfl | rfl | rfl <;> simp_all <;> linarith
    have e1 : eval [((0 : ℚ), (1 : ℚ)), (2, 0), (3, 0)] 1 = 1 / 2 := by decide +kernel
    rw [e1] at e
    simp only [eval, line] at e
    split at e <;> norm_num at e <;> linarith
  · intro H
    have hi : Increasing [((0 : ℚ), (-1 : ℚ)), (2, 1), (3, 0)] := by unfold Increasing; decide +kernel
    have hz : Increasing [((0 : ℚ), (-1 : ℚ)), (2, 0), (3, 0)] := by unfold Increasing; decide +kernel
    have h := H (.pred "x" .GE 0) [("x", ofPts [(0, -1), (2, 1), (3, 0)])]
      (ofPts [(0, -1), (2, 1), (3, 0)]) (ofPts [(0, -1), (2, 0), (3, 0)]) _ _
      (by decide +kernel) (represents_ofPts hi) (by simp) (by decide +kernel) (represents_ofPts hz)
      1 ⟨⟨_, List.mem_cons_self, by norm_num⟩, ⟨(2, 1), by simp, by norm_num⟩⟩
    obtain ⟨s, hs, h1, e⟩ := h.1
    have h3 : s ≤ 3 := by obtain ⟨p, hp, h⟩ := hs.2; simp at hp; rcases hp with rfl | rfl | rfl <;> simp_all <;> linarith
    have e1 : eval [((0 : ℚ), (-1 : ℚ)), (2, 0), (3, 0)] 1 = -1 / 2 := by decide +kernel
    rw [e1] at e
    simp only [eval, line] at e
    split at e <;> norm_num at e <;> linarith

/-- **C28, what holds at all times: the bounds.**  The computed robustness of `Eventually` is at least
every later value of the operand, that of `Always` at most; at every real time of the domain.  (Missing:
equality, which is false; see `C28_exact_segments_partial` for when it holds.) -/
theorem C28_bounds_partial (nd : Bool) (fuel : Nat) (phi : Expr K) (trace : Trace K) (sy : Bool)
    (x : Signal K) (xs : List (K × K)) (h : computeRobustness nd fuel phi trace sy = .ok x)
    (hx : Represents x xs) (hne : xs ≠ []) :
    (∃ z zs, computeRobustness nd fuel (.Eventually phi) trace sy = .ok z ∧ Represents z zs ∧
      dom zs = dom xs ∧ ∀ s ∈ dom xs, ∀ t ∈ dom xs, s ≤ t → eval xs t ≤ eval zs s) ∧
    (∃ z zs, computeRobustness nd fuel (.Always phi) trace sy = .ok z ∧ Represents z zs ∧
      dom zs = dom xs ∧ ∀ s ∈ dom xs, ∀ t ∈ dom xs, s ≤ t → eval zs s ≤ eval xs t) := by
  have hinc := ((represents_iff _ _).1 hx).1
  refine ⟨⟨_, sufPts max xs, (eventually_fin h hx hne _ default_high).1,
      represents_ofPts (increasing_sufPts.2 hinc), dom_sufPts _ _,
      fun s hs t ht hst => sufPts_max_bound hinc hs ht hst⟩,
    ⟨_, sufPts min xs, (eventually_fin h hx hne _ default_high).2,
      represents_ofPts (increasing_sufPts.2 hinc), dom_sufPts _ _, fun s hs t ht hst => ?_⟩⟩
  have := sufPts_max_bound (increasing_negPts.2 hinc) (by rwa [dom_negPts]) (by rwa [dom_negPts]) hst
  rw [eval_negPts] at this
  rw [sufPts_min, eval_negPts]
  linarith

/-- **C28, when it is exact.**  Between two consecutive samples `p`, `q` of the operand, the computed
robustness of `Eventually` is the supremum at all times if and only if not: the operand falls from `p` to
`q` and attains after `q` a value strictly between (namely the greatest value `m` from `q` on). -/
theorem C28_exact_segments_partial (nd : Bool) (fuel : Nat) (phi : Expr K) (trace : Trace K) (sy : Bool)
    (x : Signal K) (l r : List (K × K)) (p q : K × K)
    (h : computeRobustness nd fuel phi trace sy = .ok x)
    (hx : Represents x (l ++ p :: q :: r)) :
    ∃ z zs m, computeRobustness nd fuel (.Eventually phi) trace sy = .ok z ∧ Represents z zs ∧
      IsGreatest (valuesFrom (l ++ p :: q :: r) q.1) m ∧
      ((∀ t, p.1 ≤ t → t ≤ q.1 → IsGreatest (valuesFrom (l ++ p :: q :: r) t) (eval zs t)) ↔
        ¬ (q.2 < m ∧ m < p.2)) := by
  have hinc := ((represents_iff _ _).1 hx).1
  refine ⟨_, sufPts max _, sufMax (q :: r), (eventually_fin h hx (by simp) _ default_high).1,
    represents_ofPts (increasing_sufPts.2 hinc), ?_, sufPts_max_exact_seg hinc⟩
  refine sufPts_max_isGreatest (z := (q.1, sufMax (q :: r))) hinc ?_
  have e : l ++ p :: q :: r = (l ++ [p]) ++ q :: r := by simp
  obtain ⟨l', hl', -⟩ := sufPts_max_append (l ++ [p]) (q :: r) (by simp)
  rw [e, hl', sufPts_max_cons]
  simp

-- the operand of the counterexample: on the first segment `q.2 = -1 < m = 0 < p.2 = 1`
example : computeRobustness false 0 (.Eventually (.pred "x" .GE 0))
    ([("x", ofPts [(0, 1), (2, -1), (3, 0)])] : Trace ℚ) false = .ok (ofPts [(0, 1), (2, 0), (3, 0)]) := by
  decide +kernel

/-! ## C31: bounded intervals -/

/-- The statement of C31 for Eventually, with an interval accepted by the constructor. -/
def EventuallyBounded (K : Type) [Field K] [LinearOrder K] [Arith K] : Prop :=
  ∀ (phi : Expr K) (trace : Trace K) (a b : K) (i : Interval K) (x : Signal K) (xs : List (K × K)),
    Interval.ofDouble (.fin a) (.fin b) = .ok i →
    computeRobustness false 1000 phi trace false = .ok x → Represents x xs → xs ≠ [] →
    ∃ z zs, computeRobustness false 1000 (.eventually phi i) trace false = .ok z ∧ Represents z zs ∧
      zs ≠ [] ∧
      ∀ p ∈ zs, (∃ s ∈ dom xs, p.1 + a ≤ s ∧ s ≤ p.1 + b) → IsGreatest (valuesIn xs (p.1 + a) (p.1 + b)) p.2

/-- The statement of C31 for Always. -/
def AlwaysBounded (K : Type) [Field K] [LinearOrder K] [Arith K] : Prop :=
  ∀ (phi : Expr K) (trace : Trace K) (a b : K) (i : Interval K) (x : Signal K) (xs : List (K × K)),
    Interval.ofDouble (.fin a) (.fin b) = .ok i →
    computeRobustness false 1000 phi trace false = .ok x → Represents x xs → xs ≠ [] →
    ∃ z zs, computeRobustness false 1000 (.always phi i) trace false = .ok z ∧ Represents z zs ∧
      zs ≠ [] ∧
      ∀ p ∈ zs, (∃ s ∈ dom xs, p.1 + a ≤ s ∧ s ≤ p.1 + b) → IsLeast (valuesIn xs (p.1 + a) (p.1 + b)) p.2

/-- **C31 is false.** For the signal 0, 0, 5 at times 0, 1, 2 the computed robustness of Eventually over
[0, 1] is 5 at time 0, although the operand is 0 there; and dually for Always. -/
theorem C31_refuted : ¬ EventuallyBounded ℚ ∧ ¬ AlwaysBounded ℚ := by
  constructor
  · intro H
    have hi : Increasing [((0 : ℚ), (0 : ℚ)), (1, 0), (2, 5)] := by unfold Increasing; decide +kernel
    obtain ⟨z, zs, e, hz, hne, h⟩ := H (.pred "x" .GE 0) [("x", ofPts [(0, 0), (1, 0), (2, 5)])] 0 1
      ⟨.dbl 0, .dbl (.fin 1)⟩
      (ofPts [(0, 0), (1, 0), (2, 5)]) _ (by decide +kernel) (by decide +kernel) (represents_ofPts hi)
      (by simp)
    have e' : computeRobustness false 1000 (.eventually (.pred "x" .GE 0) ⟨.dbl 0, .dbl (.fin 1)⟩)
      ([("x", ofPts [(0, 0), (1, 0), (2, 5)])] : Trace ℚ) false = .ok (ofPts [(0, 5), (1, 5), (2, 5)]) := by
      decide +kernel
    rw [e'] at e
    simp only [Outcome.ok.injEq] at e; subst e
    have hzs : zs = [((0 : ℚ), (5 : ℚ)), (1, 5), (2, 5)] := by
      have := hz.2
      rw [(represents_ofPts (K := ℚ) (pts := [(0, 5), (1, 5), (2, 5)]) (by unfold Increasing; decide +kernel)).2]
        at this
      exact (List.map_injective_iff.2 lift_injective this).symm
    subst hzs
    have h0 := h (0, 5) (by simp) ⟨0, ⟨⟨(0, 0), by simp, by simp⟩, ⟨(0, 0), by simp, by simp⟩⟩, by norm_num,
      by norm_num⟩
    obtain ⟨s, hs, h1, h2, e⟩ := h0.1
    simp only [zero_add] at h2
    simp only [eval, line, h2, if_true] at e
    norm_num at e
  · intro H
    have hi : Increasing [((0 : ℚ), (0 : ℚ)), (1, 0), (2, -5)] := by unfold Increasing; decide +kernel
    obtain ⟨z, zs, e, hz, hne, h⟩ := H (.pred "x" .GE 0) [("x", ofPts [(0, 0), (1, 0), (2, -5)])] 0 1
      ⟨.dbl 0, .dbl (.fin 1)⟩
      (ofPts [(0, 0), (1, 0), (2, -5)]) _ (by decide +kernel) (by decide +kernel) (represents_ofPts hi)
      (by simp)
    have e' : computeRobustness false 1000 (.always (.pred "x" .GE 0) ⟨.dbl 0, .dbl (.fin 1)⟩)
      ([("x", ofPts [(0, 0), (1, 0), (2, -5)])] : Trace ℚ) false = .ok (ofPts [(0, -5), (1, -5), (2, -5)]) := by
      decide +kernel
    rw [e'] at e
    simp only [Outcome.ok.injEq] at e; subst e
    have hzs : zs = [((0 : ℚ), (-5 : ℚ)), (1, -5), (2, -5)] := by
      have := hz.2
      rw [(represents_ofPts (K := ℚ) (pts := [(0, -5), (1, -5), (2, -5)]) (by unfold Increasing; decide +kernel)).2]
        at this
      exact (List.map_injective_iff.2 lift_injective this).symm
    subst hzs
    have h0 := h (0, -5) (by simp) ⟨0, ⟨⟨(0, 0), by simp, by simp⟩, ⟨(0, 0), by simp, by simp⟩⟩, by norm_num,
      by norm_num⟩
    obtain ⟨s, hs, h1, h2, e⟩ := h0.1
    simp only [zero_add] at h2
    simp only [eval, line, h2, if_true] at e
    norm_num at e

/-- **C31, what the code does: the interval is ignored.**  For every operand with finite timestamps and
every interval whose upper bound is not -inf (the constructors refuse that), the outcome is that of the
unbounded operator.  (Missing: the bounds have the meaning of STL, which is false.) -/
theorem C31_interval_ignored_partial (nd : Bool) (fuel : Nat) (phi : Expr K) (trace : Trace K) (sy : Bool)
    (ht : FiniteTimes trace) (i : Interval K) (hi : i.asDouble.2 ≠ .ninf) :
    computeRobustness nd fuel (.eventually phi i) trace sy =
      computeRobustness nd fuel (.Eventually phi) trace sy ∧
    computeRobustness nd fuel (.always phi i) trace sy =
      computeRobustness nd fuel (.Always phi) trace sy := by
  unfold computeRobustness Expr.Eventually Expr.Always
  rw [RobustnessOp.compute, RobustnessOp.compute, RobustnessOp.compute, RobustnessOp.compute]
  constructor
  all_goals
    apply Outcome.bind_congr_ok
    intro y hy
    have hf := (compute_finT ⟨nd, fuel, (minMaxTime trace).1, (minMaxTime trace).2, trace⟩ ht
      (minMaxTime_fin ht) phi y hy).1.2
  · rcases temporal_finT ⟨nd, fuel, (minMaxTime trace).1, (minMaxTime trace).2, trace⟩ Sample.ge hf i with
      e | ⟨e, -, -⟩
    · rw [e]
      rcases temporal_finT ⟨nd, fuel, (minMaxTime trace).1, (minMaxTime trace).2, trace⟩ Sample.ge hf
        Interval.default with e | ⟨e, -, -⟩
      · rw [e]
      · exact absurd e default_high
    · exact absurd e hi
  · rcases temporal_finT ⟨nd, fuel, (minMaxTime trace).1, (minMaxTime trace).2, trace⟩ Sample.le hf i with
      e | ⟨e, -, -⟩
    · rw [e]
      rcases temporal_finT ⟨nd, fuel, (minMaxTime trace).1, (minMaxTime trace).2, trace⟩ Sample.le hf
        Interval.default with e | ⟨e, -, -⟩
      · rw [e]
      · exact absurd e default_high
    · exact absurd e hi

/-- **C31, when it is right:** if the interval starts at 0 and is at least as long as the operand's
signal, the value at each sample is the supremum (infimum) over the window `[t + 0, t + b]`. -/
theorem C31_long_interval_partial (nd : Bool) (fuel : Nat) (phi : Expr K) (trace : Trace K) (sy : Bool)
    (x : Signal K) (xs : List (K × K)) (h : computeRobustness nd fuel phi trace sy = .ok x)
    (hx : Represents x xs) (hne : xs ≠ []) (i : Interval K) (b : K) (hi : i.asDouble = (.fin 0, .fin b))
    (hb : ∀ s ∈ dom xs, ∀ t ∈ dom xs, t ≤ s + b) :
    ∃ z zs z' zs', computeRobustness nd fuel (.eventually phi i) trace sy = .ok z ∧ Represents z zs ∧
      computeRobustness nd fuel (.always phi i) trace sy = .ok z' ∧ Represents z' zs' ∧
      zs.map Prod.fst = xs.map Prod.fst ∧ zs'.map Prod.fst = xs.map Prod.fst ∧
      (∀ p ∈ zs, IsGreatest (valuesIn xs (p.1 + 0) (p.1 + b)) p.2) ∧
      (∀ p ∈ zs', IsLeast (valuesIn xs (p.1 + 0) (p.1 + b)) p.2) := by
  have hinc := ((represents_iff _ _).1 hx).1
  have hi' : i.asDouble.2 ≠ .ninf := by rw [hi]; simp
  have he := eventually_fin h hx hne i hi'
  have hset : ∀ p : K, p ∈ dom xs → valuesIn xs (p + 0) (p + b) = valuesFrom xs p := by
    intro p hp
    ext w
    constructor
    · rintro ⟨s, h1, h2, h3, e⟩; exact ⟨s, h1, by simpa using h2, e⟩
    · rintro ⟨s, h1, h2, e⟩; exact ⟨s, h1, by simpa using h2, hb p hp s h1, e⟩
  refine ⟨_, sufPts max xs, _, sufPts min xs, he.1, represents_ofPts (increasing_sufPts.2 hinc), he.2,
    represents_ofPts (increasing_sufPts.2 hinc), sufPts_fst _ _, sufPts_fst _ _, ?_, ?_⟩
  · intro p hp
    rw [hset p.1 (by rw [← dom_sufPts max]; exact mem_dom_of_mem' hp)]
    exact sufPts_max_isGreatest hinc hp
  · intro p hp
    rw [hset p.1 (by rw [← dom_sufPts min]; exact mem_dom_of_mem' hp), valuesFrom_negPts]
    rw [sufPts_min] at hp
    obtain ⟨q, hq, rfl⟩ := List.mem_map.1 hp
    have := sufPts_max_isGreatest (increasing_negPts.2 hinc) hq
    simpa [valuesFrom] using this

example : computeRobustness false 0 (.eventually (.pred "x" .GE (.fin 1)) ⟨.dbl 0, .dbl (.fin 7)⟩) exTrace
    false = .ok (ofPts [(0, 3), (2, 3), (4, -1)]) := by decide +kernel
example : (⟨.dbl 0, .dbl (.fin 7)⟩ : Interval ℚ).asDouble = (.fin 0, .fin 7) := rfl

end exact

/-! ## C29: duality (sign-symmetric rounding) -/

section odd
variable {K : Type} [Field K] [LinearOrder K] [IsStrictOrderedRing K] [Arith K] [OddArith K]

/-- **C29.** `Always(phi, I)` and `Not(Eventually(Not(phi), I))` have the same outcome, and
`Eventually(phi, I)` and `Not(Always(Not(phi), I))`: for every formula, interval and trace. -/
theorem C29_duality (nd : Bool) (fuel : Nat) (phi : Expr K) (i : Interval K) (trace : Trace K) (sy : Bool) :
    computeRobustness nd fuel (.always phi i) trace sy =
      computeRobustness nd fuel (.not (.eventually (.not phi) i)) trace sy ∧
    computeRobustness nd fuel (.eventually phi i) trace sy =
      computeRobustness nd fuel (.not (.always (.not phi) i)) trace sy := by
  unfold computeRobustness
  set r : RobustnessOp K := ⟨nd, fuel, (minMaxTime trace).1, (minMaxTime trace).2, trace⟩
  show r.compute _ = r.compute _ ∧ r.compute _ = r.compute _
  simp only [compute_not, compute_always, compute_eventually]
  cases h : r.compute phi with
  | ok y =>
    have hy := compute_wf r phi y h
    simp only [Outcome.bind_ok, negate_wf hy, temporal_neg_ge, temporal_neg_le]
    constructor
    · cases h2 : r.temporal Sample.le y i with
      | ok z =>
        have hz := wf_temporal hy h2
        simp only [Outcome.map'_ok, Outcome.bind_ok, negate_wf (wf_negSig hz), negSig_negSig]
      | _ => rfl
    · cases h2 : r.temporal Sample.ge y i with
      | ok z =>
        have hz := wf_temporal hy h2
        simp only [Outcome.map'_ok, Outcome.bind_ok, negate_wf (wf_negSig hz), negSig_negSig]
      | _ => rfl
  | _ => exact ⟨rfl, rfl⟩

example : computeRobustness false 100
    (.not (.eventually (.not (.pred "y" .GE (.fin 1))) ⟨.ull 0, .dbl .pinf⟩)) exTrace false =
    .ok (ofPts [(0, -1), (3, -1), (4, 1)]) := by decide +kernel

/-- **C51**: the windowed maximum of a signal is the windowed minimum of the mirrored signal, mirrored; also
where they do not return.  (So what is wrong with one is wrong with the other; see `C51_refuted_values`.) -/
theorem C51_dual_partial (fuel : Nat) (x : Signal K) (a b : D K) :
    maxSeqWindow fuel ⟨x.samples.map fun s => ⟨s.time, -s.value, -s.derivative⟩⟩ a b =
      (minSeqWindow fuel x a b).map' fun z => ⟨z.samples.map fun s => ⟨s.time, -s.value, -s.derivative⟩⟩ :=
  SMap.minmaxSeqWindow (φ := negMap) ge_neg fuel x a b

example : maxSeqWindow 100 (ofPts [((0 : ℚ), -1), (10, -2)]) (.fin 1) (.fin 3) =
    .ok (ofPts [(1, -13/10), (7, -13/10), (8, -2)]) := by decide +kernel

end odd

/-! ## C30: monotone and idempotent (any rounding) -/

section any
variable {K : Type} [Field K] [LinearOrder K] [IsStrictOrderedRing K] [Arith K]

/-- **C30.** Idempotence: `Eventually(Eventually(phi))` has the outcome of `Eventually(phi)`, and likewise
for Always; for every formula and trace such that the duration of the robustness of `phi` is not NaN
(infinite and NaN values included). -/
theorem C30_idempotent (nd : Bool) (fuel : Nat) (phi : Expr K) (trace : Trace K) (sy : Bool)
    (hd : ∀ y, computeRobustness nd fuel phi trace sy = .ok y → y.endTime - y.beginTime ≠ .nan) :
    computeRobustness nd fuel (.Eventually (.Eventually phi)) trace sy =
      computeRobustness nd fuel (.Eventually phi) trace sy ∧
    computeRobustness nd fuel (.Always (.Always phi)) trace sy =
      computeRobustness nd fuel (.Always phi) trace sy := by
  unfold computeRobustness at *
  simp only at hd
  set r : RobustnessOp K := ⟨nd, fuel, (minMaxTime trace).1, (minMaxTime trace).2, trace⟩
  show r.compute _ = r.compute _ ∧ r.compute _ = r.compute _
  unfold Expr.Eventually Expr.Always
  simp only [compute_always, compute_eventually]
  cases h : r.compute phi with
  | ok y =>
    have hy := compute_wf r phi y h
    have hd' := hd y h
    simp only [Outcome.bind_ok, temporal_default r _ y hd']
    constructor
    · cases h2 : minmaxSeq Sample.ge y with
      | ok z =>
        obtain ⟨e1, e2⟩ := minmaxSeq_duration h2
        rw [Outcome.bind_ok, temporal_default r _ z (by rw [e1, e2]; exact hd')]
        exact minmaxSeq_idem selects_ge dmax_absorb hy h2
      | _ => rfl
    · cases h2 : minmaxSeq Sample.le y with
      | ok z =>
        obtain ⟨e1, e2⟩ := minmaxSeq_duration h2
        rw [Outcome.bind_ok, temporal_default r _ z (by rw [e1, e2]; exact hd')]
        exact minmaxSeq_idem selects_le dmin_absorb hy h2
      | _ => rfl
  | _ => exact ⟨rfl, rfl⟩

/-- **C30.** Monotonicity at the samples: if the robustness of `phi` has no NaN value (and its duration is
not NaN), then the values of `Eventually(phi)` do not increase with time, and those of `Always(phi)` do
not decrease. -/
theorem C30_monotone (nd : Bool) (fuel : Nat) (phi : Expr K) (trace : Trace K) (sy : Bool) (y : Signal K)
    (h : computeRobustness nd fuel phi trace sy = .ok y) (hd : y.endTime - y.beginTime ≠ .nan)
    (hn : ∀ a ∈ y.samples, a.value ≠ .nan) :
    (∀ z, computeRobustness nd fuel (.Eventually phi) trace sy = .ok z →
      (z.samples.map Sample.value).Pairwise fun v w => w.le v = true) ∧
    (∀ z, computeRobustness nd fuel (.Always phi) trace sy = .ok z →
      (z.samples.map Sample.value).Pairwise fun v w => v.le w = true) := by
  unfold computeRobustness at *
  simp only at h
  unfold Expr.Eventually Expr.Always
  have hy := compute_wf _ phi y h
  constructor
  · intro z hz
    rw [RobustnessOp.compute, h, Outcome.bind_ok, temporal_default _ _ y hd] at hz
    refine minmaxSeq_pairwise selects_ge (R := fun v w => w.le v = true) ?_ (fun a h => D.le_refl h)
      (fun a b c h1 h2 => D.le_trans h2 h1) hy hn hz
    intro a b ha hb
    unfold D.max
    split
    · exact ⟨hb, D.le_refl hb⟩
    · rename_i hlt
      refine ⟨ha, ?_⟩
      rw [D.le_eq_not_lt hb ha]; simpa using hlt
  · intro z hz
    rw [RobustnessOp.compute, h, Outcome.bind_ok, temporal_default _ _ y hd] at hz
    refine minmaxSeq_pairwise selects_le (R := fun v w => v.le w = true) ?_ (fun a h => D.le_refl h)
      (fun a b c h1 h2 => D.le_trans h1 h2) hy hn hz
    intro a b ha hb
    unfold D.min
    split
    · exact ⟨hb, D.le_refl hb⟩
    · rename_i hlt
      refine ⟨ha, ?_⟩
      rw [D.le_eq_not_lt ha hb]; simpa using hlt

example : computeRobustness false 0 (.Eventually (.Eventually (.pred "x" .GE 0)))
    ([("x", ⟨[⟨.fin 0, .pinf, 0⟩, ⟨.fin 1, .fin 2, 0⟩, ⟨.fin 2, .ninf, 0⟩]⟩)] : Trace ℚ) false =
    .ok ⟨[⟨.fin 0, .pinf, .ninf⟩, ⟨.fin 1, .fin 2, .ninf⟩, ⟨.fin 2, .ninf, 0⟩]⟩ := by decide +kernel

end any

section exact'
variable {K : Type} [Field K] [LinearOrder K] [IsStrictOrderedRing K] [Arith K] [ExactArith K]

/-- **C30.** Monotonicity in dense time for finite operands. -/
theorem C30_monotone_dense (nd : Bool) (fuel : Nat) (phi : Expr K) (trace : Trace K) (sy : Bool)
    (x : Signal K) (xs : List (K × K)) (h : computeRobustness nd fuel phi trace sy = .ok x)
    (hx : Represents x xs) (hne : xs ≠ []) :
    (∃ z zs, computeRobustness nd fuel (.Eventually phi) trace sy = .ok z ∧ Represents z zs ∧
      dom zs = dom xs ∧ ∀ s ∈ dom xs, ∀ t ∈ dom xs, s ≤ t → eval zs t ≤ eval zs s) ∧
    (∃ z zs, computeRobustness nd fuel (.Always phi) trace sy = .ok z ∧ Represents z zs ∧
      dom zs = dom xs ∧ ∀ s ∈ dom xs, ∀ t ∈ dom xs, s ≤ t → eval zs s ≤ eval zs t) := by
  have hinc := ((represents_iff _ _).1 hx).1
  refine ⟨⟨_, sufPts max xs, (eventually_fin h hx hne _ default_high).1,
      represents_ofPts (increasing_sufPts.2 hinc), dom_sufPts _ _,
      fun s hs t ht hst => eval_antitone (increasing_sufPts.2 hinc) (falling_sufPts xs)
        (by rwa [dom_sufPts]) (by rwa [dom_sufPts]) hst⟩,
    ⟨_, sufPts min xs, (eventually_fin h hx hne _ default_high).2,
      represents_ofPts (increasing_sufPts.2 hinc), dom_sufPts _ _, fun s hs t ht hst => ?_⟩⟩
  rw [sufPts_min, eval_negPts, eval_negPts]
  exact neg_le_neg (eval_antitone (increasing_sufPts.2 (increasing_negPts.2 hinc)) (falling_sufPts _)
    (by rwa [dom_sufPts, dom_negPts]) (by rwa [dom_sufPts, dom_negPts]) hst)

end exact'
end Verif
