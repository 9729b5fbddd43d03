import Verif.Proofs.PairFin

/-! # Finite timestamps are preserved by the whole computation (exact arithmetic) -/

set_option linter.unusedSectionVars false

namespace Verif
open Spec

section any
variable {K : Type} [Field K] [LinearOrder K] [IsStrictOrderedRing K] [Arith K]

theorem ofSamples_times {l : List (Sample K)} {z : Signal K} (h : Signal.ofSamples l = .ok z) :
    z.samples.map Sample.time = l.map Sample.time := by
  obtain ⟨-, rfl⟩ := (ofSamples_ok_iff _ _).1 h
  rw [build_times]
  simp [tv]

theorem minmaxSeqLoop_times (comp : Cmp K) : ∀ (l : List (Sample K)) (opt : Sample K),
    (minmaxSeqLoop comp opt l).map Sample.time = l.map Sample.time := by
  intro l
  induction l with
  | nil => intro _; rfl
  | cons i l ih => intro opt; rw [minmaxSeqLoop]; simp [ih, Sample.mk2]

theorem minmaxSeq_times {comp : Cmp K} {x z : Signal K} (h : minmaxSeq comp x = .ok z) :
    z.samples.map Sample.time = x.samples.map Sample.time ∧ x.samples ≠ [] := by
  obtain ⟨l⟩ := x
  unfold minmaxSeq at h
  simp only [Outcome.bind_eq_ok] at h
  obtain ⟨b, h1, h2⟩ := h
  rcases List.eq_nil_or_concat l with rfl | ⟨l, a, rfl⟩
  · simp [Signal.back] at h1
  · rw [List.concat_eq_append] at *
    simp [Signal.back] at h1
    subst h1
    refine ⟨?_, by simp⟩
    rw [ofSamples_times h2]
    simp [List.map_reverse, minmaxSeqLoop_times]

theorem untilLoop_times : ∀ (is js : List (Sample K)) (a b : D K), is.length = js.length →
    (untilLoop a b is js).map Sample.time = is.map Sample.time := by
  intro is
  induction is with
  | nil => intro js a b _; cases js <;> simp [untilLoop]
  | cons i is ih =>
    intro js a b h
    cases js with
    | nil => simp at h
    | cons j js =>
      rw [untilLoop]
      simp only [List.length_cons, Nat.add_right_cancel_iff] at h
      simp [ih js _ _ h, Sample.mk2]

theorem computeUntil_finT (nd : Bool) {x y : Signal K} (hx : FinT x) (hy : FinT y) :
    computeUntil nd x y = (synchronize x y >>= fun p =>
      Signal.ofSamples (untilLoop .pinf .ninf p.1.samples.reverse p.2.samples.reverse).reverse) := by
  unfold computeUntil
  apply Outcome.bind_congr_ok
  rintro ⟨x', y'⟩ h
  obtain ⟨hs, -⟩ := synchronize_synced hx hy h
  obtain ⟨h1, h2, h3⟩ := synced_asserts hs nd
  simp only [h1, h2, h3, Outcome.bind_ok]

theorem synchronize_ne {x y x' y' : Signal K} (h : synchronize x y = .ok (x', y')) :
    x'.samples ≠ [] := by
  unfold synchronize at h
  simp only [Outcome.bind_eq_ok] at h
  obtain ⟨_, -, _, -, _, -, _, -, p, -, hf⟩ := h
  unfold syncFinish at hf
  simp only [Outcome.bind_eq_ok] at hf
  obtain ⟨xb, e1, yb, e2, yb', e3, xb', e4, sx, e5, sy, e6, e7⟩ := hf
  simp only [Outcome.pure_eq_ok, Outcome.ok.injEq, Prod.mk.injEq] at e7
  obtain ⟨rfl, rfl⟩ := e7
  rw [ofSamples_ok_iff] at e5
  obtain ⟨-, rfl⟩ := e5
  simp only [ne_eq, build_eq_nil, List.map_eq_nil_iff]
  intro hnil
  have : ∀ l : List (Sample K), vback l = .ok xb → l ≠ [] := by
    rintro l hl rfl; simp [vback] at hl
  split at hnil
  · simp at hnil
  · exact this _ e1 hnil

theorem ne_of_times {l l' : List (Sample K)} (h : l.map Sample.time = l'.map Sample.time)
    (h' : l' ≠ []) : l ≠ [] := by
  rintro rfl; simp at h; exact h' h

theorem finTimes_of_times {l l' : List (Sample K)} (h : l.map Sample.time = l'.map Sample.time)
    (h' : FinTimes l') : FinTimes l := by
  rw [finTimes_iff] at *; rw [h]; exact h'

theorem computeUntil_ok {nd : Bool} {x y z : Signal K} (hx : FinT x) (hy : FinT y)
    (h : computeUntil nd x y = .ok z) : FinT z ∧ z.samples ≠ [] := by
  have hw := wf_computeUntil h
  rw [computeUntil_finT nd hx hy] at h
  simp only [Outcome.bind_eq_ok] at h
  obtain ⟨⟨x', y'⟩, h1, h2⟩ := h
  obtain ⟨hs, -⟩ := synchronize_synced hx hy h1
  have ht := ofSamples_times h2
  rw [List.map_reverse, untilLoop_times _ _ _ _ (by simp [synced_length _ _ hs]), List.map_reverse,
    List.reverse_reverse] at ht
  exact ⟨⟨hw, finTimes_of_times ht (synced_times _ _ hs).1⟩, ne_of_times ht (synchronize_ne h1)⟩

/-- All signals of the trace have finite timestamps. -/
def TraceFin (trace : Trace K) : Prop := ∀ e ∈ trace, FinTimes e.2.samples

/-- All signals of the trace are non-empty. -/
def TraceNe (trace : Trace K) : Prop := ∀ e ∈ trace, e.2.samples ≠ []

theorem lookup_mem {trace : Trace K} {n : String} {x : Signal K} (h : trace.at_ n = .ok x) :
    (n, x) ∈ trace := by
  unfold Trace.at_ at h
  split at h
  · simp at h
  · rename_i y hy
    simp only [Outcome.ok.injEq] at h; subst h
    induction trace with
    | nil => simp at hy
    | cons e trace ih =>
      obtain ⟨m, s⟩ := e
      rw [List.lookup_cons] at hy
      split at hy
      · rename_i heq
        have := eq_of_beq heq
        subst this
        simp only [Option.some.injEq] at hy; subst hy; simp
      · exact List.mem_cons_of_mem _ (ih hy)

theorem beginTime_fin {s : Signal K} (h : FinTimes s.samples) : ∃ t, s.beginTime = .fin t := by
  unfold Signal.beginTime
  cases e : s.samples.head? with
  | none => exact ⟨0, rfl⟩
  | some a => exact h a (List.mem_of_head? e)

theorem endTime_fin {s : Signal K} (h : FinTimes s.samples) : ∃ t, s.endTime = .fin t := by
  unfold Signal.endTime
  cases e : s.samples.getLast? with
  | none => exact ⟨0, rfl⟩
  | some a => exact h a (List.mem_of_getLast? e)

theorem minMaxTime_fin {trace : Trace K} (h : TraceFin trace) :
    minMaxTime trace = (.pinf, .ninf) ∨ ∃ a b, minMaxTime trace = (.fin a, .fin b) := by
  unfold minMaxTime
  suffices H : ∀ acc : D K × D K, (acc = (.pinf, .ninf) ∨ ∃ a b, acc = (.fin a, .fin b)) →
      (trace.foldl (fun acc e => (D.min acc.1 e.2.beginTime, D.max acc.2 e.2.endTime)) acc =
        (.pinf, .ninf) ∨ ∃ a b, trace.foldl (fun acc e => (D.min acc.1 e.2.beginTime,
          D.max acc.2 e.2.endTime)) acc = (.fin a, .fin b)) from H _ (.inl rfl)
  induction trace with
  | nil => intro acc h; exact h
  | cons e trace ih =>
    intro acc hacc
    rw [List.foldl_cons]
    apply ih (fun e' he' => h e' (by simp [he']))
    right
    obtain ⟨a, ha⟩ := beginTime_fin (h e (by simp))
    obtain ⟨b, hb⟩ := endTime_fin (h e (by simp))
    rw [ha, hb]
    rcases hacc with rfl | ⟨c, d, rfl⟩
    · exact ⟨a, b, rfl⟩
    · simp only [D.min_fin, D.max_fin]
      exact ⟨_, _, rfl⟩

end any

section exact
variable {K : Type} [Field K] [LinearOrder K] [IsStrictOrderedRing K] [Arith K] [ExactArith K]

/-- With finite timestamps the temporal operators always use the unbounded algorithm, or throw (if the
upper bound is `-inf`). -/
theorem temporal_finT (r : RobustnessOp K) (comp : Cmp K) {y : Signal K} (hy : FinTimes y.samples)
    (i : Interval K) : r.temporal comp y i = minmaxSeq comp y ∨
      (i.asDouble.2 = .ninf ∧ i.hasValue = true ∧ r.temporal comp y i = .throw .logicError) := by
  unfold RobustnessOp.temporal
  by_cases hv : i.hasValue = true
  · simp only [hv, Bool.not_true, Bool.false_eq_true, if_false]
    simp only [Interval.hasValue, Interval.isZeroToInf, Bool.and_eq_true] at hv
    obtain ⟨h1, h2⟩ := hv
    have ha : i.asDouble.1 = .fin 0 := by
      unfold Interval.asDouble
      cases hl : i.low with
      | ull n =>
        rw [hl] at h1
        simp only [Interval.numIsZero, beq_iff_eq] at h1
        simp [Interval.numAsDouble, h1, ExactArith.rnd_eq]
      | dbl d =>
        rw [hl] at h1
        simp only [Interval.numIsZero, D.zero_def] at h1
        exact (D.eq_iff.1 h1).1
    obtain ⟨b, hb⟩ := beginTime_fin hy
    obtain ⟨e, he⟩ := endTime_fin hy
    have h2' : i.asDouble.2.isinf = true := h2
    cases h3 : i.asDouble.2 with
    | pinf =>
      left
      rw [ha, hb, he]
      simp [D.sub_def, D.zero_def, D.lt, D.eq, D.le]
      have : ((.pinf : D K) + .fin 0) = .pinf := rfl
      simp [this, D.lt]
    | ninf =>
      right
      rw [ha]
      have : ((.ninf : D K) - .fin 0) = .ninf := rfl
      simp [this, D.zero_def, D.lt]
    | fin q => rw [h3] at h2'; simp [D.isinf] at h2'
    | nan => rw [h3] at h2'; simp [D.isinf] at h2'
  · left
    simp [hv]

theorem temporal_finT_ok {r : RobustnessOp K} {comp : Cmp K} {y z : Signal K} (hy : FinTimes y.samples)
    {i : Interval K} (h : r.temporal comp y i = .ok z) : minmaxSeq comp y = .ok z := by
  rcases temporal_finT r comp hy i with h1 | ⟨-, -, h1⟩
  · rw [← h1]; exact h
  · rw [h1] at h; cases h

theorem minmaxFold_finT {comp : Cmp K} (hm : MinOrMax comp) {nd : Bool} : ∀ (xs : List (Signal K))
    (acc z : Signal K), FinT acc → (∀ x ∈ xs, FinT x) → minmaxFold nd comp false acc xs = .ok z →
    FinT z ∧ (acc.samples ≠ [] → z.samples ≠ []) := by
  intro xs
  induction xs with
  | nil => intro acc z h _ e; simp only [minmaxFold, Outcome.ok.injEq] at e; subst e; exact ⟨h, id⟩
  | cons x xs ih =>
    intro acc z h hx e
    rw [minmaxFold] at e
    simp only [Outcome.bind_eq_ok] at e
    obtain ⟨a, e1, e2⟩ := e
    obtain ⟨h1, h2⟩ := minmaxPair_finT_exact hm h (hx x (by simp)) e1
    obtain ⟨h3, h4⟩ := ih a z h1 (fun x' hx' => hx x' (by simp [hx'])) e2
    exact ⟨h3, fun _ => h4 h2⟩

theorem minmaxVec_finT {comp : Cmp K} (hm : MinOrMax comp) {nd : Bool} {xs : List (Signal K)}
    {z : Signal K} (hx : ∀ x ∈ xs, FinT x) (e : minmaxVec nd comp xs false = .ok z) :
    FinT z ∧ ((∀ x ∈ xs, x.samples ≠ []) → z.samples ≠ []) := by
  unfold minmaxVec at e
  split at e
  · refine ⟨⟨(wf_pushBack wf_empty e).1, ?_⟩, fun _ => SMap.pushBack_ne e⟩
    exact pushBack_finTimes (by simp [FinTimes, Signal.empty]) ⟨0, rfl⟩ e
  · simp only [Outcome.ok.injEq] at e; subst e
    exact ⟨hx _ (by simp), fun h => h _ (by simp)⟩
  · obtain ⟨h1, h2⟩ := minmaxPair_finT_exact hm (hx _ (by simp)) (hx _ (by simp)) e
    exact ⟨h1, fun _ => h2⟩
  · obtain ⟨h1, h2⟩ := minmaxFold_finT hm _ _ _ (hx _ (by simp))
      (fun x' hx' => hx x' (by simp [hx'])) e
    exact ⟨h1, fun h => h2 (h _ (by simp))⟩

mutual

/-- With finite timestamps in the trace (and min/max time finite, or the initial values), all computed
signals have finite timestamps; if all signals of the trace are non-empty, so are the results. -/
theorem compute_finT (r : RobustnessOp K) (ht : TraceFin r.trace)
    (hm : (r.minTime, r.maxTime) = (.pinf, .ninf) ∨ ∃ a b, (r.minTime, r.maxTime) = (.fin a, .fin b)) :
    ∀ (e : Expr K) (z : Signal K), r.compute e = .ok z →
      FinT z ∧ (TraceNe r.trace → z.samples ≠ [])
  | .const b, z, h => by
    have hw := compute_wf r _ _ h
    rw [RobustnessOp.compute, RobustnessOp.const] at h
    have ht := ofSamples_times h
    refine ⟨⟨hw, ?_⟩, fun _ => ne_of_times ht (by simp)⟩
    rcases hm with hm | ⟨a, c, hm⟩
    · simp only [Prod.mk.injEq] at hm
      rw [hm.1, hm.2, ofSamples_eq] at h
      simp [tv, Incr, D.le, D.lt] at h
    · simp only [Prod.mk.injEq] at hm
      rw [finTimes_iff, ht]
      simp [hm.1, hm.2]
  | .pred n op c, z, h => by
    have hw := compute_wf r _ _ h
    rw [RobustnessOp.compute, RobustnessOp.pred] at h
    simp only [Outcome.bind_eq_ok] at h
    obtain ⟨x, h1, h⟩ := h
    have hx := lookup_mem h1
    have h2 : z.samples.map Sample.time = x.samples.map Sample.time := by
      rw [ofSamples_times h]; simp [Function.comp_def]
    exact ⟨⟨hw, finTimes_of_times h2 (ht _ hx)⟩, fun hn => ne_of_times h2 (hn _ hx)⟩
  | .not e, z, h => by
    have hw := compute_wf r _ _ h
    rw [RobustnessOp.compute] at h
    simp only [Outcome.bind_eq_ok] at h
    obtain ⟨x, h1, h⟩ := h
    obtain ⟨hx, hn⟩ := compute_finT r ht hm e x h1
    rw [negate_wf hx.1] at h
    simp only [Outcome.ok.injEq] at h; subst h
    exact ⟨finT_negSig hx, fun hne => by simp [negSig, hn hne]⟩
  | .and args, z, h => by
    rw [RobustnessOp.compute] at h
    simp only [Outcome.bind_eq_ok] at h
    obtain ⟨ys, h1, -, -, h⟩ := h
    have ih := computeArgs_finT r ht hm args ys h1
    obtain ⟨h2, h3⟩ := minmaxVec_finT (.inl rfl) (fun y hy => (ih y hy).1) h
    exact ⟨h2, fun hne => h3 fun y hy => (ih y hy).2 hne⟩
  | .or args, z, h => by
    rw [RobustnessOp.compute] at h
    simp only [Outcome.bind_eq_ok] at h
    obtain ⟨ys, h1, -, -, h⟩ := h
    have ih := computeArgs_finT r ht hm args ys h1
    obtain ⟨h2, h3⟩ := minmaxVec_finT (.inr rfl) (fun y hy => (ih y hy).1) h
    exact ⟨h2, fun hne => h3 fun y hy => (ih y hy).2 hne⟩
  | .always e i, z, h => by
    have hw := compute_wf r _ _ h
    rw [RobustnessOp.compute] at h
    simp only [Outcome.bind_eq_ok] at h
    obtain ⟨x, h1, h⟩ := h
    obtain ⟨hx, hn⟩ := compute_finT r ht hm e x h1
    obtain ⟨h2, h3⟩ := minmaxSeq_times (temporal_finT_ok hx.2 h)
    exact ⟨⟨hw, finTimes_of_times h2 hx.2⟩, fun _ => ne_of_times h2 h3⟩
  | .eventually e i, z, h => by
    have hw := compute_wf r _ _ h
    rw [RobustnessOp.compute] at h
    simp only [Outcome.bind_eq_ok] at h
    obtain ⟨x, h1, h⟩ := h
    obtain ⟨hx, hn⟩ := compute_finT r ht hm e x h1
    obtain ⟨h2, h3⟩ := minmaxSeq_times (temporal_finT_ok hx.2 h)
    exact ⟨⟨hw, finTimes_of_times h2 hx.2⟩, fun _ => ne_of_times h2 h3⟩
  | .untl a b i, z, h => by
    rw [RobustnessOp.compute] at h
    simp only [Outcome.bind_eq_ok] at h
    obtain ⟨x, h1, y, h2, h⟩ := h
    obtain ⟨hx, -⟩ := compute_finT r ht hm a x h1
    obtain ⟨hy, -⟩ := compute_finT r ht hm b y h2
    have h3 : computeUntil r.ndebug x y = .ok z := by
      unfold RobustnessOp.untilOp at h
      split at h
      · exact h
      · simp only at h
        split at h
        · exact h
        · simp [computeUntilBounded] at h
    obtain ⟨h4, h5⟩ := computeUntil_ok hx hy h3
    exact ⟨h4, fun _ => h5⟩

theorem computeArgs_finT (r : RobustnessOp K) (ht : TraceFin r.trace)
    (hm : (r.minTime, r.maxTime) = (.pinf, .ninf) ∨ ∃ a b, (r.minTime, r.maxTime) = (.fin a, .fin b)) :
    ∀ (es : List (Expr K)) (ys : List (Signal K)), r.computeArgs es = .ok ys →
      ∀ y ∈ ys, FinT y ∧ (TraceNe r.trace → y.samples ≠ [])
  | [], ys, h => by
    simp [RobustnessOp.computeArgs] at h; subst h; simp
  | e :: es, ys, h => by
    rw [RobustnessOp.computeArgs] at h
    simp only [Outcome.bind_eq_ok] at h
    obtain ⟨y, h1, ys', h2, h3⟩ := h
    simp only [Outcome.pure_eq_ok, Outcome.ok.injEq] at h3; subst h3
    intro z hz
    rcases List.mem_cons.1 hz with rfl | hz
    · exact compute_finT r ht hm e _ h1
    · exact computeArgs_finT r ht hm es ys' h2 z hz

end

/-! ### n-ary operations and negation -/

theorem minmaxFold_neg {comp comp' : Cmp K} (hm : MinOrMax comp)
    (hp : ∀ (nd : Bool) {x y : Signal K}, FinT x → FinT y →
      minmaxPair nd comp' (negSig x) (negSig y) false = (minmaxPair nd comp x y false).map' negSig)
    (nd : Bool) : ∀ (xs : List (Signal K)) (acc : Signal K), FinT acc → (∀ x ∈ xs, FinT x) →
      minmaxFold nd comp' false (negSig acc) (xs.map negSig) =
        (minmaxFold nd comp false acc xs).map' negSig := by
  intro xs
  induction xs with
  | nil => intro acc _ _; rfl
  | cons x xs ih =>
    intro acc ha hx
    rw [List.map_cons, minmaxFold, minmaxFold, hp nd ha (hx x (by simp)), Outcome.bind_map',
      Outcome.map'_bind]
    apply Outcome.bind_congr_ok
    intro a e
    exact ih a (minmaxPair_finT_exact hm ha (hx x (by simp)) e).1 (fun x' hx' => hx x' (by simp [hx']))

theorem minmaxVec_neg {comp comp' : Cmp K} (hm : MinOrMax comp)
    (hp : ∀ (nd : Bool) {x y : Signal K}, FinT x → FinT y →
      minmaxPair nd comp' (negSig x) (negSig y) false = (minmaxPair nd comp x y false).map' negSig)
    (nd : Bool) (xs : List (Signal K)) (hne : xs ≠ []) (hx : ∀ x ∈ xs, FinT x) :
      minmaxVec nd comp' (xs.map negSig) false = (minmaxVec nd comp xs false).map' negSig := by
  match xs, hne with
  | [x], _ => rfl
  | [x, y], _ => exact hp nd (hx x (by simp)) (hx y (by simp))
  | x :: y :: z :: xs, _ =>
    exact minmaxFold_neg hm hp nd (y :: z :: xs) x (hx x (by simp)) (fun x' hx' => hx x' (by simp [hx']))

theorem computeArgs_not (r : RobustnessOp K) : ∀ es : List (Expr K),
    r.computeArgs (es.map .not) = (r.computeArgs es).map' (fun ys => ys.map negSig) := by
  intro es
  induction es with
  | nil => rfl
  | cons e es ih =>
    rw [List.map_cons, RobustnessOp.computeArgs, RobustnessOp.computeArgs, RobustnessOp.compute, ih]
    cases h : r.compute e with
    | ok x =>
      simp only [Outcome.bind_ok, negate_wf (compute_wf r e x h)]
      cases r.computeArgs es <;> rfl
    | _ => rfl

theorem computeArgs_length (r : RobustnessOp K) : ∀ (es : List (Expr K)) (ys : List (Signal K)),
    r.computeArgs es = .ok ys → ys.length = es.length := by
  intro es
  induction es with
  | nil => intro ys h; simp only [RobustnessOp.computeArgs, Outcome.ok.injEq] at h; subst h; rfl
  | cons e es ih =>
    intro ys h
    rw [RobustnessOp.computeArgs] at h
    simp only [Outcome.bind_eq_ok] at h
    obtain ⟨y, -, ys', h2, h3⟩ := h
    simp only [Outcome.pure_eq_ok, Outcome.ok.injEq] at h3; subst h3
    simp [ih ys' h2]

theorem compute_and (r : RobustnessOp K) (args : List (Expr K)) : r.compute (.and args) =
    r.computeArgs args >>= fun ys => minmaxVec r.ndebug Sample.le ys false := by
  rw [RobustnessOp.compute]
  apply Outcome.bind_congr_ok
  intro ys h
  rw [computeArgs_length r args ys h]
  simp only [beq_self_eq_true, assert_, Bool.or_true, if_true, Outcome.bind_ok]
  rfl

theorem compute_or (r : RobustnessOp K) (args : List (Expr K)) : r.compute (.or args) =
    r.computeArgs args >>= fun ys => minmaxVec r.ndebug Sample.ge ys false := by
  rw [RobustnessOp.compute]
  apply Outcome.bind_congr_ok
  intro ys h
  rw [computeArgs_length r args ys h]
  simp only [beq_self_eq_true, assert_, Bool.or_true, if_true, Outcome.bind_ok]
  rfl

theorem compute_de_morgan (r : RobustnessOp K) (ht : TraceFin r.trace)
    (hm : (r.minTime, r.maxTime) = (.pinf, .ninf) ∨ ∃ a b, (r.minTime, r.maxTime) = (.fin a, .fin b))
    (args : List (Expr K)) (hne : args ≠ []) :
    r.compute (.or (args.map .not)) = (r.compute (.and args)).map' negSig ∧
    r.compute (.and (args.map .not)) = (r.compute (.or args)).map' negSig := by
  rw [compute_and, compute_and, compute_or, compute_or, computeArgs_not, Outcome.bind_map',
    Outcome.bind_map', Outcome.map'_bind, Outcome.map'_bind]
  have key : ∀ ys, r.computeArgs args = .ok ys → ys ≠ [] ∧ ∀ y ∈ ys, FinT y := by
    intro ys h
    have hl := computeArgs_length r args ys h
    exact ⟨by rintro rfl; exact hne (List.length_eq_zero_iff.1 hl.symm),
      fun y hy => (computeArgs_finT r ht hm args ys h y hy).1⟩
  constructor
  · apply Outcome.bind_congr_ok
    intro ys h
    exact minmaxVec_neg (.inl rfl) (fun nd x y => minmaxPair_neg_ge nd) r.ndebug ys (key ys h).1 (key ys h).2
  · apply Outcome.bind_congr_ok
    intro ys h
    exact minmaxVec_neg (.inr rfl) (fun nd x y => minmaxPair_neg_le nd) r.ndebug ys (key ys h).1 (key ys h).2

end exact

end Verif
