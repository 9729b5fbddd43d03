import Verif.Proofs.Shift
import Verif.Spec.Units

/-! # Change of the units of time and values -/

set_option linter.unusedSectionVars false

namespace Verif
open Spec

variable {K : Type} [Field K] [LinearOrder K] [IsStrictOrderedRing K] [Arith K] [ExactArith K]


namespace UnitD

@[simp] theorem fin (c q : K) : inUnit c (.fin q) = .fin (c * q) := rfl
@[simp] theorem pinf (c : K) : inUnit c .pinf = .pinf := rfl
@[simp] theorem ninf (c : K) : inUnit c .ninf = .ninf := rfl
@[simp] theorem nan (c : K) : inUnit c .nan = .nan := rfl
@[simp] theorem zero (c : K) : inUnit c 0 = 0 := by show D.fin (c * 0) = D.fin 0; simp

variable {c : K} (hc : 0 < c)
include hc

theorem lt (a b : D K) : (inUnit c a).lt (inUnit c b) = a.lt b := by
  cases a <;> cases b <;> simp [D.lt, hc]

theorem eq (a b : D K) : (inUnit c a).eq (inUnit c b) = a.eq b := by
  cases a <;> cases b <;> simp [D.eq, hc.ne']

omit hc in
theorem neg (a : D K) : -inUnit c a = inUnit c (-a) := by
  cases a with
  | fin q => show D.fin (-(c * q)) = D.fin (c * -q); congr 1; ring
  | _ => rfl

omit hc in
theorem add (a b : D K) : inUnit c a + inUnit c b = inUnit c (a + b) := by
  cases a <;> cases b <;> first | rfl | (simp only [fin, D.add_fin]; congr 1; ring)

omit hc in
theorem sub (a b : D K) : inUnit c a - inUnit c b = inUnit c (a - b) := by
  rw [D.sub_def, neg, add, ← D.sub_def]

theorem infMul (p : Bool) (q : K) : D.infMul p (c * q) = D.infMul p q := by
  unfold D.infMul
  simp [hc.ne', hc]

omit hc in
theorem of_infMul (p : Bool) (q : K) : inUnit c (D.infMul p q) = D.infMul p q := by
  unfold D.infMul
  split_ifs <;> rfl

theorem mul {a : K} (ha : 0 < a) (d t : D K) : inUnit (c / a) d * inUnit a t = inUnit c (d * t) := by
  have hca : 0 < c / a := div_pos hc ha
  cases d <;> cases t <;> try rfl
  · simp only [fin, D.mul_fin]; congr 1; field_simp
  · show D.infMul true (c / a * _) = inUnit c (D.infMul true _)
    rw [infMul hca, of_infMul]
  · show D.infMul false (c / a * _) = inUnit c (D.infMul false _)
    rw [infMul hca, of_infMul]
  · show D.infMul true (a * _) = inUnit c (D.infMul true _)
    rw [infMul ha, of_infMul]
  · show D.infMul false (a * _) = inUnit c (D.infMul false _)
    rw [infMul ha, of_infMul]

omit hc in
theorem scale_neg {a : K} (ha : 0 < a) (u : K) : a * u < 0 ↔ u < 0 := by
  constructor
  · intro h
    by_contra h'
    have := mul_nonneg ha.le (not_lt.1 h')
    linarith
  · exact mul_neg_of_pos_of_neg ha

theorem div {a : K} (ha : 0 < a) (x t : D K) : inUnit c x / inUnit a t = inUnit (c / a) (x / t) := by
  cases x <;> cases t <;> try rfl
  · rename_i q u
    simp only [fin]
    by_cases hu : u = 0
    · subst hu
      show D.div _ _ = inUnit _ (D.div _ _)
      unfold D.div
      simp only [mul_zero, if_true, mul_eq_zero, hc.ne', false_or, hc, mul_pos_iff_of_pos_left]
      split_ifs <;> rfl
    · rw [D.div_fin _ _ hu, D.div_fin _ _ (mul_ne_zero ha.ne' hu), fin]
      congr 1
      field_simp
  · show D.fin 0 = D.fin _
    simp
  · show D.fin 0 = D.fin _
    simp
  · rename_i u
    show (if a * u < 0 then _ else _) = inUnit _ (if u < 0 then _ else _)
    simp only [scale_neg ha]
    split_ifs <;> rfl
  · rename_i u
    show (if a * u < 0 then _ else _) = inUnit _ (if u < 0 then _ else _)
    simp only [scale_neg ha]
    split_ifs <;> rfl

end UnitD

/-- Multiply the timestamps by `a` and the values by `c`. -/
def unitMap (a c : K) (ha : 0 < a) (hc : 0 < c) : SMap K K where
  α := inUnit a
  ρ := inUnit a
  β := inUnit c
  δ := inUnit (c / a)
  lt' := UnitD.lt ha
  eq' := UnitD.eq ha
  diff' := UnitD.sub
  add' := UnitD.add
  ρlt' := UnitD.lt ha
  ρeq' := UnitD.eq ha
  ρneg' := UnitD.neg
  ρsub' := UnitD.sub
  ρzero' := UnitD.zero a
  slope' := fun x y t => by rw [UnitD.sub, UnitD.div hc ha]
  interp' := fun v d t => by rw [UnitD.mul hc ha, UnitD.add]
  zero' := UnitD.zero _
  veq' := UnitD.eq hc
  deq' := UnitD.eq (div_pos hc ha)

section
variable {a c : K} (ha : 0 < a) (hc : 0 < c)

local notation "𝓊" => unitMap a c ha hc

/-- The crossing moves with the signals. -/
theorem timeIntersect_unit {p q i j : Sample K} (h : Adj p q i j)
    (hd : q.derivative - p.derivative ≠ .fin 0) :
    (SMap.smp 𝓊 p).timeIntersect (SMap.smp 𝓊 q) = inUnit a (p.timeIntersect q) := by
  by_cases hf : NonFin p.derivative ∨ NonFin q.derivative
  · have hs : ∀ d : D K, NonFin d → NonFin (inUnit (c / a) d) := by
      intro d hd q e
      cases d with
      | fin u => exact hd u rfl
      | _ => cases e
    rw [timeIntersect_nonFin hf, timeIntersect_nonFin (p := SMap.smp 𝓊 p) (q := SMap.smp 𝓊 q)
      (hf.imp (hs _) (hs _))]
    rfl
  · simp only [NonFin, not_or, not_forall, not_not] at hf
    obtain ⟨⟨u, e2⟩, ⟨v, e1⟩⟩ := hf
    obtain ⟨t0, t1, hlt, ep, eq, ei, ej, dp, dq⟩ := h
    rw [e2, ei, ep] at dp
    rw [e1, ej, eq] at dq
    obtain ⟨x, b, h1, h2, h3⟩ := slope_fin hlt dp.symm
    obtain ⟨y, d, h4, h5, h6⟩ := slope_fin hlt dq.symm
    have h0 : v - u ≠ 0 := by
      intro h0; apply hd; rw [e1, e2, D.sub_fin, h0]
    have h0' : c / a * v - c / a * u ≠ 0 := by
      rw [← mul_sub]; exact mul_ne_zero (div_pos hc ha).ne' h0
    unfold Sample.timeIntersect
    simp only [SMap.smp, unitMap, h2, h5, e1, e2, ep, eq, D.sub_fin, D.mul_fin, D.add_fin, UnitD.fin,
      D.div_fin _ _ h0, D.div_fin _ _ h0']
    congr 1
    have ha' := ha.ne'
    have hc' := hc.ne'
    field_simp

theorem unit_ge (x y : Sample K) : Sample.ge (SMap.smp 𝓊 x) (SMap.smp 𝓊 y) = Sample.ge x y := by
  show (!(inUnit c x.value).lt (inUnit c y.value)) = !x.value.lt y.value
  rw [UnitD.lt hc]
theorem unit_le (x y : Sample K) : Sample.le (SMap.smp 𝓊 x) (SMap.smp 𝓊 y) = Sample.le x y := by
  show (!(inUnit c y.value).lt (inUnit c x.value)) = !y.value.lt x.value
  rw [UnitD.lt hc]

theorem unit_cmp {comp : Cmp K} (hm : MinOrMax comp) (x y : Sample K) :
    comp (SMap.smp 𝓊 x) (SMap.smp 𝓊 y) = comp x y := by
  rcases hm with rfl | rfl
  · exact unit_le ha hc x y
  · exact unit_ge ha hc x y

theorem unit_fin (t : K) : ∃ t', (𝓊).α (.fin t) = .fin t' := ⟨a * t, rfl⟩

theorem unit_finT {s : Signal K} (h : FinT s) : FinT (SMap.sig 𝓊 s) :=
  wf_times_map (φ := 𝓊) h.1 h.2 (unit_fin ha hc)

theorem minmaxPair_unit {comp : Cmp K} (hm : MinOrMax comp) (nd : Bool) {x y : Signal K} (hx : FinT x)
    (hy : FinT y) :
    minmaxPair nd comp (SMap.sig 𝓊 x) (SMap.sig 𝓊 y) false =
      (minmaxPair nd comp x y false).map' (SMap.sig 𝓊) :=
  SMap.minmaxPair (φ := 𝓊) (unit_cmp ha hc hm)
    (fun _ _ _ _ h hch => ⟨timeIntersect_unit ha hc h (den_ne hm h hch),
      timeIntersect_unit ha hc h.symm (den_ne' hm h hch)⟩)
    (unit_fin ha hc) nd hx hy (.inl (UnitD.zero a))

theorem minmaxFold_unit {comp : Cmp K} (hm : MinOrMax comp) (nd : Bool) : ∀ (xs : List (Signal K))
    (acc : Signal K), FinT acc → (∀ x ∈ xs, FinT x) →
    minmaxFold nd comp false (SMap.sig 𝓊 acc) (xs.map (SMap.sig 𝓊)) =
      (minmaxFold nd comp false acc xs).map' (SMap.sig 𝓊) := by
  intro xs
  induction xs with
  | nil => intro acc _ _; rfl
  | cons x xs ih =>
    intro acc h1 hx
    rw [List.map_cons, minmaxFold, minmaxFold,
      minmaxPair_unit ha hc hm nd h1 (hx x (by simp)), Outcome.bind_map', Outcome.map'_bind]
    apply Outcome.bind_congr_ok
    intro z hz
    exact ih z (minmaxPair_finT_exact hm h1 (hx x (by simp)) hz).1 fun y hy => hx y (by simp [hy])

theorem minmaxVec_unit {comp : Cmp K} (hm : MinOrMax comp) (nd : Bool) (xs : List (Signal K))
    (hx : ∀ x ∈ xs, FinT x) :
    minmaxVec nd comp (xs.map (SMap.sig 𝓊)) false = (minmaxVec nd comp xs false).map' (SMap.sig 𝓊) := by
  match xs with
  | [] =>
    have := SMap.pushBackTV 𝓊 Signal.empty 0 .ninf
    rw [SMap.sig_empty] at this
    rw [show (𝓊).α 0 = 0 from UnitD.zero a] at this
    exact this
  | [x] => rfl
  | [x, y] => exact minmaxPair_unit ha hc hm nd (hx x (by simp)) (hx y (by simp))
  | x :: y :: w :: r =>
    exact minmaxFold_unit ha hc hm nd (y :: w :: r) x (hx x (by simp)) fun s hs => hx s (by simp [hs])

include hc in
theorem scale_max (x y : D K) : D.max (inUnit c x) (inUnit c y) = inUnit c (D.max x y) := by
  simp only [D.max, UnitD.lt hc]; split <;> rfl
include hc in
theorem scale_min (x y : D K) : D.min (inUnit c x) (inUnit c y) = inUnit c (D.min x y) := by
  simp only [D.min, UnitD.lt hc]; split <;> rfl

theorem untilLoop_unit : ∀ (is js : List (Sample K)) (u v : D K),
    untilLoop (inUnit c u) (inUnit c v) (is.map (SMap.smp 𝓊)) (js.map (SMap.smp 𝓊)) =
      (untilLoop u v is js).map (SMap.smp 𝓊) := by
  intro is
  induction is with
  | nil => intro js u v; simp [untilLoop]
  | cons i is ih =>
    intro js u v
    cases js with
    | nil => simp [untilLoop]
    | cons j js =>
      simp only [List.map_cons, untilLoop, SMap.smp_value, SMap.smp_time]
      simp only [show (𝓊).β = inUnit c from rfl, scale_max hc, scale_min hc, UnitD.neg, ih, SMap.smp_mk2]

theorem computeUntil_unit (nd : Bool) {x y : Signal K} (hx : FinT x) (hy : FinT y) :
    computeUntil nd (SMap.sig 𝓊 x) (SMap.sig 𝓊 y) = (computeUntil nd x y).map' (SMap.sig 𝓊) := by
  rw [computeUntil_finT nd hx hy, computeUntil_finT nd (unit_finT ha hc hx) (unit_finT ha hc hy),
    SMap.synchronize 𝓊 (.inl (UnitD.zero a)), Outcome.bind_map', Outcome.map'_bind]
  congr 1
  funext p
  obtain ⟨x', y'⟩ := p
  show Signal.ofSamples (untilLoop .pinf .ninf (x'.samples.map (SMap.smp 𝓊)).reverse
    (y'.samples.map (SMap.smp 𝓊)).reverse).reverse = _
  have := untilLoop_unit ha hc x'.samples.reverse y'.samples.reverse .pinf .ninf
  simp only [UnitD.pinf, UnitD.ninf] at this
  rw [← List.map_reverse, ← List.map_reverse, this, ← List.map_reverse, SMap.ofSamples]

include ha hc in
theorem minMaxTime_unit (trace : Trace K) :
    minMaxTime (traceUnits a c trace) = (inUnit a (minMaxTime trace).1, inUnit a (minMaxTime trace).2) := by
  have hb : ∀ x : Signal K, (signalUnits a c x).beginTime = inUnit a x.beginTime := by
    intro x
    by_cases h : x.samples = []
    · obtain ⟨l⟩ := x
      simp only at h; subst h
      exact (UnitD.zero a).symm
    · exact SMap.beginTime 𝓊 h
  have he : ∀ x : Signal K, (signalUnits a c x).endTime = inUnit a x.endTime := by
    intro x
    by_cases h : x.samples = []
    · obtain ⟨l⟩ := x
      simp only at h; subst h
      exact (UnitD.zero a).symm
    · exact SMap.endTime 𝓊 h
  unfold minMaxTime traceUnits
  rw [List.foldl_map]
  suffices H : ∀ (l : Trace K) (acc : D K × D K),
      l.foldl (fun acc e => (D.min acc.1 (signalUnits a c e.2).beginTime,
          D.max acc.2 (signalUnits a c e.2).endTime)) (inUnit a acc.1, inUnit a acc.2) =
        (inUnit a (l.foldl (fun acc e => (D.min acc.1 e.2.beginTime, D.max acc.2 e.2.endTime)) acc).1,
         inUnit a (l.foldl (fun acc e => (D.min acc.1 e.2.beginTime, D.max acc.2 e.2.endTime)) acc).2)
      from H trace (.pinf, .ninf)
  intro l
  induction l with
  | nil => intro acc; rfl
  | cons e l ih =>
    intro acc
    rw [List.foldl_cons, List.foldl_cons, ← ih _]
    simp only [hb, he, scale_max ha, scale_min ha]

omit ha hc in
theorem traceUnits_at (trace : Trace K) (n : String) :
    (traceUnits a c trace).at_ n = (trace.at_ n).map' (signalUnits a c) := by
  have h : (traceUnits a c trace).lookup n = (trace.lookup n).map (signalUnits a c) := by
    induction trace with
    | nil => rfl
    | cons e l ih =>
      obtain ⟨m, x⟩ := e
      simp only [traceUnits, List.map_cons, List.lookup_cons]
      by_cases hn : (n == m) = true <;> simp [hn]
      exact ih
  unfold Trace.at_
  rw [h]
  cases trace.lookup n <;> rfl

include ha in
theorem interval_unit (i : Interval K) : (intervalUnits a i).hasValue = i.hasValue ∧
    (intervalUnits a i).asDouble = (inUnit a i.asDouble.1, inUnit a i.asDouble.2) := by
  have hd : ∀ n : INum K, Interval.numAsDouble (boundUnits a n) = inUnit a (Interval.numAsDouble n) := by
    intro n
    cases n with
    | ull n => simp [boundUnits, Interval.numAsDouble, ExactArith.rnd_eq]
    | dbl d => rfl
  refine ⟨?_, ?_⟩
  · unfold Interval.hasValue Interval.isZeroToInf
    have h1 : Interval.numIsZero (intervalUnits a i).low = Interval.numIsZero i.low := by
      show Interval.numIsZero (boundUnits a i.low) = _
      cases i.low with
      | ull n =>
        show (D.fin (a * (n.toNat : K))).eq (.fin 0) = (n == 0)
        rw [D.eq_fin]
        by_cases hn : n = 0
        · simp [hn]
        · have : (n.toNat : K) ≠ 0 := by
            rw [Ne, Nat.cast_eq_zero]
            intro h; exact hn (UInt64.toNat_inj.1 h)
          simp [hn, this, ha.ne']
      | dbl d =>
        show (inUnit a d).eq 0 = d.eq 0
        rw [← UnitD.eq ha d 0, UnitD.zero]
    have h2 : ∀ d : D K, (inUnit a d).isinf = d.isinf := by intro d; cases d <;> rfl
    rw [h1]
    show (_ && (Interval.numAsDouble (boundUnits a i.high)).isinf) = _
    rw [hd, h2]
  · show (Interval.numAsDouble (boundUnits a i.low), Interval.numAsDouble (boundUnits a i.high)) = _
    rw [hd, hd]; rfl

omit ha hc in
theorem argsUnits_length (es : List (Expr K)) : (argsUnits a c es).length = es.length := by
  induction es with
  | nil => rfl
  | cons e es ih => simp [argsUnits, ih]

mutual
theorem compute_unit (r : RobustnessOp K) (ht : TraceFin r.trace)
    (hm : (r.minTime, r.maxTime) = (.pinf, .ninf) ∨ ∃ a b, (r.minTime, r.maxTime) = (.fin a, .fin b)) :
    ∀ e : Expr K,
    RobustnessOp.compute ⟨r.ndebug, r.fuel, inUnit a r.minTime, inUnit a r.maxTime,
      traceUnits a c r.trace⟩ (exprUnits a c e) = (r.compute e).map' (SMap.sig 𝓊)
  | .const b => by
    rw [exprUnits, RobustnessOp.compute, RobustnessOp.compute, RobustnessOp.const, RobustnessOp.const]
    have := SMap.ofSamples 𝓊 [⟨r.minTime, if b then .pinf else .ninf, 0⟩, ⟨r.maxTime, if b then .pinf else .ninf, 0⟩]
    rw [← this]
    simp only [List.map_cons, List.map_nil, SMap.smp_mk0]
    cases b <;> rfl
  | .pred n op q => by
    rw [exprUnits, RobustnessOp.compute, RobustnessOp.compute, RobustnessOp.pred, RobustnessOp.pred,
      traceUnits_at, Outcome.bind_map', Outcome.map'_bind]
    congr 1
    funext x
    rw [← SMap.ofSamples]
    simp only [signalUnits, List.map_map]
    congr 1
    refine List.map_congr_left fun s _ => ?_
    simp only [Function.comp, SMap.smp_mk0]
    cases op <;> simp only [RobustnessOp.predValue, UnitD.sub] <;> rfl
  | .not e => by
    rw [exprUnits, compute_not, compute_not, compute_unit r ht hm e, Outcome.bind_map', Outcome.map'_bind]
    congr 1
    funext x
    unfold RobustnessOp.negate
    rw [← SMap.ofSamples]
    simp only [SMap.sig_samples, List.map_map]
    congr 1
    refine List.map_congr_left fun s _ => ?_
    simp only [Function.comp, Sample.neg, SMap.smp]
    congr 1
    · exact UnitD.neg _
    · exact UnitD.neg _
  | .and args => by
    rw [exprUnits, compute_and, compute_and, computeArgs_unit r ht hm args, Outcome.bind_map',
      Outcome.map'_bind]
    apply Outcome.bind_congr_ok
    intro ys hys
    exact minmaxVec_unit ha hc (.inl rfl) _ ys fun x hx => (computeArgs_finT r ht hm args ys hys x hx).1
  | .or args => by
    rw [exprUnits, compute_or, compute_or, computeArgs_unit r ht hm args, Outcome.bind_map',
      Outcome.map'_bind]
    apply Outcome.bind_congr_ok
    intro ys hys
    exact minmaxVec_unit ha hc (.inr rfl) _ ys fun x hx => (computeArgs_finT r ht hm args ys hys x hx).1
  | .always e i => by
    rw [exprUnits, compute_always, compute_always, compute_unit r ht hm e, Outcome.bind_map',
      Outcome.map'_bind]
    congr 1
    funext x
    exact SMap.temporal (φ := 𝓊) (unit_le ha hc) r _ rfl x i _ (interval_unit ha i).1 (interval_unit ha i).2
  | .eventually e i => by
    rw [exprUnits, compute_eventually, compute_eventually, compute_unit r ht hm e, Outcome.bind_map',
      Outcome.map'_bind]
    congr 1
    funext x
    exact SMap.temporal (φ := 𝓊) (unit_ge ha hc) r _ rfl x i _ (interval_unit ha i).1 (interval_unit ha i).2
  | .untl e e' i => by
    rw [exprUnits, compute_untl, compute_untl, compute_unit r ht hm e, compute_unit r ht hm e',
      Outcome.bind_map', Outcome.map'_bind]
    apply Outcome.bind_congr_ok
    intro x hx
    rw [Outcome.bind_map', Outcome.map'_bind]
    apply Outcome.bind_congr_ok
    intro y hy
    have hu := computeUntil_unit ha hc r.ndebug (compute_finT r ht hm e x hx).1 (compute_finT r ht hm e' y hy).1
    unfold RobustnessOp.untilOp
    rw [(interval_unit ha i).1, (interval_unit ha i).2]
    split
    · exact hu
    · simp only
      have h1 : (inUnit a i.asDouble.2).isinf = i.asDouble.2.isinf := by cases i.asDouble.2 <;> rfl
      have h2 : (inUnit a i.asDouble.1).eq 0 = i.asDouble.1.eq 0 := by
        conv_rhs => rw [← UnitD.eq ha i.asDouble.1 0, UnitD.zero]
      rw [h1, h2]
      split
      · exact hu
      · rfl

theorem computeArgs_unit (r : RobustnessOp K) (ht : TraceFin r.trace)
    (hm : (r.minTime, r.maxTime) = (.pinf, .ninf) ∨ ∃ a b, (r.minTime, r.maxTime) = (.fin a, .fin b)) :
    ∀ es : List (Expr K),
    RobustnessOp.computeArgs ⟨r.ndebug, r.fuel, inUnit a r.minTime, inUnit a r.maxTime,
      traceUnits a c r.trace⟩ (argsUnits a c es) =
      (r.computeArgs es).map' (fun ys => ys.map (SMap.sig 𝓊))
  | [] => rfl
  | e :: es => by
    rw [argsUnits, RobustnessOp.computeArgs, RobustnessOp.computeArgs, compute_unit r ht hm e,
      computeArgs_unit r ht hm es]
    cases r.compute e with
    | ok x => cases r.computeArgs es <;> rfl
    | _ => rfl
end

end

end Verif
