import Verif.Proofs.Pair
import Verif.Proofs.Temporal
import Verif.Spec.Transfer

/-! # Evaluation with numbers of another kind -/

set_option linter.unusedSectionVars false

namespace Verif
open Spec

variable {K L : Type} [Field K] [LinearOrder K] [IsStrictOrderedRing K] [Arith K]
  [Field L] [LinearOrder L] [IsStrictOrderedRing L] [Arith L]

namespace CastD

variable {ι : K →+* L}

@[simp] theorem fin (q : K) : castD ι (.fin q) = .fin (ι q) := rfl
@[simp] theorem pinf : castD ι .pinf = .pinf := rfl
@[simp] theorem ninf : castD ι .ninf = .ninf := rfl
@[simp] theorem nan : castD ι .nan = .nan := rfl
@[simp] theorem zero : castD ι 0 = 0 := by show D.fin (ι 0) = D.fin 0; simp

theorem neg (a : D K) : -castD ι a = castD ι (-a) := by
  cases a with
  | fin q => show D.fin (-(ι q)) = D.fin (ι (-q)); rw [map_neg]
  | _ => rfl

section
variable (hr : SameRounding ι)
include hr

theorem add (a b : D K) : castD ι a + castD ι b = castD ι (a + b) := by
  cases a <;> cases b <;> first | rfl | skip
  rename_i p q
  show Arith.rnd (ι p + ι q) = castD ι (Arith.rnd (p + q))
  rw [← map_add, hr]

theorem sub (a b : D K) : castD ι a - castD ι b = castD ι (a - b) := by
  rw [D.sub_def, neg, add hr, ← D.sub_def]
end

section
variable (hm : StrictMono ι)
include hm

theorem lt (a b : D K) : (castD ι a).lt (castD ι b) = a.lt b := by
  cases a <;> cases b <;> simp [D.lt, hm.lt_iff_lt]

theorem eq (a b : D K) : (castD ι a).eq (castD ι b) = a.eq b := by
  cases a <;> cases b <;> simp [D.eq, hm.injective.eq_iff]

theorem pos (q : K) : 0 < ι q ↔ 0 < q := by rw [← map_zero ι, hm.lt_iff_lt]
theorem negative (q : K) : ι q < 0 ↔ q < 0 := by rw [← map_zero ι, hm.lt_iff_lt]

theorem infMul (p : Bool) (q : K) : D.infMul p (ι q) = castD ι (D.infMul p q) := by
  unfold D.infMul
  simp only [map_eq_zero, pos hm]
  split_ifs <;> rfl

variable (hr : SameRounding ι)
include hr

theorem mul (a b : D K) : castD ι a * castD ι b = castD ι (a * b) := by
  cases a <;> cases b <;> try first | rfl | exact infMul hm _ _
  rename_i p q
  show Arith.rnd (ι p * ι q) = castD ι (Arith.rnd (p * q))
  rw [← map_mul, hr]

theorem div (a b : D K) : castD ι a / castD ι b = castD ι (a / b) := by
  cases a <;> cases b <;> try rfl
  · rename_i p q
    show D.div (.fin (ι p)) (.fin (ι q)) = castD ι (D.div (.fin p) (.fin q))
    unfold D.div
    simp only [map_eq_zero, pos hm, ← map_div₀, hr (p / q)]
    split_ifs <;> rfl
  · exact (zero (ι := ι)).symm
  · exact (zero (ι := ι)).symm
  · rename_i q
    show (if ι q < 0 then _ else _) = castD ι (if q < 0 then _ else _)
    simp only [negative hm]
    split_ifs <;> rfl
  · rename_i q
    show (if ι q < 0 then _ else _) = castD ι (if q < 0 then _ else _)
    simp only [negative hm]
    split_ifs <;> rfl

end

theorem isinf (a : D K) : (castD ι a).isinf = a.isinf := by cases a <;> rfl

end CastD

/-- Change the kind of the numbers. -/
def castMap (ι : K →+* L) (hm : StrictMono ι) (hr : SameRounding ι) : SMap K L where
  α := castD ι
  ρ := castD ι
  β := castD ι
  δ := castD ι
  lt' := CastD.lt hm
  eq' := CastD.eq hm
  diff' := CastD.sub hr
  add' := CastD.add hr
  ρlt' := CastD.lt hm
  ρeq' := CastD.eq hm
  ρneg' := CastD.neg
  ρsub' := CastD.sub hr
  ρzero' := CastD.zero
  slope' := fun x y t => by rw [CastD.sub hr, CastD.div hm hr]
  interp' := fun v d t => by rw [CastD.mul hm hr, CastD.add hr]
  zero' := CastD.zero
  veq' := CastD.eq hm
  deq' := CastD.eq hm

section
variable {ι : K →+* L} (hm : StrictMono ι) (hr : SameRounding ι)

local notation "𝒸" => castMap ι hm hr

theorem cast_begin (x : Signal K) : (SMap.sig 𝒸 x).beginTime = castD ι x.beginTime := by
  by_cases h : x.samples = []
  · obtain ⟨l⟩ := x
    simp only at h; subst h
    exact (CastD.zero (ι := ι)).symm
  · exact SMap.beginTime 𝒸 h

theorem cast_end (x : Signal K) : (SMap.sig 𝒸 x).endTime = castD ι x.endTime := by
  by_cases h : x.samples = []
  · obtain ⟨l⟩ := x
    simp only at h; subst h
    exact (CastD.zero (ι := ι)).symm
  · exact SMap.endTime 𝒸 h

theorem timeIntersect_cast (p q : Sample K) :
    (SMap.smp 𝒸 p).timeIntersect (SMap.smp 𝒸 q) = castD ι (p.timeIntersect q) := by
  unfold Sample.timeIntersect
  simp only [SMap.smp, castMap, CastD.sub hr, CastD.mul hm hr, CastD.add hr, CastD.div hm hr]

theorem insertCrossing_cast (out : Signal K) (p q : Option (Sample K)) (t : D K) :
    insertCrossing (SMap.sig 𝒸 out) (p.map (SMap.smp 𝒸)) (q.map (SMap.smp 𝒸)) (castD ι t) =
      (insertCrossing out p q t).map' (SMap.sig 𝒸) := by
  unfold insertCrossing
  simp only [SMap.derefPrev, Outcome.bind_map', Outcome.map'_bind, timeIntersect_cast, cast_end, CastD.lt hm,
    CastD.eq hm]
  congr 1; funext p
  congr 1; funext q
  have h1 := SMap.interpolate 𝒸 p (p.timeIntersect q)
  have h2 := SMap.pushBack 𝒸 out (Sample.mk2 (p.timeIntersect q) (p.interpolate (p.timeIntersect q)))
  rw [SMap.smp_mk2, ← h1] at h2
  split
  · exact h2
  · rfl

theorem minmaxPairLoop_cast {comp : Cmp K} {comp' : Cmp L}
    (hc : ∀ a b, comp' (SMap.smp 𝒸 a) (SMap.smp 𝒸 b) = comp a b) : ∀ (is js : List (Sample K)) (out : Signal K)
    (c : Chosen) (p q : Option (Sample K)),
    minmaxPairLoop comp' (SMap.sig 𝒸 out) c (p.map (SMap.smp 𝒸)) (q.map (SMap.smp 𝒸)) (is.map (SMap.smp 𝒸))
      (js.map (SMap.smp 𝒸)) = (minmaxPairLoop comp out c p q is js).map' (SMap.sig 𝒸) := by
  intro is
  induction is with
  | nil => intro js out c p q; simp [minmaxPairLoop]
  | cons i is ih =>
    intro js out c p q
    cases js with
    | nil => simp [minmaxPairLoop]
    | cons j js =>
      rw [List.map_cons, List.map_cons, minmaxPairLoop_cons, minmaxPairLoop_cons, hc]
      have e1 := insertCrossing_cast hm hr out q p i.time
      have e2 := insertCrossing_cast hm hr out p q j.time
      split
      · have e : (if c = .Y then insertCrossing (SMap.sig 𝒸 out) (q.map (SMap.smp 𝒸)) (p.map (SMap.smp 𝒸))
            (SMap.smp 𝒸 i).time else .ok (SMap.sig 𝒸 out)) =
            (if c = .Y then insertCrossing out q p i.time else .ok out).map' (SMap.sig 𝒸) := by
          split
          · exact e1
          · rfl
        rw [e, Outcome.bind_map', Outcome.map'_bind]
        congr 1; funext o
        rw [SMap.pushBack, Outcome.bind_map', Outcome.map'_bind]
        congr 1; funext o
        exact ih js o .X (some i) (some j)
      · have e : (if c = .X then insertCrossing (SMap.sig 𝒸 out) (p.map (SMap.smp 𝒸)) (q.map (SMap.smp 𝒸))
            (SMap.smp 𝒸 j).time else .ok (SMap.sig 𝒸 out)) =
            (if c = .X then insertCrossing out p q j.time else .ok out).map' (SMap.sig 𝒸) := by
          split
          · exact e2
          · rfl
        rw [e, Outcome.bind_map', Outcome.map'_bind]
        congr 1; funext o
        rw [SMap.pushBack, Outcome.bind_map', Outcome.map'_bind]
        congr 1; funext o
        exact ih js o .Y (some i) (some j)

theorem cast_size (x : Signal K) : (SMap.sig 𝒸 x).size = x.size := by simp [Signal.size]

theorem minmaxPair_cast {comp : Cmp K} {comp' : Cmp L}
    (hc : ∀ a b, comp' (SMap.smp 𝒸 a) (SMap.smp 𝒸 b) = comp a b) (nd : Bool) (x y : Signal K) (sy : Bool) :
    minmaxPair nd comp' (SMap.sig 𝒸 x) (SMap.sig 𝒸 y) sy = (minmaxPair nd comp x y sy).map' (SMap.sig 𝒸) := by
  rw [minmaxPair_eq, minmaxPair_eq]
  have e : (if sy then .ok (SMap.sig 𝒸 x, SMap.sig 𝒸 y) else synchronize (SMap.sig 𝒸 x) (SMap.sig 𝒸 y)) =
      (if sy then .ok (x, y) else synchronize x y : Outcome _).map' (SMap.sig2 𝒸) := by
    split
    · rfl
    · exact SMap.synchronize 𝒸 (.inl CastD.zero)
  rw [e, Outcome.bind_map', Outcome.map'_bind]
  congr 1; funext p
  simp only [SMap.sig2, cast_size, cast_begin, cast_end, CastD.eq hm, Outcome.map'_bind]
  congr 1; funext _
  congr 1; funext _
  congr 1; funext _
  exact minmaxPairLoop_cast hm hr hc p.1.samples p.2.samples Signal.empty .NONE none none

theorem minmaxFold_cast {comp : Cmp K} {comp' : Cmp L}
    (hc : ∀ a b, comp' (SMap.smp 𝒸 a) (SMap.smp 𝒸 b) = comp a b) (nd sy : Bool) : ∀ (xs : List (Signal K))
    (acc : Signal K), minmaxFold nd comp' sy (SMap.sig 𝒸 acc) (xs.map (SMap.sig 𝒸)) =
      (minmaxFold nd comp sy acc xs).map' (SMap.sig 𝒸) := by
  intro xs
  induction xs with
  | nil => intro acc; rfl
  | cons x xs ih =>
    intro acc
    rw [List.map_cons, minmaxFold, minmaxFold, minmaxPair_cast hm hr hc, Outcome.bind_map', Outcome.map'_bind]
    congr 1; funext z
    exact ih z

theorem minmaxVec_cast {comp : Cmp K} {comp' : Cmp L}
    (hc : ∀ a b, comp' (SMap.smp 𝒸 a) (SMap.smp 𝒸 b) = comp a b) (nd : Bool) (xs : List (Signal K)) (sy : Bool) :
    minmaxVec nd comp' (xs.map (SMap.sig 𝒸)) sy = (minmaxVec nd comp xs sy).map' (SMap.sig 𝒸) := by
  match xs with
  | [] =>
    have := SMap.pushBackTV 𝒸 Signal.empty 0 .ninf
    rw [SMap.sig_empty, show (𝒸).α 0 = 0 from CastD.zero] at this
    exact this
  | [x] => rfl
  | [x, y] => exact minmaxPair_cast hm hr hc nd x y sy
  | x :: y :: w :: r => exact minmaxFold_cast hm hr hc nd sy (y :: w :: r) x

include hm in
theorem cast_max (x y : D K) : D.max (castD ι x) (castD ι y) = castD ι (D.max x y) := by
  simp only [D.max, CastD.lt hm]; split <;> rfl
include hm in
theorem cast_min (x y : D K) : D.min (castD ι x) (castD ι y) = castD ι (D.min x y) := by
  simp only [D.min, CastD.lt hm]; split <;> rfl

theorem untilLoop_cast : ∀ (is js : List (Sample K)) (u v : D K),
    untilLoop (castD ι u) (castD ι v) (is.map (SMap.smp 𝒸)) (js.map (SMap.smp 𝒸)) =
      (untilLoop u v is js).map (SMap.smp 𝒸) := by
  intro is
  induction is with
  | nil => intro js u v; simp [untilLoop]
  | cons i is ih =>
    intro js u v
    cases js with
    | nil => simp [untilLoop]
    | cons j js =>
      simp only [List.map_cons, untilLoop, SMap.smp_value, SMap.smp_time]
      simp only [show (𝒸).β = castD ι from rfl, cast_max hm, cast_min hm, CastD.neg, ih, SMap.smp_mk2]

theorem computeUntil_cast (nd : Bool) (x y : Signal K) :
    computeUntil nd (SMap.sig 𝒸 x) (SMap.sig 𝒸 y) = (computeUntil nd x y).map' (SMap.sig 𝒸) := by
  unfold computeUntil
  rw [SMap.synchronize 𝒸 (.inl CastD.zero), Outcome.bind_map', Outcome.map'_bind]
  congr 1; funext p
  obtain ⟨x', y'⟩ := p
  simp only [SMap.sig2, cast_size, cast_begin, cast_end, CastD.eq hm, Outcome.map'_bind]
  congr 1; funext _
  congr 1; funext _
  congr 1; funext _
  have := untilLoop_cast hm hr x'.samples.reverse y'.samples.reverse .pinf .ninf
  simp only [CastD.pinf, CastD.ninf] at this
  rw [SMap.sig_samples, SMap.sig_samples, ← List.map_reverse, ← List.map_reverse, this, ← List.map_reverse,
    SMap.ofSamples]

theorem cast_le (x y : Sample K) : Sample.le (SMap.smp 𝒸 x) (SMap.smp 𝒸 y) = Sample.le x y := by
  show (!(castD ι y.value).lt (castD ι x.value)) = !(y.value.lt x.value)
  rw [CastD.lt hm]
theorem cast_ge (x y : Sample K) : Sample.ge (SMap.smp 𝒸 x) (SMap.smp 𝒸 y) = Sample.ge x y := by
  show (!(castD ι x.value).lt (castD ι y.value)) = !(x.value.lt y.value)
  rw [CastD.lt hm]

include hm hr in
theorem minMaxTime_cast (trace : Trace K) :
    minMaxTime (castTrace ι trace) = (castD ι (minMaxTime trace).1, castD ι (minMaxTime trace).2) := by
  unfold minMaxTime castTrace
  rw [List.foldl_map]
  suffices H : ∀ (l : Trace K) (acc : D K × D K),
      l.foldl (fun acc e => (D.min acc.1 (castSignal ι e.2).beginTime,
          D.max acc.2 (castSignal ι e.2).endTime)) (castD ι acc.1, castD ι acc.2) =
        (castD ι (l.foldl (fun acc e => (D.min acc.1 e.2.beginTime, D.max acc.2 e.2.endTime)) acc).1,
         castD ι (l.foldl (fun acc e => (D.min acc.1 e.2.beginTime, D.max acc.2 e.2.endTime)) acc).2)
      from H trace (.pinf, .ninf)
  intro l
  induction l with
  | nil => intro acc; rfl
  | cons e l ih =>
    intro acc
    rw [List.foldl_cons, List.foldl_cons, ← ih _]
    have hb : (castSignal ι e.2).beginTime = castD ι e.2.beginTime := cast_begin hm hr e.2
    have he : (castSignal ι e.2).endTime = castD ι e.2.endTime := cast_end hm hr e.2
    simp only [hb, he, cast_max hm, cast_min hm]

omit hm hr in
theorem castTrace_at (trace : Trace K) (n : String) :
    (castTrace ι trace).at_ n = (trace.at_ n).map' (castSignal ι) := by
  have h : (castTrace ι trace).lookup n = (trace.lookup n).map (castSignal ι) := by
    induction trace with
    | nil => rfl
    | cons e l ih =>
      obtain ⟨m, x⟩ := e
      simp only [castTrace, List.map_cons, List.lookup_cons]
      by_cases hn : (n == m) = true <;> simp [hn]
      exact ih
  unfold Trace.at_
  rw [h]
  cases trace.lookup n <;> rfl

include hm hr in
theorem interval_cast (i : Interval K) : (castInterval ι i).hasValue = i.hasValue ∧
    (castInterval ι i).asDouble = (castD ι i.asDouble.1, castD ι i.asDouble.2) := by
  have hd : ∀ n : INum K, Interval.numAsDouble (castNum ι n) = castD ι (Interval.numAsDouble n) := by
    intro n
    cases n with
    | ull n =>
      show Arith.rnd ((n.toNat : L)) = castD ι (Arith.rnd (n.toNat : K))
      rw [← hr, map_natCast]
    | dbl d => rfl
  refine ⟨?_, ?_⟩
  · unfold Interval.hasValue Interval.isZeroToInf
    have h1 : Interval.numIsZero (castInterval ι i).low = Interval.numIsZero i.low := by
      show Interval.numIsZero (castNum ι i.low) = _
      cases i.low with
      | ull n => rfl
      | dbl d =>
        show (castD ι d).eq 0 = d.eq 0
        rw [← CastD.eq hm d 0, CastD.zero]
    rw [h1]
    show (_ && (Interval.numAsDouble (castNum ι i.high)).isinf) = _
    rw [hd, CastD.isinf]
  · show (Interval.numAsDouble (castNum ι i.low), Interval.numAsDouble (castNum ι i.high)) = _
    rw [hd, hd]; rfl

omit hm hr in
theorem castExprs_length (es : List (Expr K)) : (castExprs ι es).length = es.length := by
  induction es with
  | nil => rfl
  | cons e es ih => simp [castExprs, ih]

mutual
theorem compute_cast (r : RobustnessOp K) : ∀ e : Expr K,
    RobustnessOp.compute ⟨r.ndebug, r.fuel, castD ι r.minTime, castD ι r.maxTime, castTrace ι r.trace⟩
      (castExpr ι e) = (r.compute e).map' (SMap.sig 𝒸)
  | .const b => by
    rw [castExpr, RobustnessOp.compute, RobustnessOp.compute, RobustnessOp.const, RobustnessOp.const]
    have := SMap.ofSamples 𝒸 [⟨r.minTime, if b then .pinf else .ninf, 0⟩, ⟨r.maxTime, if b then .pinf else .ninf, 0⟩]
    rw [← this]
    simp only [List.map_cons, List.map_nil, SMap.smp_mk0]
    cases b <;> rfl
  | .pred n op q => by
    rw [castExpr, RobustnessOp.compute, RobustnessOp.compute, RobustnessOp.pred, RobustnessOp.pred,
      castTrace_at, Outcome.bind_map', Outcome.map'_bind]
    congr 1
    funext x
    rw [← SMap.ofSamples]
    simp only [castSignal, List.map_map]
    congr 1
    refine List.map_congr_left fun s _ => ?_
    simp only [Function.comp, SMap.smp_mk0]
    cases op <;> simp only [RobustnessOp.predValue, castSample, CastD.sub hr] <;> rfl
  | .not e => by
    rw [castExpr, compute_not, compute_not, compute_cast r e, Outcome.bind_map', Outcome.map'_bind]
    congr 1
    funext x
    unfold RobustnessOp.negate
    rw [← SMap.ofSamples]
    simp only [SMap.sig_samples, List.map_map]
    congr 1
    refine List.map_congr_left fun s _ => ?_
    simp only [Function.comp, Sample.neg, SMap.smp]
    congr 1
    · exact CastD.neg _
    · exact CastD.neg _
  | .and args => by
    rw [castExpr, RobustnessOp.compute, RobustnessOp.compute, computeArgs_cast r args, Outcome.bind_map', Outcome.map'_bind]
    congr 1
    funext ys
    simp only [List.length_map, castExprs_length, Outcome.map'_bind]
    congr 1
    funext _
    exact minmaxVec_cast hm hr (cast_le hm hr) _ ys _
  | .or args => by
    rw [castExpr, RobustnessOp.compute, RobustnessOp.compute, computeArgs_cast r args, Outcome.bind_map', Outcome.map'_bind]
    congr 1
    funext ys
    simp only [List.length_map, castExprs_length, Outcome.map'_bind]
    congr 1
    funext _
    exact minmaxVec_cast hm hr (cast_ge hm hr) _ ys _
  | .always e i => by
    rw [castExpr, compute_always, compute_always, compute_cast r e, Outcome.bind_map', Outcome.map'_bind]
    congr 1
    funext x
    exact SMap.temporal (φ := 𝒸) (cast_le hm hr) r _ rfl x i _ (interval_cast hm hr i).1 (interval_cast hm hr i).2
  | .eventually e i => by
    rw [castExpr, compute_eventually, compute_eventually, compute_cast r e, Outcome.bind_map', Outcome.map'_bind]
    congr 1
    funext x
    exact SMap.temporal (φ := 𝒸) (cast_ge hm hr) r _ rfl x i _ (interval_cast hm hr i).1 (interval_cast hm hr i).2
  | .untl e e' i => by
    rw [castExpr, compute_untl, compute_untl, compute_cast r e, compute_cast r e', Outcome.bind_map',
      Outcome.map'_bind]
    congr 1
    funext x
    rw [Outcome.bind_map', Outcome.map'_bind]
    congr 1
    funext y
    have hu := computeUntil_cast hm hr r.ndebug x y
    unfold RobustnessOp.untilOp
    rw [(interval_cast hm hr i).1, (interval_cast hm hr i).2]
    split
    · exact hu
    · simp only
      have h2 : (castD ι i.asDouble.1).eq 0 = i.asDouble.1.eq 0 := by
        conv_rhs => rw [← CastD.eq hm i.asDouble.1 0, CastD.zero]
      rw [CastD.isinf, h2]
      split
      · exact hu
      · rfl

theorem computeArgs_cast (r : RobustnessOp K) : ∀ es : List (Expr K),
    RobustnessOp.computeArgs ⟨r.ndebug, r.fuel, castD ι r.minTime, castD ι r.maxTime, castTrace ι r.trace⟩
      (castExprs ι es) = (r.computeArgs es).map' (fun ys => ys.map (SMap.sig 𝒸))
  | [] => rfl
  | e :: es => by
    rw [castExprs, RobustnessOp.computeArgs, RobustnessOp.computeArgs, compute_cast r e, computeArgs_cast r es]
    cases r.compute e with
    | ok x => cases r.computeArgs es <;> rfl
    | _ => rfl
end

end

end Verif
