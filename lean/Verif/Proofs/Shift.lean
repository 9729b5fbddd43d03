import Verif.Proofs.Temporal
import Verif.Proofs.Until
import Verif.Spec.Formula

/-! # Shifting in time -/

set_option linter.unusedSectionVars false

namespace Verif
open Spec

variable {K : Type} [Field K] [LinearOrder K] [IsStrictOrderedRing K] [Arith K] [ExactArith K]

/-- Shift all timestamps by `dt`. -/
def shiftMap (dt : K) : SMap K K where
  α := fun t => t + .fin dt
  ρ := id
  β := id
  δ := id
  lt' := fun a b => by cases a <;> cases b <;> simp [D.lt] <;> rfl
  eq' := fun a b => by cases a <;> cases b <;> simp [D.eq] <;> rfl
  diff' := fun a b => by cases a <;> cases b <;> simp [D.sub_def] <;> rfl
  add' := fun t a => by
    cases t <;> cases a <;> first | rfl | (simp only [id, D.add_fin]; rfl) | (simp only [id, D.add_fin]; congr 1; ring)
  ρlt' := fun _ _ => rfl
  ρeq' := fun _ _ => rfl
  ρneg' := fun _ => rfl
  ρsub' := fun _ _ => rfl
  ρzero' := rfl
  slope' := fun _ _ _ => rfl
  interp' := fun _ _ _ => rfl
  zero' := rfl
  veq' := fun _ _ => rfl
  deq' := fun _ _ => rfl

/-- Infinite or NaN. -/
def NonFin (d : D K) : Prop := ∀ q, d ≠ .fin q

theorem NonFin.mul {a : D K} (h : NonFin a) (s : D K) : NonFin (a * s) := by
  intro q e
  have hi : ∀ (b : Bool) (k : K), D.infMul b k ≠ .fin q := by
    intro b k; unfold D.infMul; split_ifs <;> simp
  cases a with
  | fin u => exact h u rfl
  | nan => simp at e
  | pinf =>
    cases s with
    | fin u => exact hi _ _ e
    | nan => simp at e
    | pinf => cases e
    | ninf => cases e
  | ninf =>
    cases s with
    | fin u => exact hi _ _ e
    | nan => simp at e
    | pinf => cases e
    | ninf => cases e

theorem NonFin.neg {a : D K} (h : NonFin a) : NonFin (-a) := by
  intro q e
  cases a with
  | fin u => exact h u rfl
  | _ => simp at e

theorem NonFin.add {a b : D K} (h : NonFin a ∨ NonFin b) : NonFin (a + b) := by
  intro q e
  cases a <;> cases b <;> rcases h with h | h <;> first | exact h _ rfl | (exact absurd e (by simp)) | (cases e)

theorem NonFin.sub {a b : D K} (h : NonFin a ∨ NonFin b) : NonFin (a - b) := by
  rw [D.sub_def]; exact NonFin.add (h.imp id NonFin.neg)

theorem NonFin.div {a b : D K} (ha : NonFin a) (hb : NonFin b) : a / b = .nan := by
  cases a <;> cases b <;> first | rfl | exact absurd rfl (ha _) | exact absurd rfl (hb _)

theorem timeIntersect_nonFin {p q : Sample K} (h : NonFin p.derivative ∨ NonFin q.derivative) :
    p.timeIntersect q = .nan := by
  unfold Sample.timeIntersect
  apply NonFin.div
  · rcases h with h | h
    · exact .sub (.inr (h.mul _))
    · exact .sub (.inl (.add (.inr (h.mul _))))
  · exact .sub h.symm

/-- The crossing moves with the signals. -/
theorem timeIntersect_shift (dt : K) {p q i j : Sample K} (h : Adj p q i j)
    (hd : q.derivative - p.derivative ≠ .fin 0) :
    ((shiftMap dt).smp p).timeIntersect ((shiftMap dt).smp q) = (shiftMap dt).α (p.timeIntersect q) := by
  by_cases hf : NonFin p.derivative ∨ NonFin q.derivative
  · rw [timeIntersect_nonFin hf, timeIntersect_nonFin (p := (shiftMap dt).smp p) (q := (shiftMap dt).smp q) hf]; rfl
  · simp only [NonFin, not_or, not_forall, not_not] at hf
    obtain ⟨⟨u, e2⟩, ⟨v, e1⟩⟩ := hf
    obtain ⟨t0, t1, hlt, ep, eq, ei, ej, dp, dq⟩ := h
    rw [e2, ei, ep] at dp
    rw [e1, ej, eq] at dq
    obtain ⟨a, b, h1, h2, h3⟩ := slope_fin hlt dp.symm
    obtain ⟨c', d, h4, h5, h6⟩ := slope_fin hlt dq.symm
    have hc : v - u ≠ 0 := by
      intro h0; apply hd; rw [e1, e2, D.sub_fin, h0]
    unfold Sample.timeIntersect
    simp only [SMap.smp, shiftMap, id, h2, h5, e1, e2, ep, eq, D.sub_fin, D.mul_fin, D.add_fin,
      D.div_fin _ _ hc]
    congr 1
    field_simp
    ring

section
variable (dt : K)

theorem shift_ge (a b : Sample K) :
    Sample.ge ((shiftMap dt).smp a) ((shiftMap dt).smp b) = Sample.ge a b := rfl
theorem shift_le (a b : Sample K) :
    Sample.le ((shiftMap dt).smp a) ((shiftMap dt).smp b) = Sample.le a b := rfl

theorem shift_cmp {comp : Cmp K} (hm : MinOrMax comp) (a b : Sample K) :
    comp ((shiftMap dt).smp a) ((shiftMap dt).smp b) = comp a b := by
  rcases hm with rfl | rfl <;> rfl

theorem shift_finT {s : Signal K} (h : FinT s) : FinT ((shiftMap dt).sig s) :=
  wf_times_map (φ := shiftMap dt) h.1 h.2 (fun t => ⟨t + dt, by simp [shiftMap]⟩)

theorem minmaxPair_shift {comp : Cmp K} (hm : MinOrMax comp) (nd : Bool) {x y : Signal K} (hx : FinT x)
    (hy : FinT y) (nx : x.samples ≠ []) (ny : y.samples ≠ []) :
    minmaxPair nd comp ((shiftMap dt).sig x) ((shiftMap dt).sig y) false =
      (minmaxPair nd comp x y false).map' (shiftMap dt).sig :=
  SMap.minmaxPair (φ := shiftMap dt) (shift_cmp dt hm)
    (fun _ _ _ _ h hch => ⟨timeIntersect_shift dt h (den_ne hm h hch),
      timeIntersect_shift dt h.symm (den_ne' hm h hch)⟩)
    (fun t => ⟨t + dt, by simp [shiftMap]⟩) nd hx hy (.inr ⟨nx, ny⟩)

theorem minmaxFold_shift {comp : Cmp K} (hm : MinOrMax comp) (nd : Bool) : ∀ (xs : List (Signal K))
    (acc : Signal K), FinT acc → acc.samples ≠ [] → (∀ x ∈ xs, FinT x ∧ x.samples ≠ []) →
    minmaxFold nd comp false ((shiftMap dt).sig acc) (xs.map (shiftMap dt).sig) =
      (minmaxFold nd comp false acc xs).map' (shiftMap dt).sig := by
  intro xs
  induction xs with
  | nil => intro acc _ _ _; rfl
  | cons x xs ih =>
    intro acc h1 h2 hx
    rw [List.map_cons, minmaxFold, minmaxFold,
      minmaxPair_shift dt hm nd h1 (hx x (by simp)).1 h2 (hx x (by simp)).2, Outcome.bind_map',
      Outcome.map'_bind]
    apply Outcome.bind_congr_ok
    intro z hz
    obtain ⟨h3, h4⟩ := minmaxPair_finT_exact hm h1 (hx x (by simp)).1 hz
    exact ih z h3 h4 fun y hy => hx y (by simp [hy])

theorem minmaxVec_shift {comp : Cmp K} (hm : MinOrMax comp) (nd : Bool) (xs : List (Signal K))
    (hne : xs ≠ []) (hx : ∀ x ∈ xs, FinT x ∧ x.samples ≠ []) :
    minmaxVec nd comp (xs.map (shiftMap dt).sig) false =
      (minmaxVec nd comp xs false).map' (shiftMap dt).sig := by
  match xs, hne with
  | [x], _ => rfl
  | [x, y], _ =>
    exact minmaxPair_shift dt hm nd (hx x (by simp)).1 (hx y (by simp)).1 (hx x (by simp)).2
      (hx y (by simp)).2
  | x :: y :: w :: r, _ =>
    exact minmaxFold_shift dt hm nd (y :: w :: r) x (hx x (by simp)).1 (hx x (by simp)).2
      fun s hs => hx s (by simp [hs])

theorem untilLoop_shift : ∀ (is js : List (Sample K)) (a b : D K),
    untilLoop a b (is.map (shiftMap dt).smp) (js.map (shiftMap dt).smp) =
      (untilLoop a b is js).map (shiftMap dt).smp := by
  intro is
  induction is with
  | nil => intro js a b; simp [untilLoop]
  | cons i is ih =>
    intro js a b
    cases js with
    | nil => simp [untilLoop]
    | cons j js =>
      simp only [List.map_cons, untilLoop, ih]
      rfl

theorem computeUntil_shift (nd : Bool) {x y : Signal K} (hx : FinT x) (hy : FinT y)
    (nx : x.samples ≠ []) (ny : y.samples ≠ []) :
    computeUntil nd ((shiftMap dt).sig x) ((shiftMap dt).sig y) =
      (computeUntil nd x y).map' (shiftMap dt).sig := by
  rw [computeUntil_finT nd hx hy, computeUntil_finT nd (shift_finT dt hx) (shift_finT dt hy),
    SMap.synchronize (shiftMap dt) (.inr ⟨nx, ny⟩), Outcome.bind_map', Outcome.map'_bind]
  congr 1
  funext p
  obtain ⟨a, b⟩ := p
  show Signal.ofSamples (untilLoop .pinf .ninf (a.samples.map (shiftMap dt).smp).reverse
    (b.samples.map (shiftMap dt).smp).reverse).reverse = _
  rw [← List.map_reverse, ← List.map_reverse, untilLoop_shift, ← List.map_reverse, SMap.ofSamples]

/-- The trace with all signals shifted. -/
def shiftTrace (trace : Trace K) : Trace K := trace.map fun e => (e.1, (shiftMap dt).sig e.2)

theorem shiftTrace_at (trace : Trace K) (n : String) :
    (shiftTrace dt trace).at_ n = (trace.at_ n).map' (shiftMap dt).sig := by
  have h : (shiftTrace dt trace).lookup n = (trace.lookup n).map (shiftMap dt).sig := by
    induction trace with
    | nil => rfl
    | cons e l ih =>
      obtain ⟨m, x⟩ := e
      simp only [shiftTrace, List.map_cons, List.lookup_cons]
      by_cases hn : (n == m) = true <;> simp [hn]
      exact ih
  unfold Trace.at_
  rw [h]
  cases trace.lookup n <;> rfl

theorem minMaxTime_shift (trace : Trace K) (hne : TraceNe trace) :
    minMaxTime (shiftTrace dt trace) =
      ((shiftMap dt).α (minMaxTime trace).1, (shiftMap dt).α (minMaxTime trace).2) := by
  unfold minMaxTime shiftTrace
  rw [List.foldl_map]
  suffices H : ∀ (l : Trace K) (acc : D K × D K), TraceNe l →
      l.foldl (fun acc e => (D.min acc.1 ((shiftMap dt).sig e.2).beginTime,
          D.max acc.2 ((shiftMap dt).sig e.2).endTime)) ((shiftMap dt).α acc.1, (shiftMap dt).α acc.2) =
        ((shiftMap dt).α (l.foldl (fun acc e => (D.min acc.1 e.2.beginTime, D.max acc.2 e.2.endTime)) acc).1,
         (shiftMap dt).α (l.foldl (fun acc e => (D.min acc.1 e.2.beginTime, D.max acc.2 e.2.endTime)) acc).2)
      from H trace (.pinf, .ninf) hne
  intro l
  induction l with
  | nil => intro acc _; rfl
  | cons e l ih =>
    intro acc h
    rw [List.foldl_cons, List.foldl_cons, ← ih _ fun e' he' => h e' (by simp [he'])]
    congr 1
    have he := h e (by simp)
    rw [SMap.beginTime _ he, SMap.endTime _ he, SMap.max']
    unfold D.min
    rw [SMap.lt']
    split <;> rfl

mutual
theorem compute_shift (r : RobustnessOp K) (ht : TraceFin r.trace) (hn : TraceNe r.trace)
    (hm : (r.minTime, r.maxTime) = (.pinf, .ninf) ∨ ∃ a b, (r.minTime, r.maxTime) = (.fin a, .fin b)) :
    ∀ e : Expr K, Arity e →
    RobustnessOp.compute ⟨r.ndebug, r.fuel, (shiftMap dt).α r.minTime, (shiftMap dt).α r.maxTime,
      shiftTrace dt r.trace⟩ e = (r.compute e).map' (shiftMap dt).sig
  | .const b, _ => by
    rw [RobustnessOp.compute, RobustnessOp.compute, RobustnessOp.const, RobustnessOp.const]
    exact SMap.ofSamples (shiftMap dt) [⟨r.minTime, _, 0⟩, ⟨r.maxTime, _, 0⟩]
  | .pred n op c, _ => by
    rw [RobustnessOp.compute, RobustnessOp.compute, RobustnessOp.pred, RobustnessOp.pred, shiftTrace_at,
      Outcome.bind_map', Outcome.map'_bind]
    congr 1
    funext x
    rw [← SMap.ofSamples]
    simp only [SMap.sig_samples, List.map_map]
    rfl
  | .not e, h => by
    have h' : Arity e := by cases h; assumption
    rw [compute_not, compute_not, compute_shift r ht hn hm e h', Outcome.bind_map', Outcome.map'_bind]
    congr 1
    funext x
    unfold RobustnessOp.negate
    rw [← SMap.ofSamples]
    simp only [SMap.sig_samples, List.map_map]
    rfl
  | .and args, h => by
    have h' : 2 ≤ args.length ∧ ∀ e ∈ args, Arity e := by
      cases h with | and h1 h2 => exact ⟨h1, h2⟩
    rw [compute_and, compute_and, computeArgs_shift r ht hn hm args h'.2, Outcome.bind_map',
      Outcome.map'_bind]
    apply Outcome.bind_congr_ok
    intro ys hys
    refine minmaxVec_shift dt (.inl rfl) _ ys ?_ fun x hx => ?_
    · rintro rfl
      have := computeArgs_length r args [] hys
      rw [← this] at h'; simp at h'
    · have := computeArgs_finT r ht hm args ys hys x hx
      exact ⟨this.1, this.2 hn⟩
  | .or args, h => by
    have h' : 2 ≤ args.length ∧ ∀ e ∈ args, Arity e := by
      cases h with | or h1 h2 => exact ⟨h1, h2⟩
    rw [compute_or, compute_or, computeArgs_shift r ht hn hm args h'.2, Outcome.bind_map',
      Outcome.map'_bind]
    apply Outcome.bind_congr_ok
    intro ys hys
    refine minmaxVec_shift dt (.inr rfl) _ ys ?_ fun x hx => ?_
    · rintro rfl
      have := computeArgs_length r args [] hys
      rw [← this] at h'; simp at h'
    · have := computeArgs_finT r ht hm args ys hys x hx
      exact ⟨this.1, this.2 hn⟩
  | .always e i, h => by
    have h' : Arity e := by cases h; assumption
    rw [compute_always, compute_always, compute_shift r ht hn hm e h', Outcome.bind_map', Outcome.map'_bind]
    congr 1
    funext x
    exact SMap.temporal (φ := shiftMap dt) (shift_le dt) r _ rfl x i i rfl rfl
  | .eventually e i, h => by
    have h' : Arity e := by cases h; assumption
    rw [compute_eventually, compute_eventually, compute_shift r ht hn hm e h', Outcome.bind_map',
      Outcome.map'_bind]
    congr 1
    funext x
    exact SMap.temporal (φ := shiftMap dt) (shift_ge dt) r _ rfl x i i rfl rfl
  | .untl e e' i, h => by
    have h' : Arity e ∧ Arity e' := by cases h with | untl h1 h2 => exact ⟨h1, h2⟩
    rw [compute_untl, compute_untl, compute_shift r ht hn hm e h'.1, compute_shift r ht hn hm e' h'.2,
      Outcome.bind_map', Outcome.map'_bind]
    apply Outcome.bind_congr_ok
    intro x hx
    rw [Outcome.bind_map', Outcome.map'_bind]
    apply Outcome.bind_congr_ok
    intro y hy
    have fx := compute_finT r ht hm e x hx
    have fy := compute_finT r ht hm e' y hy
    have hu := computeUntil_shift dt r.ndebug fx.1 fy.1 (fx.2 hn) (fy.2 hn)
    unfold RobustnessOp.untilOp
    split
    · exact hu
    · simp only
      split
      · exact hu
      · rfl

theorem computeArgs_shift (r : RobustnessOp K) (ht : TraceFin r.trace) (hn : TraceNe r.trace)
    (hm : (r.minTime, r.maxTime) = (.pinf, .ninf) ∨ ∃ a b, (r.minTime, r.maxTime) = (.fin a, .fin b)) :
    ∀ es : List (Expr K), (∀ e ∈ es, Arity e) →
    RobustnessOp.computeArgs ⟨r.ndebug, r.fuel, (shiftMap dt).α r.minTime, (shiftMap dt).α r.maxTime,
      shiftTrace dt r.trace⟩ es = (r.computeArgs es).map' (fun ys => ys.map (shiftMap dt).sig)
  | [], _ => rfl
  | e :: es, h => by
    rw [RobustnessOp.computeArgs, RobustnessOp.computeArgs, compute_shift r ht hn hm e (h e (by simp)),
      computeArgs_shift r ht hn hm es fun e' he' => h e' (by simp [he'])]
    cases r.compute e with
    | ok x => cases r.computeArgs es <;> rfl
    | _ => rfl
end

end

end Verif
