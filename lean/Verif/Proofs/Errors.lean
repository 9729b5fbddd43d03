import Verif.Proofs.Assert
import Verif.Proofs.AnyRound
import Verif.Spec.Errors

/-! # Which exceptions the robustness computation can throw -/

set_option linter.unusedSectionVars false

namespace Verif
open Spec

/-- The outcome is not a failed assertion, and if it is an exception, then one of the list. -/
def Calm {α : Type} (l : List Exn) : Outcome α → Prop
  | .abort => False
  | .throw e => e ∈ l
  | _ => True

namespace Calm
variable {α β : Type} {l l' : List Exn}

theorem ok (a : α) : Calm l (.ok a) := trivial

theorem mono (h : ∀ e ∈ l, e ∈ l') {x : Outcome α} (hx : Calm l x) : Calm l' x := by
  cases x <;> simp_all [Calm]

theorem bind {x : Outcome α} {f : α → Outcome β} (hx : Calm l x) (hf : ∀ a, x = .ok a → Calm l (f a)) :
    Calm l (x >>= f) := by
  cases x with
  | ok a => exact hf a rfl
  | throw e => exact hx
  | abort => exact hx
  | ub u => trivial
  | diverge => trivial

theorem map' {x : Outcome α} {f : α → β} (hx : Calm l x) : Calm l (x.map' f) := by
  cases x <;> simp_all [Calm, Outcome.map']

theorem assert_ {nd c : Bool} (h : c = true) : Calm l (assert_ nd c) := by rw [assert_true nd h]; trivial

end Calm

section
variable {α : Type} {l : List Exn}

theorem lowerBound_calm (p : α → Bool) (w : List α) : Calm l (lowerBound p w) := by
  unfold lowerBound; split <;> trivial

theorem monoWedgeSearchLoop_calm (comp : α → α → Bool) (w : List α) (v : α) : ∀ (fuel i : Nat),
    Calm l (monoWedgeSearchLoop comp w v fuel i) := by
  intro fuel
  induction fuel with
  | zero =>
    intro i
    unfold monoWedgeSearchLoop
    simp only
    split
    · contradiction
    · trivial
    · exact lowerBound_calm _ _
  | succ n ih =>
    intro i
    unfold monoWedgeSearchLoop
    simp only
    split
    · rename_i h _
      split
      · trivial
      · split
        · trivial
        · cases h; exact ih _
    · trivial
    · exact lowerBound_calm _ _

theorem monoWedgeUpdate_calm (comp : α → α → Bool) (w : List α) (v : α) : Calm l (monoWedgeUpdate comp w v) := by
  unfold monoWedgeUpdate monoWedgeSearch
  refine Calm.bind ?_ fun _ _ => trivial
  split
  · trivial
  · exact monoWedgeSearchLoop_calm _ _ _ _ _
end

variable {K : Type} [Field K] [LinearOrder K] [IsStrictOrderedRing K] [Arith K]
variable {l : List Exn} (hl : Exn.invalidArgument ∈ l)
include hl

theorem pushBack_calm (s : Signal K) (x : Sample K) : Calm l (s.pushBack x) := by
  unfold Signal.pushBack
  split
  · trivial
  · split
    · exact hl
    · trivial

theorem ofSamples_calm (xs : List (Sample K)) : Calm l (Signal.ofSamples xs) := by
  rw [ofSamples_eq]
  split
  · trivial
  · exact hl

omit hl in
theorem derefPrev_calm (p : Option (Sample K)) : Calm l (derefPrev p) := by
  unfold derefPrev; split <;> trivial

omit hl in
theorem vback_calm (p : List (Sample K)) : Calm l (vback p) := by
  unfold vback; split <;> trivial

omit hl in
theorem back_calm (s : Signal K) : Calm l s.back := by
  unfold Signal.back; split <;> trivial

omit hl in
theorem syncHead_calm (b : D K) (p q : Option (Sample K)) (r : List (Sample K)) : Calm l (syncHead b p r q) := by
  unfold syncHead
  split
  · trivial
  · split
    · split
      · trivial
      · exact Calm.bind (derefPrev_calm _) fun _ _ => trivial
    · trivial

omit hl in
theorem consPair_calm (a b : Sample K) {r : Outcome (List (Sample K) × List (Sample K))} (h : Calm l r) :
    Calm l (consPair a b r) := by
  unfold consPair
  exact Calm.bind h fun _ _ => trivial

omit hl in
theorem syncLoop_calm : ∀ (is : List (Sample K)) (pi pj : Option (Sample K)) (js : List (Sample K)),
    Calm l (syncLoop pi is pj js) := by
  intro is
  induction is with
  | nil => intro _ _ _; simp only [syncLoop]; trivial
  | cons i is ih =>
    intro pi pj js
    rw [syncLoop]
    induction js generalizing pj with
    | nil => rw [syncInner]; trivial
    | cons j js ihj =>
      rw [syncInner]
      split
      · exact consPair_calm _ _ (ih _ _ _)
      split
      · exact Calm.bind (derefPrev_calm _) fun _ _ => consPair_calm _ _ (ih _ _ _)
      split
      · exact Calm.bind (derefPrev_calm _) fun _ _ => consPair_calm _ _ (ihj _)
      · trivial

theorem synchronize_calm (x y : Signal K) : Calm l (synchronize x y) := by
  unfold synchronize
  refine Calm.bind (lowerBound_calm _ _) fun _ _ => Calm.bind (syncHead_calm _ _ _ _) fun _ _ =>
    Calm.bind (lowerBound_calm _ _) fun _ _ => Calm.bind (syncHead_calm _ _ _ _) fun _ _ =>
    Calm.bind (syncLoop_calm _ _ _ _) fun _ _ => ?_
  unfold syncFinish
  exact Calm.bind (vback_calm _) fun _ _ => Calm.bind (vback_calm _) fun _ _ => Calm.bind (vback_calm _) fun _ _ =>
    Calm.bind (vback_calm _) fun _ _ => Calm.bind (ofSamples_calm hl _) fun _ _ =>
    Calm.bind (ofSamples_calm hl _) fun _ _ => trivial

theorem insertCrossing_calm (out : Signal K) (s p : Option (Sample K)) (t : D K) :
    Calm l (insertCrossing out s p t) := by
  unfold insertCrossing
  refine Calm.bind (derefPrev_calm _) fun _ _ => Calm.bind (derefPrev_calm _) fun _ _ => ?_
  simp only
  split
  · exact pushBack_calm hl _ _
  · trivial

theorem minmaxPairLoop_calm (comp : Cmp K) : ∀ (is js : List (Sample K)) (out : Signal K) (c : Chosen)
    (pi pj : Option (Sample K)), Calm l (minmaxPairLoop comp out c pi pj is js) := by
  intro is
  induction is with
  | nil => intro js out c pi pj; simp only [minmaxPairLoop]; trivial
  | cons i is ih =>
    intro js out c pi pj
    cases js with
    | nil => simp only [minmaxPairLoop]; trivial
    | cons j js =>
      rw [minmaxPairLoop]
      have next : ∀ (s : Signal K) (a : Sample K) (c : Chosen),
          Calm l (s.pushBack a >>= fun out => minmaxPairLoop comp out c (some i) (some j) is js) :=
        fun s a c => Calm.bind (pushBack_calm hl _ _) fun _ _ => ih _ _ _ _ _
      simp only
      split
      · split
        · exact Calm.bind (insertCrossing_calm hl _ _ _ _) fun _ _ => next _ _ _
        · exact next _ _ _
      · split
        · exact Calm.bind (insertCrossing_calm hl _ _ _ _) fun _ _ => next _ _ _
        · exact next _ _ _

theorem minmaxPair_calm (nd : Bool) (comp : Cmp K) (x y : Signal K) : Calm l (minmaxPair nd comp x y false) := by
  rw [minmaxPair_unsynced]
  exact Calm.bind (synchronize_calm hl _ _) fun _ _ => minmaxPairLoop_calm hl _ _ _ _ _ _ _

theorem minmaxFold_calm (nd : Bool) (comp : Cmp K) : ∀ (xs : List (Signal K)) (acc : Signal K),
    Calm l (minmaxFold nd comp false acc xs)
  | [], _ => trivial
  | x :: xs, acc => by
    rw [minmaxFold]
    exact Calm.bind (minmaxPair_calm hl _ _ _ _) fun _ _ => minmaxFold_calm nd comp xs _

theorem minmaxVec_calm (nd : Bool) (comp : Cmp K) (xs : List (Signal K)) : Calm l (minmaxVec nd comp xs false) := by
  unfold minmaxVec
  split
  · exact pushBack_calm hl _ _
  · trivial
  · exact minmaxPair_calm hl _ _ _ _
  · exact minmaxFold_calm hl _ _ _ _

theorem minmaxSeq_calm (comp : Cmp K) (x : Signal K) : Calm l (minmaxSeq comp x) := by
  unfold minmaxSeq
  exact Calm.bind (back_calm _) fun _ _ => ofSamples_calm hl _

theorem resizeLoop_calm (a b : D K) : ∀ (xs : List (Sample K)) (sig : Signal K) (p : Option (Sample K)),
    Calm l (Signal.resizeLoop a b sig p xs) := by
  intro xs
  induction xs with
  | nil => intro _ _; trivial
  | cons i xs ih =>
    intro sig p
    unfold Signal.resizeLoop
    simp only
    repeat' split
    all_goals first
      | exact Calm.bind (pushBack_calm hl _ _) fun _ _ => ih _ _
      | exact ih _ _
      | trivial

theorem resizeShift_calm (s : Signal K) (a b f d : D K) : Calm l (s.resizeShift a b f d) := by
  unfold Signal.resizeShift Signal.resize
  refine Calm.bind ?_ fun _ _ => trivial
  simp only
  split
  · exact Calm.bind (pushBack_calm hl _ _) fun _ _ => resizeLoop_calm hl _ _ _ _ _
  · exact resizeLoop_calm hl _ _ _ _ _

theorem simplifyLoop_calm : ∀ (xs : List (Sample K)) (sig : Signal K), Calm l (Signal.simplifyLoop sig xs) := by
  intro xs
  induction xs with
  | nil => intro _; trivial
  | cons i xs ih =>
    intro sig
    rw [Signal.simplifyLoop]
    split
    · exact Calm.bind (pushBack_calm hl _ _) fun _ _ => ih _
    · split
      · exact Calm.bind (pushBack_calm hl _ _) fun _ _ => ih _
      · exact ih _

theorem simplify_calm (s : Signal K) : Calm l s.simplify := by
  unfold Signal.simplify
  refine Calm.bind (simplifyLoop_calm hl _ _) fun _ _ => ?_
  split
  · exact Calm.bind (back_calm _) fun _ _ => pushBack_calm hl _ _
  · trivial

omit hl in
theorem windowFill_calm (comp : Cmp K) (b : D K) : ∀ (xs : List (Sample K)) (p : Option (Sample K))
    (w : List (Sample K)), Calm l (windowFill comp b p xs w) := by
  intro xs
  induction xs with
  | nil => intro _ _; trivial
  | cons i xs ih =>
    intro p w
    rw [windowFill]
    split
    · exact Calm.bind (monoWedgeUpdate_calm _ _ _) fun _ _ => ih _ _
    · trivial

omit hl in
theorem popExpired_calm (b : D K) : ∀ w : List (Sample K), Calm l (popExpired b w) := by
  intro w
  induction w with
  | nil => trivial
  | cons f w ih =>
    rw [popExpired]
    split
    · exact ih
    · trivial

theorem windowLoop_calm (comp : Cmp K) (a : D K) : ∀ (fuel : Nat) (p : Option (Sample K))
    (xs w : List (Sample K)) (z : Signal K), Calm l (windowLoop comp a fuel p xs w z) := by
  intro fuel
  induction fuel with
  | zero => intro p xs w z; cases xs <;> (rw [windowLoop]; trivial)
  | succ n ih =>
    intro p xs w z
    cases xs with
    | nil => rw [windowLoop]; trivial
    | cons i xs =>
      rw [windowLoop]
      refine Calm.bind (vback_calm _) fun _ _ => ?_
      have next : ∀ (s : Sample K) (rest : List (Sample K)),
          Calm l (monoWedgeUpdate comp w s >>= fun w => popExpired (s.time - a) w >>= fun w =>
            z.pushBackTV s.time s.value >>= fun z => windowLoop comp a n (some s) rest w z) :=
        fun s rest => Calm.bind (monoWedgeUpdate_calm _ _ _) fun _ _ =>
          Calm.bind (popExpired_calm _ _) fun _ _ => Calm.bind (pushBack_calm hl _ _) fun _ _ => ih _ _ _ _
      simp only
      split
      · exact Calm.bind (Calm.map' (derefPrev_calm _)) fun _ _ => next _ _
      · exact next _ _

theorem minmaxSeqWindow_calm (fuel : Nat) (comp : Cmp K) (x : Signal K) (a b : D K) :
    Calm l (minmaxSeqWindow fuel comp x a b) := by
  unfold minmaxSeqWindow
  simp only
  have next : ∀ x' : Signal K, Calm l (windowFill comp (x.beginTime + (b - a)) none x'.samples [] >>= fun p =>
      windowLoop comp a fuel p.1 p.2.1 p.2.2 Signal.empty >>= fun z => z.simplify) :=
    fun x' => Calm.bind (windowFill_calm _ _ _ _ _) fun _ _ =>
      Calm.bind (windowLoop_calm hl _ _ _ _ _ _ _) fun _ _ => simplify_calm hl _
  split
  · exact next _
  · exact Calm.bind (back_calm _) fun _ _ => Calm.bind (resizeShift_calm hl _ _ _ _ _) fun _ _ => next _

theorem temporal_calm (r : RobustnessOp K) (comp : Cmp K) (y : Signal K) (i : Interval K)
    (hi : i.asDouble.2 ≠ .ninf ∨ Exn.logicError ∈ l) : Calm l (r.temporal comp y i) := by
  unfold RobustnessOp.temporal
  split
  · exact minmaxSeq_calm hl _ _
  · rename_i hv
    simp only
    split
    · rename_i hlt
      rcases hi with hi | hi
      · exfalso
        simp only [Bool.not_eq_true, Bool.not_eq_false', Interval.hasValue, Interval.isZeroToInf,
          Bool.and_eq_true] at hv
        have h2 := hv.2
        have hp : i.asDouble.2 = .pinf := by
          unfold Interval.asDouble at hi ⊢
          revert h2 hi
          cases Interval.numAsDouble i.high <;> simp [D.isinf]
        rw [hp] at hlt
        revert hlt
        cases i.asDouble.1 <;> simp [HSub.hSub, Sub.sub, D.sub, HAdd.hAdd, Add.add, D.add, Neg.neg, D.neg, D.lt,
          D.zero_def]
      · exact hi
    · split
      · trivial
      · split
        · exact minmaxSeq_calm hl _ _
        · exact minmaxSeqWindow_calm hl _ _ _ _ _

theorem computeUntil_calm (nd : Bool) (x y : Signal K) : Calm l (computeUntil nd x y) := by
  rw [computeUntil_unsynced]
  exact Calm.bind (synchronize_calm hl _ _) fun _ _ => ofSamples_calm hl _

theorem untilOp_calm (r : RobustnessOp K) (x y : Signal K) (i : Interval K)
    (hz : (Arith.rnd 0 : D K) = .fin 0 ∨ Exn.notImplemented ∈ l) : Calm l (r.untilOp x y i) := by
  unfold RobustnessOp.untilOp
  split
  · exact computeUntil_calm hl _ _ _
  · rename_i hv
    simp only
    split
    · exact computeUntil_calm hl _ _ _
    · rename_i hc
      rcases hz with hz | hz
      · exfalso
        simp only [Bool.not_eq_true, Bool.not_eq_false', Interval.hasValue, Interval.isZeroToInf,
          Bool.and_eq_true] at hv
        apply hc
        rw [Bool.and_eq_true]
        refine ⟨hv.2, ?_⟩
        have h1 := hv.1
        unfold Interval.asDouble
        cases hlow : i.low with
        | ull n =>
          rw [hlow] at h1
          simp only [Interval.numIsZero, beq_iff_eq] at h1
          subst h1
          simp [Interval.numAsDouble, hz, D.zero_def]
        | dbl d =>
          rw [hlow] at h1
          simpa [Interval.numIsZero, Interval.numAsDouble] using h1
      · exact hz

/-- What `compute` can throw. -/
theorem compute_calm (r : RobustnessOp K) (hz : (Arith.rnd 0 : D K) = .fin 0 ∨ Exn.notImplemented ∈ l) :
    ∀ phi : Expr K, Intervals (fun i => i.asDouble.2 ≠ .ninf ∨ Exn.logicError ∈ l) phi →
      ((∀ n, Uses n phi → r.trace.lookup n ≠ none) ∨ Exn.outOfRange ∈ l) → Calm l (r.compute phi) := by
  have args : ∀ es : List (Expr K), (∀ e ∈ es, Calm l (r.compute e)) → Calm l (r.computeArgs es) := by
    intro es
    induction es with
    | nil => intro _; simp only [RobustnessOp.computeArgs]; trivial
    | cons e es ih =>
      intro h
      rw [RobustnessOp.computeArgs]
      exact Calm.bind (h e (by simp)) fun _ _ => Calm.bind (ih fun e' he => h e' (by simp [he])) fun _ _ => trivial
  intro phi h
  induction h with
  | const b => intro _; rw [RobustnessOp.compute]; exact ofSamples_calm hl _
  | pred n op c =>
    intro hu
    rw [RobustnessOp.compute, RobustnessOp.pred]
    refine Calm.bind ?_ fun _ _ => ofSamples_calm hl _
    unfold Trace.at_
    split
    · rename_i hn
      rcases hu with hu | hu
      · exact (hu n (.pred op c) hn).elim
      · exact hu
    · trivial
  | not _ ih =>
    intro hu
    rw [RobustnessOp.compute]
    exact Calm.bind (ih (hu.imp_left fun h n hn => h n (.not hn))) fun _ _ => ofSamples_calm hl _
  | and _ ih =>
    intro hu
    rw [RobustnessOp.compute]
    refine Calm.bind (args _ fun e he => ih e he (hu.imp_left fun h n hn => h n (.and he hn))) fun ys h =>
      Calm.bind ?_ fun _ _ => minmaxVec_calm hl _ _ _
    exact Calm.assert_ (beq_iff_eq.2 (computeArgs_size h))
  | or _ ih =>
    intro hu
    rw [RobustnessOp.compute]
    refine Calm.bind (args _ fun e he => ih e he (hu.imp_left fun h n hn => h n (.or he hn))) fun ys h =>
      Calm.bind ?_ fun _ _ => minmaxVec_calm hl _ _ _
    exact Calm.assert_ (beq_iff_eq.2 (computeArgs_size h))
  | always hi _ ih =>
    intro hu
    rw [RobustnessOp.compute]
    exact Calm.bind (ih (hu.imp_left fun h n hn => h n (.always hn))) fun _ _ => temporal_calm hl _ _ _ _ hi
  | eventually hi _ ih =>
    intro hu
    rw [RobustnessOp.compute]
    exact Calm.bind (ih (hu.imp_left fun h n hn => h n (.eventually hn))) fun _ _ => temporal_calm hl _ _ _ _ hi
  | untl hi _ _ ih ih' =>
    intro hu
    rw [RobustnessOp.compute]
    exact Calm.bind (ih (hu.imp_left fun h n hn => h n (.untl_left hn))) fun _ _ =>
      Calm.bind (ih' (hu.imp_left fun h n hn => h n (.untl_right hn))) fun _ _ => untilOp_calm hl _ _ _ _ hz

omit hl in
/-- Weaker conditions on the intervals. -/
theorem Intervals.mono {P Q : Interval K → Prop} (hPQ : ∀ i, P i → Q i) {phi : Expr K} (h : Intervals P phi) :
    Intervals Q phi := by
  induction h with
  | const b => exact .const b
  | pred n op c => exact .pred n op c
  | not _ ih => exact .not ih
  | and _ ih => exact .and ih
  | or _ ih => exact .or ih
  | always hi _ ih => exact .always (hPQ _ hi) ih
  | eventually hi _ ih => exact .eventually (hPQ _ hi) ih
  | untl hi _ _ ih ih' => exact .untl (hPQ _ hi) ih ih'

omit hl [IsStrictOrderedRing K] [Arith K] in
mutual
/-- No condition on the intervals. -/
theorem Intervals.all {P : Interval K → Prop} (hP : ∀ i, P i) : ∀ phi : Expr K, Intervals P phi
  | .const b => .const b
  | .pred n op c => .pred n op c
  | .not e => .not (Intervals.all hP e)
  | .and es => .and (Intervals.allList hP es)
  | .or es => .or (Intervals.allList hP es)
  | .always e i => .always (hP i) (Intervals.all hP e)
  | .eventually e i => .eventually (hP i) (Intervals.all hP e)
  | .untl e e' i => .untl (hP i) (Intervals.all hP e) (Intervals.all hP e')
theorem Intervals.allList {P : Interval K → Prop} (hP : ∀ i, P i) : ∀ es : List (Expr K),
    ∀ e ∈ es, Intervals P e
  | [], _, h => by cases h
  | e :: es, e', h => by
    rcases List.mem_cons.1 h with h | h
    · rw [h]; exact Intervals.all hP e
    · exact Intervals.allList hP es e' h
end

end Verif
