import Verif.Model.EvalCost
import Verif.Props.WedgeCost
import Verif.Props.SampleCount
import Verif.Spec.Size

/-!
# The rounds of an evaluation
-/

set_option linter.unusedSectionVars false

namespace Verif
open Spec

namespace Steps
variable {α β : Type}

theorem out_bind (x : Steps α) (f : α → Steps β) : (x >>= f).out = (x.out >>= fun a => (f a).out) := by
  change (Steps.bind x f).out = _
  unfold Steps.bind
  cases x.out <;> rfl

@[simp] theorem out_pure (a : α) : (pure a : Steps α).out = .ok a := rfl
@[simp] theorem out_lift (o : Outcome α) : (lift o).out = o := rfl
@[simp] theorem out_tick (n : Nat) : (tick n).out = .ok () := rfl
@[simp] theorem count_pure (a : α) : (pure a : Steps α).count = 0 := rfl
@[simp] theorem count_lift (o : Outcome α) : (lift o).count = 0 := rfl
@[simp] theorem count_tick (n : Nat) : (tick n).count = n := rfl

theorem bind_le {x : Steps α} {f : α → Steps β} {m k : Nat} (hx : x.count ≤ m)
    (hf : ∀ a, x.out = .ok a → (f a).count ≤ k) : (x >>= f).count ≤ m + k := by
  change (Steps.bind x f).count ≤ _
  unfold Steps.bind
  split
  · rename_i a h
    have := hf a h
    exact Nat.add_le_add hx this
  all_goals simp only; omega

theorem bind_le' {x : Steps α} {f : α → Steps β} {m k n : Nat} (hx : x.count ≤ m)
    (hf : ∀ a, x.out = .ok a → (f a).count ≤ k) (h : m + k ≤ n) : (x >>= f).count ≤ n :=
  (bind_le hx hf).trans h

theorem lift_bind_le {o : Outcome α} {f : α → Steps β} {k : Nat}
    (hf : ∀ a, o = .ok a → (f a).count ≤ k) : (lift o >>= f).count ≤ k :=
  bind_le' (m := 0) le_rfl hf (by omega)

theorem tick_bind_le {n k m : Nat} {f : Unit → Steps β} (hf : (f ()).count ≤ k) (h : n + k ≤ m) :
    (tick n >>= f).count ≤ m :=
  bind_le' le_rfl (fun _ _ => hf) h

end Steps
open Steps

section same
variable {K : Type} [Field K] [LinearOrder K] [Arith K]

theorem pushAllS_out : ∀ (xs : List (Sample K)) (s : Signal K), (pushAllS s xs).out = s.pushAll xs
  | [], s => rfl
  | x :: xs, s => by
    simp only [pushAllS, Signal.pushAll, out_bind, out_tick, out_lift, Outcome.bind_ok, pushAllS_out xs]

@[simp] theorem ofSamplesS_out (xs : List (Sample K)) : (ofSamplesS xs).out = Signal.ofSamples xs := pushAllS_out xs _

@[simp] theorem lowerBoundS_out {α : Type} (p : α → Bool) (l : List α) : (lowerBoundS p l).out = lowerBound p l := by
  unfold lowerBoundS lowerBound
  split
  · simp only [lowerBoundLoopC_fst]
  · rfl

theorem consPairS_out (a b : Sample K) (r : Steps (List (Sample K) × List (Sample K))) :
    (consPairS a b r).out = consPair a b r.out := by
  simp only [consPairS, consPair, out_bind, out_tick, Outcome.bind_ok]
  rfl

theorem syncInnerS_out {next : Option (Sample K) → List (Sample K) → Steps (List (Sample K) × List (Sample K))}
    {next' : Option (Sample K) → List (Sample K) → Outcome (List (Sample K) × List (Sample K))}
    (h : ∀ p l, (next p l).out = next' p l) (pi : Option (Sample K)) (i : Sample K) :
    ∀ (js : List (Sample K)) (pj : Option (Sample K)), (syncInnerS next pi i pj js).out = syncInner next' pi i pj js
  | [], pj => rfl
  | j :: js, pj => by
    rw [syncInnerS, syncInner]
    split
    · rw [consPairS_out, h]
    split
    · rw [out_bind, out_lift]; simp only [consPairS_out, h]
    split
    · rw [out_bind, out_lift]; simp only [consPairS_out, syncInnerS_out h pi i js]
    · rfl

theorem syncLoopS_out : ∀ (is : List (Sample K)) (pi pj : Option (Sample K)) (js : List (Sample K)),
    (syncLoopS pi is pj js).out = syncLoop pi is pj js
  | [], _, _, _ => rfl
  | i :: is, pi, pj, js => by
    rw [syncLoopS, syncLoop]
    exact syncInnerS_out (fun p l => syncLoopS_out is (some i) p l) pi i js pj

theorem syncFinishS_out (xv yv : List (Sample K)) : (syncFinishS xv yv).out = syncFinish xv yv := by
  simp only [syncFinishS, syncFinish, out_bind, out_lift, ofSamplesS_out]
  rfl

@[simp] theorem synchronizeS_out (x y : Signal K) : (synchronizeS x y).out = synchronize x y := by
  simp only [synchronizeS, synchronize, out_bind, out_lift, lowerBoundS_out, syncLoopS_out, syncFinishS_out]

theorem minmaxPairLoopS_out (comp : Cmp K) : ∀ (is js : List (Sample K)) (out : Signal K) (last : Chosen)
    (pi pj : Option (Sample K)), (minmaxPairLoopS comp out last pi pj is js).out = minmaxPairLoop comp out last pi pj is js
  | [], _, _, _, _, _ => by simp only [minmaxPairLoopS, minmaxPairLoop]; rfl
  | _ :: _, [], _, _, _, _ => by simp only [minmaxPairLoopS, minmaxPairLoop]; rfl
  | i :: is, j :: js, out, last, pi, pj => by
    rw [minmaxPairLoopS, minmaxPairLoop]
    split
    · simp only [out_bind, out_tick, out_lift, Outcome.bind_ok, minmaxPairLoopS_out comp is js]
      split <;> rfl
    · simp only [out_bind, out_tick, out_lift, Outcome.bind_ok, minmaxPairLoopS_out comp is js]
      split <;> rfl

@[simp] theorem minmaxPairS_out (nd : Bool) (comp : Cmp K) (x y : Signal K) (sy : Bool) :
    (minmaxPairS nd comp x y sy).out = minmaxPair nd comp x y sy := by
  unfold minmaxPairS minmaxPair
  cases sy <;>
    simp [out_bind, minmaxPairLoopS_out]

theorem minmaxFoldS_out (nd : Bool) (comp : Cmp K) (sy : Bool) : ∀ (xs : List (Signal K)) (acc : Signal K),
    (minmaxFoldS nd comp sy acc xs).out = minmaxFold nd comp sy acc xs
  | [], _ => rfl
  | x :: xs, acc => by
    simp only [minmaxFoldS, minmaxFold, out_bind, minmaxPairS_out, minmaxFoldS_out nd comp sy xs]

@[simp] theorem minmaxVecS_out (nd : Bool) (comp : Cmp K) (xs : List (Signal K)) (sy : Bool) :
    (minmaxVecS nd comp xs sy).out = minmaxVec nd comp xs sy := by
  match xs with
  | [] => rfl
  | [x] => rfl
  | [x, y] => simp only [minmaxVecS, minmaxVec, minmaxPairS_out]
  | x :: y :: z :: rest => simp only [minmaxVecS, minmaxVec, minmaxFoldS_out]

theorem minmaxSeqLoopS_out (comp : Cmp K) : ∀ (l : List (Sample K)) (opt : Sample K),
    (minmaxSeqLoopS comp opt l).out = .ok (minmaxSeqLoop comp opt l)
  | [], _ => rfl
  | i :: l, opt => by
    simp only [minmaxSeqLoopS, minmaxSeqLoop, out_bind, out_tick, Outcome.bind_ok, minmaxSeqLoopS_out comp l, out_pure]

@[simp] theorem reverseS_out (z : List (Sample K)) : (reverseS z).out = .ok z.reverse := rfl

@[simp] theorem minmaxSeqS_out (comp : Cmp K) (x : Signal K) : (minmaxSeqS comp x).out = minmaxSeq comp x := by
  simp only [minmaxSeqS, minmaxSeq, out_bind, out_lift, minmaxSeqLoopS_out, Outcome.bind_ok, reverseS_out, ofSamplesS_out]

theorem untilLoopS_out : ∀ (is js : List (Sample K)) (prev mr : D K),
    (untilLoopS prev mr is js).out = .ok (untilLoop prev mr is js)
  | [], _, _, _ => by simp only [untilLoopS, untilLoop]; rfl
  | _ :: _, [], _, _ => by simp only [untilLoopS, untilLoop]; rfl
  | i :: is, j :: js, prev, mr => by
    simp only [untilLoopS, untilLoop, out_bind, out_tick, Outcome.bind_ok, untilLoopS_out is js, out_pure]

@[simp] theorem computeUntilS_out (nd : Bool) (x y : Signal K) : (computeUntilS nd x y).out = computeUntil nd x y := by
  simp only [computeUntilS, computeUntil, out_bind, out_lift, synchronizeS_out, untilLoopS_out, Outcome.bind_ok,
    reverseS_out, ofSamplesS_out]

namespace RobustnessOp

@[simp] theorem constS_out (r : RobustnessOp K) (b : Bool) : (r.constS b).out = r.const b := by
  simp only [constS, const, ofSamplesS_out]

@[simp] theorem predS_out (r : RobustnessOp K) (n : String) (op : ComparisonOp) (c : D K) :
    (r.predS n op c).out = r.pred n op c := by
  simp only [predS, pred, out_bind, out_lift, ofSamplesS_out]

@[simp] theorem negateS_out (x : Signal K) : (negateS x).out = negate x := by
  simp only [negateS, negate, out_bind, out_tick, Outcome.bind_ok, ofSamplesS_out]

@[simp] theorem temporalS_out (r : RobustnessOp K) (comp : Cmp K) (y : Signal K) (i : Interval K) :
    (temporalS r comp y i).out = temporal r comp y i := by
  simp only [temporalS, temporal]
  repeat' split
  all_goals simp

@[simp] theorem untilOpS_out (r : RobustnessOp K) (x y : Signal K) (i : Interval K) :
    (untilOpS r x y i).out = untilOp r x y i := by
  simp only [untilOpS, untilOp]
  repeat' split
  all_goals simp

mutual
theorem computeS_out (r : RobustnessOp K) : ∀ e : Expr K, (computeS r e).out = compute r e
  | .const b => by simp [computeS, compute, out_bind]
  | .pred n o c => by simp [computeS, compute, out_bind]
  | .not e => by simp [computeS, compute, out_bind, computeS_out r e]
  | .and es => by simp [computeS, compute, out_bind, computeArgsS_out r es, elementwiseMin]
  | .or es => by simp [computeS, compute, out_bind, computeArgsS_out r es, elementwiseMax]
  | .always e i => by simp [computeS, compute, out_bind, computeS_out r e]
  | .eventually e i => by simp [computeS, compute, out_bind, computeS_out r e]
  | .untl a b i => by simp [computeS, compute, out_bind, computeS_out r a, computeS_out r b]
theorem computeArgsS_out (r : RobustnessOp K) : ∀ es : List (Expr K), (computeArgsS r es).out = computeArgs r es
  | [] => by simp [computeArgsS, computeArgs]
  | e :: es => by simp [computeArgsS, computeArgs, out_bind, computeS_out r e, computeArgsS_out r es]
end

end RobustnessOp

theorem computeRobustnessS_out (nd : Bool) (fuel : Nat) (phi : Expr K) (trace : Trace K) (sy : Bool) :
    (computeRobustnessS nd fuel phi trace).out = computeRobustness nd fuel phi trace sy := by
  simp [computeRobustnessS, computeRobustness, out_bind, RobustnessOp.computeS_out]

end same

/-! ## Each operation is linear -/

section linear
variable {K : Type} [Field K] [LinearOrder K] [Arith K]

theorem pushAllS_count : ∀ (xs : List (Sample K)) (s : Signal K), (pushAllS s xs).count ≤ xs.length
  | [], _ => by simp [pushAllS]
  | x :: xs, s => by
    rw [pushAllS]
    exact tick_bind_le (lift_bind_le fun s' _ => pushAllS_count xs s') (by simp; omega)

theorem ofSamplesS_count (xs : List (Sample K)) : (ofSamplesS xs).count ≤ xs.length := pushAllS_count xs _

theorem lowerBoundLoopC_le_fuel {α : Type} (p : α → Bool) (l : List α) : ∀ fuel first len,
    (lowerBoundLoopC p l fuel first len).2 ≤ fuel
  | 0, _, _ => Nat.zero_le _
  | fuel + 1, first, len => by
    unfold lowerBoundLoopC
    split
    · simp
    simp only
    split
    · simp
    · simp only
      split <;> exact Nat.succ_le_succ (lowerBoundLoopC_le_fuel p l fuel _ _)

theorem lowerBoundS_count {α : Type} (p : α → Bool) (l : List α) : (lowerBoundS p l).count ≤ l.length := by
  unfold lowerBoundS
  split
  · exact lowerBoundLoopC_le_fuel _ _ _ _ _
  · simp

/-- Rounds and lengths of the results. -/
def LoopLe (r : Steps (List (Sample K) × List (Sample K))) (n : Nat) : Prop :=
  r.count ≤ n ∧ ∀ a, r.out = .ok a → a.1.length ≤ n ∧ a.2.length ≤ n

theorem loopLe_lift {o : Outcome (Sample K)} {f : Sample K → Steps (List (Sample K) × List (Sample K))} {n : Nat}
    (h : ∀ p, LoopLe (f p) n) : LoopLe (lift o >>= f) n := by
  refine ⟨lift_bind_le fun p _ => (h p).1, fun a ha => ?_⟩
  rw [out_bind] at ha
  obtain ⟨p, -, h2⟩ := Outcome.bind_eq_ok.1 ha
  exact (h p).2 a h2

theorem loopLe_cons (a b : Sample K) {r : Steps (List (Sample K) × List (Sample K))} {n : Nat} (h : LoopLe r n) :
    LoopLe (consPairS a b r) (n + 1) := by
  refine ⟨?_, fun c hc => ?_⟩
  · unfold consPairS
    exact tick_bind_le (bind_le h.1 (k := 0) fun _ _ => by simp) (by omega)
  · rw [consPairS_out] at hc
    unfold consPair at hc
    obtain ⟨x, h1, h2⟩ := Outcome.bind_eq_ok.1 hc
    cases h2
    have := h.2 x h1
    simp only [List.length_cons]; omega

theorem LoopLe.mono {r : Steps (List (Sample K) × List (Sample K))} {n m : Nat} (h : LoopLe r n) (hm : n ≤ m) :
    LoopLe r m := ⟨h.1.trans hm, fun a ha => ⟨(h.2 a ha).1.trans hm, (h.2 a ha).2.trans hm⟩⟩

theorem loopLe_nil (n : Nat) : LoopLe (pure ([], []) : Steps (List (Sample K) × List (Sample K))) n :=
  ⟨by simp, fun a ha => by cases ha; simp⟩

theorem syncInnerS_le {next : Option (Sample K) → List (Sample K) → Steps (List (Sample K) × List (Sample K))} {n : Nat}
    (h : ∀ p l, LoopLe (next p l) (n + l.length)) (pi : Option (Sample K)) (i : Sample K) :
    ∀ (js : List (Sample K)) (pj : Option (Sample K)), LoopLe (syncInnerS next pi i pj js) (n + 1 + js.length)
  | [], pj => loopLe_nil _
  | j :: js, pj => by
    rw [syncInnerS]
    split
    · exact (loopLe_cons _ _ (h _ _)).mono (by simp; omega)
    split
    · exact loopLe_lift fun p => (loopLe_cons _ _ (h _ _)).mono (by simp; omega)
    split
    · exact loopLe_lift fun p => (loopLe_cons _ _ (syncInnerS_le h pi i js _)).mono (by simp; omega)
    · exact ⟨by simp, fun a ha => by cases ha⟩

theorem syncLoopS_le : ∀ (is : List (Sample K)) (pi pj : Option (Sample K)) (js : List (Sample K)),
    LoopLe (syncLoopS pi is pj js) (is.length + js.length)
  | [], _, _, _ => loopLe_nil _
  | i :: is, pi, pj, js => by
    rw [syncLoopS]
    exact (syncInnerS_le (fun p l => syncLoopS_le is (some i) p l) pi i js pj).mono (by simp)

theorem syncFinishS_count (xv yv : List (Sample K)) : (syncFinishS xv yv).count ≤ xv.length + yv.length + 2 := by
  unfold syncFinishS
  refine lift_bind_le fun xb _ => lift_bind_le fun yb _ => lift_bind_le fun yb' _ => lift_bind_le fun xb' _ => ?_
  refine bind_le' (ofSamplesS_count _) (k := yv.length + 1) (fun _ _ => bind_le' (ofSamplesS_count _) (k := 0)
    (fun _ _ => by simp) ?_) ?_
  · split
    · simp
    · omega
  · split
    · simp; omega
    · omega

theorem ofSamples_length {xs : List (Sample K)} {s : Signal K} (h : Signal.ofSamples xs = .ok s) :
    s.samples.length = xs.length := by
  obtain ⟨-, rfl⟩ := (ofSamples_ok_iff xs s).1 h
  simp

theorem syncFinish_size {xv yv : List (Sample K)} {r : Signal K × Signal K} (h : syncFinish xv yv = .ok r) :
    r.1.samples.length ≤ xv.length + 1 ∧ r.2.samples.length ≤ yv.length + 1 := by
  unfold syncFinish at h
  obtain ⟨xb, -, h⟩ := Outcome.bind_eq_ok.1 h
  obtain ⟨yb, -, h⟩ := Outcome.bind_eq_ok.1 h
  obtain ⟨yb', -, h⟩ := Outcome.bind_eq_ok.1 h
  obtain ⟨xb', -, h⟩ := Outcome.bind_eq_ok.1 h
  obtain ⟨sx, h1, h⟩ := Outcome.bind_eq_ok.1 h
  obtain ⟨sy, h2, h⟩ := Outcome.bind_eq_ok.1 h
  cases h
  have e1 := ofSamples_length h1
  have e2 := ofSamples_length h2
  simp only
  rw [e1, e2]
  constructor
  · split <;> simp
  · split <;> simp

theorem syncHead_size {t : D K} {p q : Option (Sample K)} {l r : List (Sample K)} (h : syncHead t p l q = .ok r) :
    r.length ≤ 1 := by
  unfold syncHead at h
  split at h
  · cases h
  split at h
  · split at h
    · cases h; simp
    · obtain ⟨_, -, h⟩ := Outcome.bind_eq_ok.1 h
      cases h; simp
  · cases h; simp

theorem synchronizeS_count (x y : Signal K) :
    (synchronizeS x y).count ≤ 4 * (x.samples.length + y.samples.length) + 4 := by
  unfold synchronizeS
  refine bind_le' (lowerBoundS_count _ _) (k := 3 * x.samples.length + 4 * y.samples.length + 4) (fun i _ => ?_) (by omega)
  refine lift_bind_le fun xv0 hx => ?_
  refine bind_le' (lowerBoundS_count _ _) (k := 3 * x.samples.length + 3 * y.samples.length + 4) (fun j _ => ?_) (by omega)
  refine lift_bind_le fun yv0 hy => ?_
  have := syncHead_size hx
  have := syncHead_size hy
  have hd := syncLoopS_le (x.samples.drop i) (prevAt x.samples i) (prevAt y.samples j) (y.samples.drop j)
  have := List.length_drop (l := x.samples) (i := i)
  have := List.length_drop (l := y.samples) (i := j)
  refine bind_le' hd.1 (k := 2 * x.samples.length + 2 * y.samples.length + 4) (fun r hr => ?_) (by omega)
  have := hd.2 r hr
  refine (syncFinishS_count _ _).trans ?_
  simp only [List.length_append]; omega

theorem synchronize_size {x y : Signal K} {r : Signal K × Signal K} (h : synchronize x y = .ok r) :
    r.1.samples.length ≤ x.samples.length + y.samples.length + 2 ∧
      r.2.samples.length ≤ x.samples.length + y.samples.length + 2 := by
  unfold synchronize at h
  obtain ⟨i, -, h⟩ := Outcome.bind_eq_ok.1 h
  obtain ⟨xv0, hx, h⟩ := Outcome.bind_eq_ok.1 h
  obtain ⟨j, -, h⟩ := Outcome.bind_eq_ok.1 h
  obtain ⟨yv0, hy, h⟩ := Outcome.bind_eq_ok.1 h
  obtain ⟨l, hl, h⟩ := Outcome.bind_eq_ok.1 h
  have := syncHead_size hx
  have := syncHead_size hy
  have hd := syncLoopS_le (x.samples.drop i) (prevAt x.samples i) (prevAt y.samples j) (y.samples.drop j)
  have := List.length_drop (l := x.samples) (i := i)
  have := List.length_drop (l := y.samples) (i := j)
  have := hd.2 l (by rw [syncLoopS_out]; exact hl)
  have := syncFinish_size h
  simp only [List.length_append] at this
  omega

theorem minmaxPairLoopS_count (comp : Cmp K) : ∀ (is js : List (Sample K)) (out : Signal K) (last : Chosen)
    (pi pj : Option (Sample K)), (minmaxPairLoopS comp out last pi pj is js).count ≤ is.length
  | [], _, _, _, _, _ => by simp [minmaxPairLoopS]
  | _ :: _, [], _, _, _, _ => by simp [minmaxPairLoopS]
  | i :: is, j :: js, out, last, pi, pj => by
    rw [minmaxPairLoopS]
    split
    · exact tick_bind_le (lift_bind_le fun _ _ => lift_bind_le fun _ _ => minmaxPairLoopS_count comp is js _ _ _ _)
        (by simp; omega)
    · exact tick_bind_le (lift_bind_le fun _ _ => lift_bind_le fun _ _ => minmaxPairLoopS_count comp is js _ _ _ _)
        (by simp; omega)

theorem minmaxPairS_count (nd : Bool) (comp : Cmp K) (x y : Signal K) (sy : Bool) :
    (minmaxPairS nd comp x y sy).count ≤ 5 * (x.samples.length + y.samples.length) + 6 := by
  unfold minmaxPairS
  cases sy
  · rw [if_neg (by decide)]
    refine bind_le' (synchronizeS_count x y) (k := x.samples.length + y.samples.length + 2) (fun r hr => ?_) (by omega)
    rw [synchronizeS_out] at hr
    exact lift_bind_le fun _ _ => lift_bind_le fun _ _ => lift_bind_le fun _ _ =>
      (minmaxPairLoopS_count _ _ _ _ _ _ _).trans (synchronize_size hr).1
  · rw [if_pos rfl]
    refine bind_le' (m := 0) (k := x.samples.length) (by simp) (fun r hr => ?_) (by omega)
    cases hr
    exact lift_bind_le fun _ _ => lift_bind_le fun _ _ => lift_bind_le fun _ _ =>
      minmaxPairLoopS_count _ _ _ _ _ _ _

theorem minmaxSeqLoopS_count (comp : Cmp K) : ∀ (l : List (Sample K)) (opt : Sample K),
    (minmaxSeqLoopS comp opt l).count ≤ l.length
  | [], _ => by simp [minmaxSeqLoopS]
  | i :: l, opt => by
    rw [minmaxSeqLoopS]
    exact tick_bind_le (bind_le (minmaxSeqLoopS_count comp l _) (k := 0) fun _ _ => by simp) (by simp; omega)

theorem minmaxSeqLoop_size (comp : Cmp K) : ∀ (l : List (Sample K)) (opt : Sample K),
    (minmaxSeqLoop comp opt l).length = l.length
  | [], _ => rfl
  | i :: l, opt => by simp [minmaxSeqLoop, minmaxSeqLoop_size comp l]

theorem reverseS_count (z : List (Sample K)) : (reverseS z).count ≤ z.length := by
  unfold reverseS
  exact tick_bind_le (k := 0) (by simp) (by omega)

theorem minmaxSeqS_count (comp : Cmp K) (x : Signal K) : (minmaxSeqS comp x).count ≤ 3 * x.samples.length := by
  unfold minmaxSeqS
  refine lift_bind_le fun b hb => ?_
  have hne : 1 ≤ x.samples.length := by
    unfold Signal.back at hb
    rcases hx : x.samples with _ | ⟨a, l⟩
    · rw [hx] at hb; cases hb
    · simp
  have e : x.samples.reverse.tail.length = x.samples.length - 1 := by simp
  refine bind_le' (minmaxSeqLoopS_count comp _ _) (k := 2 * x.samples.length) (fun z hz => ?_) (by omega)
  rw [minmaxSeqLoopS_out] at hz
  cases hz
  have e2 := minmaxSeqLoop_size comp x.samples.reverse.tail b
  refine bind_le' (reverseS_count _) (k := x.samples.length) (fun z hz => ?_) (by simp only [List.length_cons]; omega)
  rw [reverseS_out] at hz
  cases hz
  refine (ofSamplesS_count _).trans ?_
  simp only [List.length_reverse, List.length_cons]; omega

theorem untilLoopS_count : ∀ (is js : List (Sample K)) (prev mr : D K),
    (untilLoopS prev mr is js).count ≤ is.length
  | [], _, _, _ => by simp [untilLoopS]
  | _ :: _, [], _, _ => by simp [untilLoopS]
  | i :: is, j :: js, prev, mr => by
    rw [untilLoopS]
    exact tick_bind_le (bind_le (untilLoopS_count is js _ _) (k := 0) fun _ _ => by simp) (by simp; omega)

theorem untilLoop_size : ∀ (is js : List (Sample K)) (prev mr : D K), (untilLoop prev mr is js).length ≤ is.length
  | [], _, _, _ => by simp [untilLoop]
  | _ :: _, [], _, _ => by simp [untilLoop]
  | i :: is, j :: js, prev, mr => by
    rw [untilLoop]
    have := untilLoop_size is js (D.max (D.max j.value (D.min i.value prev)) (-D.max mr j.value)) (D.max mr j.value)
    simp only [List.length_cons]; omega

theorem computeUntilS_count (nd : Bool) (x y : Signal K) :
    (computeUntilS nd x y).count ≤ 7 * (x.samples.length + y.samples.length) + 10 := by
  unfold computeUntilS
  refine bind_le' (synchronizeS_count x y) (k := 3 * (x.samples.length + y.samples.length + 2)) (fun r hr => ?_) (by omega)
  rw [synchronizeS_out] at hr
  have hs := (synchronize_size hr).1
  refine lift_bind_le fun _ _ => lift_bind_le fun _ _ => lift_bind_le fun _ _ => ?_
  have e : r.1.samples.reverse.length = r.1.samples.length := by simp
  refine bind_le' (untilLoopS_count _ _ _ _) (k := 2 * (x.samples.length + y.samples.length + 2)) (fun z hz => ?_) (by omega)
  rw [untilLoopS_out] at hz
  cases hz
  have e2 := untilLoop_size r.1.samples.reverse r.2.samples.reverse .pinf .ninf
  refine bind_le' (reverseS_count _) (k := x.samples.length + y.samples.length + 2) (fun z hz => ?_) (by omega)
  rw [reverseS_out] at hz
  cases hz
  refine (ofSamplesS_count _).trans ?_
  simp only [List.length_reverse]; omega

namespace RobustnessOp

theorem constS_count (r : RobustnessOp K) (b : Bool) : (r.constS b).count ≤ 2 := by
  simp only [constS]; exact ofSamplesS_count _

theorem predS_count (r : RobustnessOp K) (n : String) (op : ComparisonOp) (c : D K) {k : Nat}
    (h : ∀ x, r.trace.at_ n = .ok x → x.samples.length ≤ k) : (r.predS n op c).count ≤ k := by
  unfold predS
  exact lift_bind_le fun x hx => (ofSamplesS_count _).trans (by simpa using h x hx)

theorem negateS_count (x : Signal K) : (negateS x).count ≤ 2 * x.samples.length := by
  unfold negateS
  exact tick_bind_le (ofSamplesS_count _) (by simp; omega)

theorem temporalS_count (r : RobustnessOp K) (comp : Cmp K) (y : Signal K) (i : Interval K) :
    (temporalS r comp y i).count ≤ 3 * y.samples.length := by
  simp only [temporalS]
  repeat' split
  all_goals first | exact minmaxSeqS_count _ _ | simp

theorem untilOpS_count (r : RobustnessOp K) (x y : Signal K) (i : Interval K) :
    (untilOpS r x y i).count ≤ 7 * (x.samples.length + y.samples.length) + 10 := by
  simp only [untilOpS]
  repeat' split
  all_goals first | exact computeUntilS_count _ _ _ | simp

end RobustnessOp

theorem minmaxFoldS_count (nd : Bool) (comp : Cmp K) (sy : Bool) (B : Nat) : ∀ (xs : List (Signal K)) (acc : Signal K),
    acc.samples.length ≤ B → (∀ x ∈ xs, x.samples.length ≤ B) →
    (∀ m z, minmaxFold nd comp sy acc (xs.take m) = .ok z → z.samples.length ≤ B) →
    (minmaxFoldS nd comp sy acc xs).count ≤ xs.length * (10 * B + 6)
  | [], _, _, _, _ => by simp [minmaxFoldS]
  | x :: xs, acc, ha, hx, hm => by
    rw [minmaxFoldS]
    refine bind_le' (m := 10 * B + 6) (k := xs.length * (10 * B + 6)) ?_ (fun a h => ?_) ?_
    · have := minmaxPairS_count nd comp acc x sy
      have := hx x (by simp)
      omega
    · rw [minmaxPairS_out] at h
      refine minmaxFoldS_count nd comp sy B xs a ?_ (fun y hy => hx y (by simp [hy])) fun m z hz => ?_
      · exact hm 1 a (by simp [minmaxFold, h])
      · exact hm (m + 1) z (by rw [List.take_succ_cons, minmaxFold, h]; exact hz)
    · rw [List.length_cons]; ring_nf; omega

theorem minmaxVec_cons_fold (nd : Bool) (comp : Cmp K) (sy : Bool) (x : Signal K) (xs : List (Signal K)) :
    minmaxVec nd comp (x :: xs) sy = minmaxFold nd comp sy x xs := by
  match xs with
  | [] => rfl
  | [y] => simp [minmaxVec, minmaxFold]
  | y :: z :: l => simp only [minmaxVec]

theorem minmaxVecS_fold (nd : Bool) (comp : Cmp K) (sy : Bool) (x : Signal K) (xs : List (Signal K)) :
    (minmaxVecS nd comp (x :: xs) sy).count ≤ (minmaxFoldS nd comp sy x xs).count := by
  match xs with
  | [] => simp [minmaxVecS]
  | [y] =>
    simp only [minmaxVecS, minmaxFoldS]
    change _ ≤ (Steps.bind _ _).count
    unfold Steps.bind
    split <;> simp
  | y :: z :: l => simp only [minmaxVecS]; exact le_rfl

theorem computeArgs_take (r : RobustnessOp K) : ∀ {es : List (Expr K)} {ys : List (Signal K)},
    r.computeArgs es = .ok ys → ∀ m, r.computeArgs (es.take m) = .ok (ys.take m)
  | [], _, h, m => by rw [RobustnessOp.computeArgs] at h; cases h; simp [RobustnessOp.computeArgs]
  | e :: es, _, h, m => by
    rw [RobustnessOp.computeArgs] at h
    obtain ⟨y, h1, h⟩ := Outcome.bind_eq_ok.1 h
    obtain ⟨ys, h2, h⟩ := Outcome.bind_eq_ok.1 h
    cases h
    cases m with
    | zero => simp [RobustnessOp.computeArgs]
    | succ m =>
      rw [List.take_succ_cons, List.take_succ_cons, RobustnessOp.computeArgs, h1, Outcome.bind_ok,
        computeArgs_take r h2 m]
      rfl

theorem computeArgs_same_length (r : RobustnessOp K) : ∀ {es : List (Expr K)} {ys : List (Signal K)},
    r.computeArgs es = .ok ys → ys.length = es.length
  | [], _, h => by rw [RobustnessOp.computeArgs] at h; cases h; rfl
  | e :: es, _, h => by
    rw [RobustnessOp.computeArgs] at h
    obtain ⟨y, h1, h⟩ := Outcome.bind_eq_ok.1 h
    obtain ⟨ys, h2, h⟩ := Outcome.bind_eq_ok.1 h
    cases h
    simp [computeArgs_same_length r h2]

theorem computeArgs_mem (r : RobustnessOp K) : ∀ {es : List (Expr K)} {ys : List (Signal K)},
    r.computeArgs es = .ok ys → ∀ y ∈ ys, ∃ e ∈ es, r.compute e = .ok y
  | [], _, h, y, hy => by rw [RobustnessOp.computeArgs] at h; cases h; simp at hy
  | e :: es, _, h, y, hy => by
    rw [RobustnessOp.computeArgs] at h
    obtain ⟨y', h1, h⟩ := Outcome.bind_eq_ok.1 h
    obtain ⟨ys, h2, h⟩ := Outcome.bind_eq_ok.1 h
    cases h
    rcases List.mem_cons.1 hy with rfl | hy
    · exact ⟨e, by simp, h1⟩
    · obtain ⟨e', he, h⟩ := computeArgs_mem r h2 y hy
      exact ⟨e', by simp [he], h⟩

end linear

/-! ## Exact numbers -/

section lower
variable {K : Type} [Field K] [LinearOrder K] [Arith K]

theorem Steps.count_bind {α β : Type} {x : Steps α} {f : α → Steps β} {a : α} (h : x.out = .ok a) :
    (x >>= f).count = x.count + (f a).count := by
  change (Steps.bind x f).count = _
  unfold Steps.bind
  rw [h]

theorem Steps.bind_ok {α β : Type} {x : Steps α} {f : α → Steps β} {b : β} (h : (x >>= f).out = .ok b) :
    ∃ a, x.out = .ok a ∧ (f a).out = .ok b ∧ (x >>= f).count = x.count + (f a).count := by
  rw [out_bind] at h
  obtain ⟨a, h1, h2⟩ := Outcome.bind_eq_ok.1 h
  exact ⟨a, h1, h2, Steps.count_bind h1⟩

theorem pushAllS_eq : ∀ {xs : List (Sample K)} {s z : Signal K}, (pushAllS s xs).out = .ok z →
    (pushAllS s xs).count = xs.length
  | [], _, _, _ => rfl
  | x :: xs, s, z, h => by
    rw [pushAllS] at h ⊢
    obtain ⟨_, -, h, e⟩ := Steps.bind_ok h
    rw [e]
    obtain ⟨s', -, h, e⟩ := Steps.bind_ok h
    rw [e, pushAllS_eq h]
    simp; omega

theorem ofSamplesS_eq {xs : List (Sample K)} {z : Signal K} (h : (ofSamplesS xs).out = .ok z) :
    (ofSamplesS xs).count = xs.length := pushAllS_eq h

theorem minmaxSeqLoopS_eq (comp : Cmp K) : ∀ (l : List (Sample K)) (opt : Sample K),
    (minmaxSeqLoopS comp opt l).count = l.length
  | [], _ => rfl
  | i :: l, opt => by
    rw [minmaxSeqLoopS, Steps.count_bind rfl, Steps.count_bind (minmaxSeqLoopS_out comp l _), minmaxSeqLoopS_eq comp l]
    simp; omega

theorem minmaxSeqS_eq {comp : Cmp K} {x z : Signal K} (h : (minmaxSeqS comp x).out = .ok z) :
    (minmaxSeqS comp x).count + 1 = 3 * x.samples.length := by
  unfold minmaxSeqS at h ⊢
  obtain ⟨b, hb, h, e⟩ := Steps.bind_ok h
  have hne : 1 ≤ x.samples.length := by
    rw [out_lift] at hb
    unfold Signal.back at hb
    rcases hx : x.samples with _ | ⟨a, l⟩
    · rw [hx] at hb; cases hb
    · simp
  rw [e]
  obtain ⟨z1, h1, h, e⟩ := Steps.bind_ok h
  rw [minmaxSeqLoopS_out] at h1
  cases h1
  rw [e, minmaxSeqLoopS_eq]
  obtain ⟨z2, h1, h, e⟩ := Steps.bind_ok h
  cases h1
  rw [e, ofSamplesS_eq h]
  have := minmaxSeqLoop_size comp x.samples.reverse.tail b
  simp [reverseS, Steps.count_bind (x := tick _) rfl] at this ⊢
  omega

theorem negateS_eq {x z : Signal K} (h : (RobustnessOp.negateS x).out = .ok z) :
    (RobustnessOp.negateS x).count = 2 * x.samples.length := by
  unfold RobustnessOp.negateS at h ⊢
  obtain ⟨_, -, h, e⟩ := Steps.bind_ok h
  rw [e, ofSamplesS_eq h]
  simp; omega

theorem minmaxPairLoopS_eq (comp : Cmp K) : ∀ {is js : List (Sample K)} {out : Signal K} {last : Chosen}
    {pi pj : Option (Sample K)} {z : Signal K}, (minmaxPairLoopS comp out last pi pj is js).out = .ok z →
    (minmaxPairLoopS comp out last pi pj is js).count = min is.length js.length
  | [], _, _, _, _, _, _, _ => by simp [minmaxPairLoopS]
  | _ :: _, [], _, _, _, _, _, _ => by simp [minmaxPairLoopS]
  | i :: is, j :: js, out, last, pi, pj, z, h => by
    rw [minmaxPairLoopS] at h ⊢
    split at h
    all_goals
      rename_i hc
      first | rw [if_pos hc] | rw [if_neg hc]
      obtain ⟨_, -, h, e⟩ := Steps.bind_ok h
      rw [e]
      obtain ⟨s', -, h, e⟩ := Steps.bind_ok h
      rw [e]
      obtain ⟨s', -, h, e⟩ := Steps.bind_ok h
      rw [e, minmaxPairLoopS_eq comp h]
      simp; omega

theorem consPairS_eq {a b : Sample K} {r : Steps (List (Sample K) × List (Sample K))}
    (hr : ∀ c, r.out = .ok c → r.count = c.1.length ∧ r.count = c.2.length) :
    ∀ c, (consPairS a b r).out = .ok c → (consPairS a b r).count = c.1.length ∧ (consPairS a b r).count = c.2.length := by
  intro c h
  unfold consPairS at h ⊢
  obtain ⟨_, -, h, e⟩ := Steps.bind_ok h
  rw [e]
  obtain ⟨d, hd, h, e⟩ := Steps.bind_ok h
  rw [e]
  have := hr d hd
  cases h
  simp; omega

theorem syncInnerS_eq {next : Option (Sample K) → List (Sample K) → Steps (List (Sample K) × List (Sample K))}
    (h : ∀ p l c, (next p l).out = .ok c → (next p l).count = c.1.length ∧ (next p l).count = c.2.length)
    (pi : Option (Sample K)) (i : Sample K) :
    ∀ (js : List (Sample K)) (pj : Option (Sample K)) c, (syncInnerS next pi i pj js).out = .ok c →
      (syncInnerS next pi i pj js).count = c.1.length ∧ (syncInnerS next pi i pj js).count = c.2.length
  | [], pj, c, hc => by
    simp only [syncInnerS] at hc ⊢
    cases hc; exact ⟨rfl, rfl⟩
  | j :: js, pj, c, hc => by
    rw [syncInnerS] at hc ⊢
    split at hc
    · rename_i h1
      rw [if_pos h1]
      exact consPairS_eq (h _ _) c hc
    rename_i h1
    rw [if_neg h1]
    split at hc
    · rename_i h2
      rw [if_pos h2]
      obtain ⟨p, -, hc, e⟩ := Steps.bind_ok hc
      rw [e, count_lift, Nat.zero_add]
      exact consPairS_eq (h _ _) c hc
    rename_i h2
    rw [if_neg h2]
    split at hc
    · rename_i h3
      rw [if_pos h3]
      obtain ⟨p, -, hc, e⟩ := Steps.bind_ok hc
      rw [e, count_lift, Nat.zero_add]
      exact consPairS_eq (syncInnerS_eq h pi i js _) c hc
    · cases hc

theorem syncLoopS_eq : ∀ (is : List (Sample K)) (pi pj : Option (Sample K)) (js : List (Sample K)) c,
    (syncLoopS pi is pj js).out = .ok c →
      (syncLoopS pi is pj js).count = c.1.length ∧ (syncLoopS pi is pj js).count = c.2.length
  | [], pi, pj, js, c, hc => by
    simp only [syncLoopS] at hc ⊢
    cases hc; exact ⟨rfl, rfl⟩
  | i :: is, pi, pj, js, c, hc => by
    rw [syncLoopS] at hc ⊢
    exact syncInnerS_eq (fun p l => syncLoopS_eq is (some i) p l) pi i js pj c hc

theorem synchronizeS_ge {x y : Signal K} {r : Signal K × Signal K} (h : (synchronizeS x y).out = .ok r) :
    2 * r.1.samples.length + r.2.samples.length ≤ (synchronizeS x y).count + 2 ∧
      r.1.samples.length + 2 * r.2.samples.length ≤ (synchronizeS x y).count + 2 := by
  unfold synchronizeS at h ⊢
  obtain ⟨i, -, h, e⟩ := Steps.bind_ok h
  rw [e]
  obtain ⟨xv0, hx, h, e⟩ := Steps.bind_ok h
  rw [e]
  obtain ⟨j, -, h, e⟩ := Steps.bind_ok h
  rw [e]
  obtain ⟨yv0, hy, h, e⟩ := Steps.bind_ok h
  rw [e]
  obtain ⟨c, hc, h, e⟩ := Steps.bind_ok h
  rw [e]
  have hl := syncLoopS_eq _ _ _ _ c hc
  have h1 := syncHead_size hx
  have h2 := syncHead_size hy
  have hs := syncFinish_size (r := r) (by rw [← syncFinishS_out]; exact h)
  have hf : (syncFinishS (xv0 ++ c.1) (yv0 ++ c.2)).count = r.1.samples.length + r.2.samples.length := by
    unfold syncFinishS at h ⊢
    obtain ⟨_, -, h, e⟩ := Steps.bind_ok h
    rw [e]
    obtain ⟨_, -, h, e⟩ := Steps.bind_ok h
    rw [e]
    obtain ⟨_, -, h, e⟩ := Steps.bind_ok h
    rw [e]
    obtain ⟨_, -, h, e⟩ := Steps.bind_ok h
    rw [e]
    obtain ⟨sx, h1, h, e⟩ := Steps.bind_ok h
    rw [e, ofSamplesS_eq h1]
    obtain ⟨sy, h2, h, e⟩ := Steps.bind_ok h
    rw [e, ofSamplesS_eq h2]
    cases h
    rw [ofSamplesS_out] at h1 h2
    rw [← ofSamples_length h1, ← ofSamples_length h2]
    simp
  rw [hf]
  simp only [List.length_append, count_lift] at hs ⊢
  omega

theorem untilLoopS_eq : ∀ (is js : List (Sample K)) (prev mr : D K),
    (untilLoopS prev mr is js).count = (untilLoop prev mr is js).length
  | [], _, _, _ => by simp [untilLoopS, untilLoop]
  | _ :: _, [], _, _ => by simp [untilLoopS, untilLoop]
  | i :: is, j :: js, prev, mr => by
    rw [untilLoopS, untilLoop, Steps.count_bind rfl, Steps.count_bind (untilLoopS_out is js _ _), untilLoopS_eq is js]
    simp; omega

theorem computeUntilS_ge {nd : Bool} {x y z : Signal K} (h : (computeUntilS nd x y).out = .ok z) :
    3 * z.samples.length ≤ (computeUntilS nd x y).count := by
  unfold computeUntilS at h ⊢
  obtain ⟨r, hr, h, e⟩ := Steps.bind_ok h
  rw [e]
  obtain ⟨_, -, h, e⟩ := Steps.bind_ok h
  rw [e]
  obtain ⟨_, -, h, e⟩ := Steps.bind_ok h
  rw [e]
  obtain ⟨_, -, h, e⟩ := Steps.bind_ok h
  rw [e]
  obtain ⟨u, hu, h, e⟩ := Steps.bind_ok h
  rw [e, untilLoopS_eq]
  rw [untilLoopS_out] at hu
  cases hu
  obtain ⟨u, hu, h, e⟩ := Steps.bind_ok h
  cases hu
  rw [e, ofSamplesS_eq h]
  rw [ofSamplesS_out] at h
  rw [ofSamples_length h]
  simp [reverseS, Steps.count_bind (x := tick _) rfl]
  omega

mutual
theorem nodes_le_count (r : RobustnessOp K) : ∀ {e : Expr K} {y : Signal K}, (r.computeS e).out = .ok y →
    e.nodes ≤ (r.computeS e).count
  | .const b, _, h => by
    rw [RobustnessOp.computeS] at h ⊢
    obtain ⟨_, -, h, e⟩ := Steps.bind_ok h
    rw [e, Expr.nodes]; simp
  | .pred n o c, _, h => by
    rw [RobustnessOp.computeS] at h ⊢
    obtain ⟨_, -, h, e⟩ := Steps.bind_ok h
    rw [e, Expr.nodes]; simp
  | .not a, _, h => by
    rw [RobustnessOp.computeS] at h ⊢
    obtain ⟨_, -, h, e⟩ := Steps.bind_ok h
    rw [e, Expr.nodes]
    obtain ⟨_, h1, h, e⟩ := Steps.bind_ok h
    have := nodes_le_count r h1
    rw [e]; simp; omega
  | .and as, _, h => by
    rw [RobustnessOp.computeS] at h ⊢
    obtain ⟨_, -, h, e⟩ := Steps.bind_ok h
    rw [e, Expr.nodes]
    obtain ⟨_, h1, h, e⟩ := Steps.bind_ok h
    have := nodesAll_le_count r h1
    rw [e]; simp; omega
  | .or as, _, h => by
    rw [RobustnessOp.computeS] at h ⊢
    obtain ⟨_, -, h, e⟩ := Steps.bind_ok h
    rw [e, Expr.nodes]
    obtain ⟨_, h1, h, e⟩ := Steps.bind_ok h
    have := nodesAll_le_count r h1
    rw [e]; simp; omega
  | .always a i, _, h => by
    rw [RobustnessOp.computeS] at h ⊢
    obtain ⟨_, -, h, e⟩ := Steps.bind_ok h
    rw [e, Expr.nodes]
    obtain ⟨_, h1, h, e⟩ := Steps.bind_ok h
    have := nodes_le_count r h1
    rw [e]; simp; omega
  | .eventually a i, _, h => by
    rw [RobustnessOp.computeS] at h ⊢
    obtain ⟨_, -, h, e⟩ := Steps.bind_ok h
    rw [e, Expr.nodes]
    obtain ⟨_, h1, h, e⟩ := Steps.bind_ok h
    have := nodes_le_count r h1
    rw [e]; simp; omega
  | .untl a b i, _, h => by
    rw [RobustnessOp.computeS] at h ⊢
    obtain ⟨_, -, h, e⟩ := Steps.bind_ok h
    rw [e, Expr.nodes]
    obtain ⟨_, h1, h, e⟩ := Steps.bind_ok h
    have := nodes_le_count r h1
    rw [e]
    obtain ⟨_, h1, h, e⟩ := Steps.bind_ok h
    have := nodes_le_count r h1
    rw [e]; simp; omega
theorem nodesAll_le_count (r : RobustnessOp K) : ∀ {es : List (Expr K)} {ys : List (Signal K)},
    (r.computeArgsS es).out = .ok ys → Expr.nodesAll es ≤ (r.computeArgsS es).count
  | [], _, _ => by simp [Expr.nodesAll]
  | a :: as, _, h => by
    rw [RobustnessOp.computeArgsS] at h ⊢
    obtain ⟨_, h1, h, e⟩ := Steps.bind_ok h
    have := nodes_le_count r h1
    rw [e, Expr.nodesAll]
    obtain ⟨_, h1, h, e⟩ := Steps.bind_ok h
    have := nodesAll_le_count r h1
    rw [e]; simp; omega
end

end lower
end Verif
