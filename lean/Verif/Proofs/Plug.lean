import Verif.Spec.Plug
import Verif.Proofs.Keep
import Verif.Props.Rename

/-! # A subformula can be evaluated separately -/

set_option linter.unusedSectionVars false

namespace Verif
open Spec

section any
variable {K : Type} [Field K] [LinearOrder K] [IsStrictOrderedRing K] [Arith K]

/-! ### A property of values that evaluation keeps -/

/-- All sums, the infinities and NaN are in `P`, and `P` is closed under negation. -/
structure Closed (P : D K → Prop) : Prop where
  add : ∀ a b, P (a + b)
  neg : ∀ a, P a → P (-a)
  pinf : P .pinf
  ninf : P .ninf
  nan : P .nan

/-- All values of the samples are in `P`. -/
def Vals (P : D K → Prop) (l : List (Sample K)) : Prop := ∀ p ∈ l.map tv, P p.2

theorem vals_iff {P : D K → Prop} {l : List (Sample K)} : Vals P l ↔ ∀ a ∈ l, P a.value := by
  simp [Vals, tv]

theorem ofSamples_vals {P : D K → Prop} {l : List (Sample K)} {z : Signal K} (h : Signal.ofSamples l = .ok z)
    (hl : Vals P l) : Vals P z.samples := by
  obtain ⟨-, rfl⟩ := (ofSamples_ok_iff _ _).1 h
  unfold Vals; rw [build_map_tv]; exact hl

theorem evalD_vals {P : D K → Prop} (hP : Closed P) (t : D K) :
    ∀ l : List (Sample K), Vals P l → P (evalD l t)
  | [], _ => hP.nan
  | [a], h => by
    rw [evalD]; split
    · exact vals_iff.1 h a (by simp)
    · exact hP.add _ _
  | a :: b :: l, h => by
    rw [evalD]; split
    · exact evalD_vals hP t (b :: l) (vals_iff.2 fun c hc => vals_iff.1 h c (by simp only [List.mem_cons] at hc ⊢; tauto))
    · split
      · exact vals_iff.1 h a (by simp)
      · exact hP.add _ _

theorem sync_vals {P : D K → Prop} (hP : Closed P) {x y : Signal K} {p : Signal K × Signal K} (hx : FinT x)
    (hy : FinT y) (vx : Vals P x.samples) (vy : Vals P y.samples) (h : synchronize x y = .ok p) :
    Vals P p.1.samples ∧ Vals P p.2.samples := by
  obtain ⟨-, rfl⟩ := synchronize_ok_eq hx.sorted hy.sorted hx.2.noNaN hy.2.noNaN h
  simp only [Vals, build_map_tv, resample, List.mem_map]
  constructor <;> rintro q ⟨t, -, rfl⟩
  · exact evalD_vals hP t _ vx
  · exact evalD_vals hP t _ vy

theorem pushBack_vals {P : D K → Prop} {s z : Signal K} {x : Sample K} (h : s.pushBack x = .ok z)
    (hs : Vals P s.samples) (hx : P x.value) : Vals P z.samples := by
  intro p hp
  rw [pushBack_tv h] at hp
  rcases List.mem_append.1 hp with hp | hp
  · exact hs p hp
  · rw [List.mem_singleton.1 hp]; exact hx

theorem insertCrossing_vals {P : D K → Prop} (hP : Closed P) {out z : Signal K} {a b : Option (Sample K)} {t : D K}
    (h : insertCrossing out a b t = .ok z) (ho : Vals P out.samples) : Vals P z.samples := by
  unfold insertCrossing at h
  simp only [Outcome.bind_eq_ok] at h
  obtain ⟨s, -, p, -, h⟩ := h
  split at h
  · exact pushBack_vals h ho (hP.add _ _)
  · simp only [Outcome.pure_eq_ok, Outcome.ok.injEq] at h; rw [← h]; exact ho

theorem pairLoop_vals {P : D K → Prop} (hP : Closed P) (comp : Cmp K) : ∀ (is js : List (Sample K))
    (pi pj : Option (Sample K)) (out z : Signal K) (c : Chosen),
    minmaxPairLoop comp out c pi pj is js = .ok z → Vals P out.samples → Vals P is → Vals P js → Vals P z.samples := by
  intro is
  induction is with
  | nil =>
    intro js pi pj out z c h ho _ _
    simp only [minmaxPairLoop, Outcome.ok.injEq] at h; subst h; exact ho
  | cons i is ih =>
    intro js pi pj out z c h ho hi hj
    cases js with
    | nil => simp only [minmaxPairLoop, Outcome.ok.injEq] at h; subst h; exact ho
    | cons j js =>
      have hi' : Vals P is := fun p hp => hi p (by simp [hp])
      have hj' : Vals P js := fun p hp => hj p (by simp [hp])
      rw [minmaxPairLoop_cons] at h
      have key : ∀ (b : Prop) [Decidable b] (o1 o2 : Signal K) (k : Sample K) (p q : Option (Sample K)), P k.value →
          (if b then insertCrossing out p q k.time else .ok out) = .ok o1 → o1.pushBack k = .ok o2 → Vals P o2.samples := by
        intro b _ o1 o2 k p q hk h1 h2
        refine pushBack_vals h2 ?_ hk
        split at h1
        · exact insertCrossing_vals hP h1 ho
        · simp only [Outcome.ok.injEq] at h1; rw [← h1]; exact ho
      split at h <;>
      · simp only [Outcome.bind_eq_ok] at h
        obtain ⟨o1, h1, o2, h2, h3⟩ := h
        refine ih _ _ _ _ _ _ h3 (key _ _ _ _ _ _ ?_ h1 h2) hi' hj'
        first | exact vals_iff.1 hi i (by simp) | exact vals_iff.1 hj j (by simp)

theorem pair_vals {P : D K → Prop} (hP : Closed P) {nd : Bool} {comp : Cmp K} {x y z : Signal K} (hx : FinT x)
    (hy : FinT y) (vx : Vals P x.samples) (vy : Vals P y.samples) (h : minmaxPair nd comp x y false = .ok z) :
    Vals P z.samples := by
  rw [minmaxPair_finT nd comp hx hy] at h
  simp only [Outcome.bind_eq_ok] at h
  obtain ⟨p, h1, h2⟩ := h
  obtain ⟨a, b⟩ := sync_vals hP hx hy vx vy h1
  exact pairLoop_vals hP comp _ _ _ _ _ _ _ h2 (by simp [Vals, Signal.empty]) a b

theorem fold_vals {P : D K → Prop} (hP : Closed P) {nd : Bool} {comp : Cmp K} {pick : D K → D K → D K}
    (hp : OfValues comp pick) : ∀ (xs : List (Signal K)) (acc z : Signal K), FinT acc → (∀ x ∈ xs, FinT x) →
    Vals P acc.samples → (∀ x ∈ xs, Vals P x.samples) → minmaxFold nd comp false acc xs = .ok z → Vals P z.samples
  | [], acc, z, _, _, ha, _, h => by rw [minmaxFold, Outcome.ok.injEq] at h; rw [← h]; exact ha
  | x :: xs, acc, z, fa, fx, va, vx, h => by
    rw [minmaxFold] at h
    simp only [Outcome.bind_eq_ok] at h
    obtain ⟨a, h1, h2⟩ := h
    have f := fx x (by simp)
    exact fold_vals hP hp xs a z (pair_any hp fa f h1).1 (fun y hy => fx y (by simp [hy]))
      (pair_vals hP fa f va (vx x (by simp)) h1) (fun y hy => vx y (by simp [hy])) h2

theorem vec_vals {P : D K → Prop} (hP : Closed P) {nd : Bool} {comp : Cmp K} {pick : D K → D K → D K}
    (hp : OfValues comp pick) {xs : List (Signal K)} {z : Signal K} (hx : ∀ x ∈ xs, FinT x)
    (vx : ∀ x ∈ xs, Vals P x.samples) (h : minmaxVec nd comp xs false = .ok z) : Vals P z.samples := by
  unfold minmaxVec at h
  split at h
  · exact pushBack_vals (P := P) h (by simp [Vals, Signal.empty]) hP.ninf
  · simp only [Outcome.ok.injEq] at h; rw [← h]; exact vx _ (by simp)
  · exact pair_vals hP (hx _ (by simp)) (hx _ (by simp)) (vx _ (by simp)) (vx _ (by simp)) h
  · exact fold_vals hP hp _ _ _ (hx _ (by simp)) (fun y hy => hx y (by simp [hy])) (vx _ (by simp))
      (fun y hy => vx y (by simp [hy])) h

theorem seqLoop_vals {P : D K → Prop} (comp : Cmp K) : ∀ (l : List (Sample K)) (o : Sample K), P o.value →
    Vals P l → Vals P (minmaxSeqLoop comp o l)
  | [], o, _, _ => by simp [Vals, minmaxSeqLoop]
  | a :: l, o, ho, hl => by
    have ha : P (if comp a o then a else o).value := by
      split
      · exact vals_iff.1 hl a (by simp)
      · exact ho
    intro p hp
    rw [minmaxSeqLoop, List.map_cons, List.mem_cons] at hp
    rcases hp with rfl | hp
    · exact ha
    · exact seqLoop_vals comp l _ ha (fun p hp => hl p (by simp [hp])) p hp

theorem seq_vals {P : D K → Prop} {comp : Cmp K} {x z : Signal K} (vx : Vals P x.samples)
    (h : minmaxSeq comp x = .ok z) : Vals P z.samples := by
  obtain ⟨l⟩ := x
  rcases List.eq_nil_or_concat l with rfl | ⟨l, a, rfl⟩
  · simp [minmaxSeq, Signal.back] at h
  · rw [List.concat_eq_append] at *
    rw [minmaxSeq_concat] at h
    refine ofSamples_vals h ?_
    have ha : P a.value := vals_iff.1 vx a (by simp)
    rw [vals_iff]
    intro b hb
    rcases List.mem_append.1 hb with hb | hb
    · refine vals_iff.1 (seqLoop_vals comp l.reverse a ha ?_) b (List.mem_reverse.1 hb)
      rw [vals_iff]; intro c hc; exact vals_iff.1 vx c (by simp [List.mem_reverse.1 hc])
    · rw [List.mem_singleton.1 hb]; exact ha

theorem max_of {P : D K → Prop} {a b : D K} (ha : P a) (hb : P b) : P (D.max a b) := by
  unfold D.max; split <;> assumption

theorem min_of {P : D K → Prop} {a b : D K} (ha : P a) (hb : P b) : P (D.min a b) := by
  unfold D.min; split <;> assumption

theorem untilLoop_vals {P : D K → Prop} (hP : Closed P) : ∀ (is js : List (Sample K)) (p m : D K), P p → P m →
    Vals P is → Vals P js → Vals P (untilLoop p m is js)
  | [], js, p, m, _, _, _, _ => by simp [untilLoop, Vals]
  | i :: is, [], p, m, _, _, _, _ => by simp [untilLoop, Vals]
  | i :: is, j :: js, p, m, hp, hm, hi, hj => by
    have h1 : P i.value := vals_iff.1 hi i (by simp)
    have h2 : P j.value := vals_iff.1 hj j (by simp)
    have hm' := max_of hm h2
    have hp' := max_of (max_of h2 (min_of h1 hp)) (hP.neg _ hm')
    intro q hq
    rw [untilLoop, List.map_cons, List.mem_cons] at hq
    rcases hq with rfl | hq
    · exact hp'
    · exact untilLoop_vals hP is js _ _ hp' hm' (fun p hp => hi p (by simp [hp])) (fun p hp => hj p (by simp [hp])) q hq

theorem until_vals {P : D K → Prop} (hP : Closed P) {nd : Bool} {x y z : Signal K} (hx : FinT x)
    (hy : FinT y) (vx : Vals P x.samples) (vy : Vals P y.samples) (h : computeUntil nd x y = .ok z) :
    Vals P z.samples := by
  rw [computeUntil_finT nd hx hy] at h
  simp only [Outcome.bind_eq_ok] at h
  obtain ⟨p, h1, h2⟩ := h
  obtain ⟨a, b⟩ := sync_vals hP hx hy vx vy h1
  refine ofSamples_vals h2 ?_
  have := untilLoop_vals hP p.1.samples.reverse p.2.samples.reverse .pinf .ninf hP.pinf hP.ninf
    (vals_iff.2 fun c hc => vals_iff.1 a c (List.mem_reverse.1 hc))
    (vals_iff.2 fun c hc => vals_iff.1 b c (List.mem_reverse.1 hc))
  exact vals_iff.2 fun c hc => vals_iff.1 this c (List.mem_reverse.1 hc)

theorem predValue_vals {P : D K → Prop} (hP : Closed P) (op : ComparisonOp) (c v : D K) :
    P (RobustnessOp.predValue op c v) := by
  cases op <;> exact hP.add _ _

mutual
theorem compute_vals [SaneArith K] {P : D K → Prop} (hP : Closed P) {r : RobustnessOp K} (hf : AllFin r) :
    ∀ (e : Expr K) (z : Signal K), r.compute e = .ok z → Vals P z.samples
  | .const b, z, h => by
    rw [RobustnessOp.compute, RobustnessOp.const] at h
    refine ofSamples_vals h ?_
    rw [vals_iff]
    simp only [List.mem_cons, List.not_mem_nil, or_false]
    rintro a (rfl | rfl) <;> cases b
    · exact hP.ninf
    · exact hP.pinf
    · exact hP.ninf
    · exact hP.pinf
  | .pred m op c, z, h => by
    obtain ⟨x', -, -, h3⟩ := pred_ok h
    unfold Vals
    rw [h3]
    intro p hp
    obtain ⟨a, -, rfl⟩ := List.mem_map.1 hp
    exact predValue_vals hP op c _
  | .not e, z, h => by
    obtain ⟨y, h1, h3⟩ := not_ok h
    have ih := compute_vals hP hf e y h1
    unfold Vals
    rw [h3]
    intro p hp
    obtain ⟨a, ha, rfl⟩ := List.mem_map.1 hp
    exact hP.neg _ (vals_iff.1 ih a ha)
  | .and args, z, h => by
    rw [RobustnessOp.compute] at h
    simp only [Outcome.bind_eq_ok] at h
    obtain ⟨ys, h1, -, -, h⟩ := h
    exact vec_vals hP ofValues_le (forall₂_finT hf (computeArgs_forall₂ r args ys h1)) (computeArgs_vals hP hf args ys h1) h
  | .or args, z, h => by
    rw [RobustnessOp.compute] at h
    simp only [Outcome.bind_eq_ok] at h
    obtain ⟨ys, h1, -, -, h⟩ := h
    exact vec_vals hP ofValues_ge (forall₂_finT hf (computeArgs_forall₂ r args ys h1)) (computeArgs_vals hP hf args ys h1) h
  | .always e i, z, h => by
    rw [RobustnessOp.compute] at h
    simp only [Outcome.bind_eq_ok] at h
    obtain ⟨y, h1, h⟩ := h
    exact seq_vals (compute_vals hP hf e y h1) (temporal_sane_ok (hf _ _ h1).2 h)
  | .eventually e i, z, h => by
    rw [RobustnessOp.compute] at h
    simp only [Outcome.bind_eq_ok] at h
    obtain ⟨y, h1, h⟩ := h
    exact seq_vals (compute_vals hP hf e y h1) (temporal_sane_ok (hf _ _ h1).2 h)
  | .untl a b i, z, h => by
    rw [RobustnessOp.compute] at h
    simp only [Outcome.bind_eq_ok] at h
    obtain ⟨y, h1, y', h2, h⟩ := h
    exact until_vals hP (hf _ _ h1) (hf _ _ h2) (compute_vals hP hf a y h1) (compute_vals hP hf b y' h2) (until_any h)

theorem computeArgs_vals [SaneArith K] {P : D K → Prop} (hP : Closed P) {r : RobustnessOp K} (hf : AllFin r) :
    ∀ (es : List (Expr K)) (ys : List (Signal K)), r.computeArgs es = .ok ys → ∀ y ∈ ys, Vals P y.samples
  | [], ys, h => by rw [RobustnessOp.computeArgs, Outcome.ok.injEq] at h; rw [← h]; simp
  | e :: es, ys, h => by
    rw [RobustnessOp.computeArgs] at h
    simp only [Outcome.bind_eq_ok] at h
    obtain ⟨y, h1, ys', h2, h⟩ := h
    simp only [Outcome.pure_eq_ok, Outcome.ok.injEq] at h
    rw [← h]
    intro y' hy'
    rcases List.mem_cons.1 hy' with hy' | hy'
    · rw [hy']; exact compute_vals hP hf e y h1
    · exact computeArgs_vals hP hf es ys' h2 y' hy'
end

/-! ### The result lies within the range of the trace -/

/-- Between the begin and the end of the evaluation. -/
def Within (r : RobustnessOp K) (z : Signal K) : Prop :=
  ∀ t, InRange t z → r.minTime.le t = true ∧ t.le r.maxTime = true

theorem _root_.Verif.Spec.Keeps.within {r : RobustnessOp K} {x z : Signal K} (h : Keeps x z) (hx : Within r x) : Within r z :=
  fun t ht => hx t (h.1 t ht)

theorem within_of_times {r : RobustnessOp K} {x z : Signal K} (h : times z = times x) (hx : Within r x) : Within r z :=
  fun t ht => hx t (inRange_of_times h.symm ht)

mutual
theorem compute_within [SaneArith K] {r : RobustnessOp K} (hf : AllFin r) (ht : ∀ e ∈ r.trace, Within r e.2) :
    ∀ (e : Expr K) (z : Signal K), Arity e → r.compute e = .ok z → Within r z
  | .const b, z, _, h => by
    rw [RobustnessOp.compute, RobustnessOp.const] at h
    have e := ofSamples_times h
    have e : times z = [r.minTime, r.maxTime] := e
    intro t hr
    unfold InRange at hr
    rw [beginTime_times, endTime_times, e] at hr
    exact hr
  | .pred m op c, z, _, h => by
    obtain ⟨x, -, h2, h3⟩ := pred_ok h
    refine within_of_times ?_ (ht _ h2)
    have := congrArg (List.map Prod.fst) h3
    simpa [tv, Function.comp_def, times] using this
  | .not e, z, ha, h => by
    obtain ⟨y, h1, h3⟩ := not_ok h
    refine within_of_times ?_ (compute_within hf ht e y (by cases ha; assumption) h1)
    have := congrArg (List.map Prod.fst) h3
    simpa [tv, Function.comp_def, times] using this
  | .and args, z, ha, h => by
    rw [RobustnessOp.compute] at h
    simp only [Outcome.bind_eq_ok] at h
    obtain ⟨ys, h1, -, -, h⟩ := h
    cases ha with | and hl ha => ?_
    have hf2 := computeArgs_forall₂ r args ys h1
    have hk := (vec_keeps ofValues_le (forall₂_finT hf hf2) h).1
    have hw := computeArgs_within hf ht args ys ha h1
    cases ys with
    | nil => cases hf2; simp at hl
    | cons y ys => exact (hk y (by simp)).within (hw y (by simp))
  | .or args, z, ha, h => by
    rw [RobustnessOp.compute] at h
    simp only [Outcome.bind_eq_ok] at h
    obtain ⟨ys, h1, -, -, h⟩ := h
    cases ha with | or hl ha => ?_
    have hf2 := computeArgs_forall₂ r args ys h1
    have hk := (vec_keeps ofValues_ge (forall₂_finT hf hf2) h).1
    have hw := computeArgs_within hf ht args ys ha h1
    cases ys with
    | nil => cases hf2; simp at hl
    | cons y ys => exact (hk y (by simp)).within (hw y (by simp))
  | .always e i, z, ha, h => by
    rw [RobustnessOp.compute] at h
    simp only [Outcome.bind_eq_ok] at h
    obtain ⟨y, h1, h⟩ := h
    exact within_of_times (minmaxSeq_times (temporal_sane_ok (hf _ _ h1).2 h)).1
      (compute_within hf ht e y (by cases ha; assumption) h1)
  | .eventually e i, z, ha, h => by
    rw [RobustnessOp.compute] at h
    simp only [Outcome.bind_eq_ok] at h
    obtain ⟨y, h1, h⟩ := h
    exact within_of_times (minmaxSeq_times (temporal_sane_ok (hf _ _ h1).2 h)).1
      (compute_within hf ht e y (by cases ha; assumption) h1)
  | .untl a b i, z, ha, h => by
    rw [RobustnessOp.compute] at h
    simp only [Outcome.bind_eq_ok] at h
    obtain ⟨y, h1, y', h2, h⟩ := h
    exact (until_keeps (hf _ _ h1) (hf _ _ h2) (until_any h)).1.within
      (compute_within hf ht a y (by cases ha; assumption) h1)

theorem computeArgs_within [SaneArith K] {r : RobustnessOp K} (hf : AllFin r) (ht : ∀ e ∈ r.trace, Within r e.2) :
    ∀ (es : List (Expr K)) (ys : List (Signal K)), (∀ e ∈ es, Arity e) → r.computeArgs es = .ok ys →
      ∀ y ∈ ys, Within r y
  | [], ys, _, h => by rw [RobustnessOp.computeArgs, Outcome.ok.injEq] at h; rw [← h]; simp
  | e :: es, ys, ha, h => by
    rw [RobustnessOp.computeArgs] at h
    simp only [Outcome.bind_eq_ok] at h
    obtain ⟨y, h1, ys', h2, h⟩ := h
    simp only [Outcome.pure_eq_ok, Outcome.ok.injEq] at h
    rw [← h]
    intro y' hy'
    rcases List.mem_cons.1 hy' with hy' | hy'
    · rw [hy']; exact compute_within hf ht e y (ha e (by simp)) h1
    · exact computeArgs_within hf ht es ys' (fun e he => ha e (by simp [he])) h2 y' hy'
end

theorem minMaxTime_concat (l : Trace K) (e : String × Signal K) :
    minMaxTime (l ++ [e]) = (D.min (minMaxTime l).1 e.2.beginTime, D.max (minMaxTime l).2 e.2.endTime) := by
  simp [minMaxTime]

theorem trace_within {nd : Bool} {fuel : Nat} {trace : Trace K} (ht : TraceFin trace) :
    ∀ e ∈ trace, Within ⟨nd, fuel, (minMaxTime trace).1, (minMaxTime trace).2, trace⟩ e.2 := by
  intro e he t hr
  obtain ⟨l₁, l₂, rfl⟩ := List.append_of_mem he
  have hp : (l₁ ++ e :: l₂).Perm ((l₁ ++ l₂) ++ [e]) :=
    List.perm_middle.trans (List.perm_append_singleton e (l₁ ++ l₂)).symm
  simp only
  rw [minMaxTime_perm hp, minMaxTime_concat]
  have hl : TraceFin (l₁ ++ l₂) := fun a ha => ht a (by
    rcases List.mem_append.1 ha with h | h <;> simp [h])
  obtain ⟨b, hb⟩ := beginTime_fin (ht e he)
  obtain ⟨c, hc⟩ := endTime_fin (ht e he)
  obtain ⟨h1, h2⟩ := hr
  refine ⟨D.le_trans ?_ h1, D.le_trans h2 ?_⟩
  · rw [hb]
    rcases minMaxTime_fin hl with h | ⟨p, q, h⟩ <;> rw [h]
    · simp [D.min, D.lt, D.le, D.eq]
    · rw [D.min_fin]; rw [D.le_fin]; simp
  · rw [hc]
    rcases minMaxTime_fin hl with h | ⟨p, q, h⟩ <;> rw [h]
    · simp [D.max, D.lt, D.le, D.eq]
    · rw [D.max_fin]; rw [D.le_fin]; simp

theorem inRange_begin {z : Signal K} (hz : FinT z) : InRange z.beginTime z ∧ InRange z.endTime z := by
  have hb := beginTime_fin hz.2
  have he := endTime_fin hz.2
  have h : z.beginTime.le z.endTime = true := by
    obtain ⟨l⟩ := z
    rcases List.eq_nil_or_concat l with rfl | ⟨l, a, rfl⟩
    · simp [Signal.beginTime, Signal.endTime, D.le, D.eq]
    · rw [List.concat_eq_append] at *
      have := beginTime_le_mem hz.sorted hz.2.noNaN (a := a) (by simp)
      simpa [Signal.endTime] using this
  obtain ⟨b, hb⟩ := hb
  obtain ⟨e, he⟩ := he
  refine ⟨⟨D.le_refl ?_, h⟩, h, D.le_refl ?_⟩
  · rw [hb]; simp
  · rw [he]; simp

theorem minMaxTime_within {nd : Bool} {fuel : Nat} {l₁ l₂ : Trace K} {n : String} {z : Signal K} (hz : FinT z)
    (hw : Within ⟨nd, fuel, (minMaxTime (l₁ ++ l₂)).1, (minMaxTime (l₁ ++ l₂)).2, l₁ ++ l₂⟩ z) :
    minMaxTime (l₁ ++ (n, z) :: l₂) = minMaxTime (l₁ ++ l₂) := by
  have hp : (l₁ ++ (n, z) :: l₂).Perm ((l₁ ++ l₂) ++ [(n, z)]) :=
    List.perm_middle.trans (List.perm_append_singleton (n, z) (l₁ ++ l₂)).symm
  rw [minMaxTime_perm hp, minMaxTime_concat]
  obtain ⟨h1, h2⟩ := inRange_begin hz
  have h1 := (hw _ h1).1
  have h2 := (hw _ h2).2
  refine Prod.ext ?_ ?_
  · show D.min _ _ = _
    rw [D.min, if_neg]
    intro h
    have hn := D.lt_ne_nan h
    have := (D.not_le_iff_lt hn.1 hn.2).2 h
    rw [this] at h1; cases h1
  · show D.max _ _ = _
    rw [D.max, if_neg]
    intro h
    have hn := D.lt_ne_nan h
    have := (D.not_le_iff_lt hn.1 hn.2).2 h
    rw [this] at h2; cases h2

/-! ### The comparison with zero -/

theorem closed_zero [OddArith K] [IdemArith K] : Closed (K := K) fun v => v + 0 = v where
  add a b := by
    show D.add (D.add a b) (.fin 0) = D.add a b
    have : ∀ q : K, D.add (Arith.rnd q) (.fin 0) = (Arith.rnd q : D K) := by
      intro q
      cases h : (Arith.rnd q : D K) with
      | fin r => simp only [D.add, add_zero]; exact IdemArith.rnd_rnd q r h
      | _ => rfl
    cases a <;> cases b <;> first | exact this _ | rfl
  neg a h := by
    cases a with
    | fin q =>
      have h : Arith.rnd (q + 0) = (.fin q : D K) := h
      rw [add_zero] at h
      have := OddArith.rnd_neg q
      rw [h] at this
      show Arith.rnd (-q + 0) = D.fin (-q)
      rw [add_zero]; exact this
    | _ => rfl
  pinf := rfl
  ninf := rfl
  nan := rfl

theorem predValue_zero [OddArith K] {v : D K} (h : v + 0 = v) (op : ComparisonOp) :
    RobustnessOp.predValue op 0 v = match op with | .GE | .GT => v | .LE | .LT => -v := by
  have hz : -(0 : D K) = 0 := by show D.fin (-0 : K) = D.fin 0; rw [neg_zero]
  have hn : (0 : D K) + -v = -v := by
    cases v with
    | fin q =>
      have h : Arith.rnd (q + 0) = (.fin q : D K) := h
      rw [add_zero] at h
      have := OddArith.rnd_neg q
      rw [h] at this
      show Arith.rnd (0 + -q) = D.fin (-q)
      rw [zero_add]; exact this
    | _ => rfl
  have h1 : v - 0 = v := by show v + -0 = v; rw [hz, h]
  cases op
  · exact h1
  · exact h1
  · exact hn
  · exact hn

theorem lookup_insert {l₁ l₂ : Trace K} {n : String} {z : Signal K} (hn : ∀ e ∈ l₁ ++ l₂, e.1 ≠ n) :
    (l₁ ++ (n, z) :: l₂).lookup n = some z ∧ ∀ m, m ≠ n → (l₁ ++ (n, z) :: l₂).lookup m = (l₁ ++ l₂).lookup m := by
  induction l₁ with
  | nil =>
    refine ⟨by simp, fun m hm => ?_⟩
    simp only [List.nil_append, List.lookup_cons]
    rw [beq_false_of_ne hm]
  | cons e l ih =>
    obtain ⟨k, s⟩ := e
    obtain ⟨i1, i2⟩ := ih fun e he => hn e (by simp only [List.cons_append, List.mem_cons]; exact .inr he)
    have hk : n ≠ k := fun h => hn (k, s) (by simp) h.symm
    refine ⟨?_, fun m hm => ?_⟩
    · simp only [List.cons_append, List.lookup_cons]
      rw [beq_false_of_ne hk]; exact i1
    · simp only [List.cons_append, List.lookup_cons]
      split
      · rfl
      · exact i2 m hm

/-- Reading back a signal whose values are not changed by the comparison with zero. -/
theorem pred_slot [OddArith K] {r r' : RobustnessOp K} {n : String} {psi : Expr K} {s : Signal K} (hw : WF s)
    (hv : Vals (fun v => v + 0 = v) s.samples) (hl : r'.trace.lookup n = some s) (hs : r.compute psi = .ok s)
    (op : ComparisonOp) : r'.compute (.pred n op 0) =
      r.compute (hole psi op) := by
  have e1 : ∀ a ∈ s.samples, RobustnessOp.predValue op 0 a.value =
      match op with | .GE | .GT => a.value | .LE | .LT => -a.value := fun a ha =>
    predValue_zero (vals_iff.1 hv a ha) op
  have h0 : r'.compute (.pred n op 0) =
      Signal.ofSamples (s.samples.map fun a => ⟨a.time, RobustnessOp.predValue op 0 a.value, 0⟩) := by
    rw [RobustnessOp.compute, RobustnessOp.pred]
    unfold Trace.at_
    rw [hl]
    rfl
  have hnot : r.compute (.not psi) = Signal.ofSamples (s.samples.map Sample.neg) := by
    rw [RobustnessOp.compute, hs]; rfl
  rw [h0, ofSamples_eq]
  have id1 : ∀ f : D K → D K, (∀ a ∈ s.samples, RobustnessOp.predValue op 0 a.value = f a.value) →
      (s.samples.map fun a => (⟨a.time, RobustnessOp.predValue op 0 a.value, 0⟩ : Sample K)).map tv =
        s.samples.map fun a => (a.time, f a.value) := by
    intro f hf
    rw [List.map_map]
    exact List.map_congr_left fun a ha => by simp [tv, hf a ha]
  have k1 : op = .GE ∨ op = .GT → r.compute psi = if Incr (s.samples.map tv) then .ok ⟨build (s.samples.map tv)⟩ else .throw .invalidArgument := by
    intro _
    rw [hs, ← ofSamples_eq, ofSamples_wf hw]
  have k2 : (s.samples.map Sample.neg).map tv = s.samples.map fun a => (a.time, -a.value) := by
    rw [List.map_map]; rfl
  cases op
  · rw [id1 (fun v => v) e1]; exact (k1 (by simp)).symm
  · rw [id1 (fun v => v) e1]; exact (k1 (by simp)).symm
  · rw [id1 (fun v => -v) e1]
    show _ = r.compute (.not psi)
    rw [hnot, ofSamples_eq, k2]
  · rw [id1 (fun v => -v) e1]
    show _ = r.compute (.not psi)
    rw [hnot, ofSamples_eq, k2]

theorem plugAll_length (n : String) (psi : Expr K) : ∀ es : List (Expr K), (plugAll n psi es).length = es.length
  | [] => rfl
  | e :: es => by rw [plugAll, List.length_cons, List.length_cons, plugAll_length n psi es]

mutual
theorem compute_plug [OddArith K] {r r' : RobustnessOp K} {n : String} {psi : Expr K} {s : Signal K} (hw : WF s)
    (hv : Vals (fun v => v + 0 = v) s.samples) (hl : r'.trace.lookup n = some s) (hs : r.compute psi = .ok s)
    (hm : ∀ m, m ≠ n → r'.trace.lookup m = r.trace.lookup m) (h1 : r'.ndebug = r.ndebug) (h2 : r'.fuel = r.fuel)
    (h3 : r'.minTime = r.minTime) (h4 : r'.maxTime = r.maxTime) :
    ∀ e : Expr K, Slot n e → r'.compute e = r.compute (plug n psi e)
  | .const b, _ => by
    rw [plug, RobustnessOp.compute, RobustnessOp.compute, RobustnessOp.const, RobustnessOp.const, h3, h4]
  | .pred m op c, h => by
    cases h with | pred _ _ _ hc => ?_
    rw [plug]
    split
    · next e => subst e; rw [hc rfl]; exact pred_slot hw hv hl hs op
    · next e =>
      rw [RobustnessOp.compute, RobustnessOp.compute, RobustnessOp.pred, RobustnessOp.pred, Trace.at_, Trace.at_, hm m e]
  | .not e, h => by
    rw [plug, RobustnessOp.compute, RobustnessOp.compute,
      compute_plug hw hv hl hs hm h1 h2 h3 h4 e (by cases h; assumption)]
  | .and args, h => by
    rw [plug, RobustnessOp.compute, RobustnessOp.compute,
      computeArgs_plug hw hv hl hs hm h1 h2 h3 h4 args (by cases h; assumption), plugAll_length, h1]
  | .or args, h => by
    rw [plug, RobustnessOp.compute, RobustnessOp.compute,
      computeArgs_plug hw hv hl hs hm h1 h2 h3 h4 args (by cases h; assumption), plugAll_length, h1]
  | .always e i, h => by
    rw [plug, RobustnessOp.compute, RobustnessOp.compute,
      compute_plug hw hv hl hs hm h1 h2 h3 h4 e (by cases h; assumption)]
    unfold RobustnessOp.temporal; rw [h2]
  | .eventually e i, h => by
    rw [plug, RobustnessOp.compute, RobustnessOp.compute,
      compute_plug hw hv hl hs hm h1 h2 h3 h4 e (by cases h; assumption)]
    unfold RobustnessOp.temporal; rw [h2]
  | .untl a b i, h => by
    rw [plug, RobustnessOp.compute, RobustnessOp.compute,
      compute_plug hw hv hl hs hm h1 h2 h3 h4 a (by cases h; assumption),
      compute_plug hw hv hl hs hm h1 h2 h3 h4 b (by cases h; assumption)]
    unfold RobustnessOp.untilOp; rw [h1]

theorem computeArgs_plug [OddArith K] {r r' : RobustnessOp K} {n : String} {psi : Expr K} {s : Signal K} (hw : WF s)
    (hv : Vals (fun v => v + 0 = v) s.samples) (hl : r'.trace.lookup n = some s) (hs : r.compute psi = .ok s)
    (hm : ∀ m, m ≠ n → r'.trace.lookup m = r.trace.lookup m) (h1 : r'.ndebug = r.ndebug) (h2 : r'.fuel = r.fuel)
    (h3 : r'.minTime = r.minTime) (h4 : r'.maxTime = r.maxTime) :
    ∀ es : List (Expr K), (∀ e ∈ es, Slot n e) → r'.computeArgs es = r.computeArgs (plugAll n psi es)
  | [], _ => by rw [plugAll, RobustnessOp.computeArgs, RobustnessOp.computeArgs]
  | e :: es, h => by
    rw [plugAll, RobustnessOp.computeArgs, RobustnessOp.computeArgs,
      compute_plug hw hv hl hs hm h1 h2 h3 h4 e (h e (by simp)),
      computeArgs_plug hw hv hl hs hm h1 h2 h3 h4 es fun e he => h e (by simp [he])]
end

end any

end Verif
