import Verif.Proofs.AnyRound
import Verif.Proofs.Binary64
import Verif.Props.Binary64
import Verif.Props.Boolean
import Verif.Proofs.Temporal

/-!
# Statements for every rounding, binary64 included: C63, C64, C65
-/

set_option linter.unusedSectionVars false

namespace Verif
open Spec

/-! ## The arithmetics of the model are sane -/

instance : SaneArith B64 := ⟨B64.rnd_self ⟨0, 0, by norm_num; rfl, by norm_num⟩, B64.rnd_ne_nan⟩

instance {K : Type} [Field K] [LinearOrder K] [Arith K] [ExactArith K] : SaneArith K where
  rnd_zero := ExactArith.rnd_eq 0
  rnd_ne_nan q := by rw [ExactArith.rnd_eq]; simp

section any
variable {K : Type} [Field K] [LinearOrder K] [IsStrictOrderedRing K] [Arith K]

/-! ## C63 -/

/-- **C63.** The robustness of a formula has at most `sampleBound` samples: as many as the signal for a
predicate, two for a constant, no more than the operand for Not, Always and Eventually, no more than both
operands together for Until, and at most twice that for And and Or. -/
theorem C63_sample_count [SaneArith K] (nd : Bool) (fuel : Nat) (phi : Expr K) (trace : Trace K) (sy : Bool)
    (ht : FiniteTimes trace) (count : String → Nat)
    (hc : ∀ n x, trace.lookup n = some x → x.samples.length ≤ count n) (z : Signal K)
    (h : computeRobustness nd fuel phi trace sy = .ok z) :
    z.samples.length ≤ sampleBound count phi :=
  (compute_any ⟨nd, fuel, (minMaxTime trace).1, (minMaxTime trace).2, trace⟩ count ht (minMaxTime_fin ht) hc phi z h).2

/-- **C63.** One operator at a time. -/
theorem C63_operators [SaneArith K] (nd : Bool) (fuel : Nat) (phi psi : Expr K) (trace : Trace K) (sy : Bool)
    (ht : FiniteTimes trace) (x y z : Signal K) (hx : computeRobustness nd fuel phi trace sy = .ok x)
    (hy : computeRobustness nd fuel psi trace sy = .ok y) (i : Interval K) :
    (computeRobustness nd fuel (.and [phi, psi]) trace sy = .ok z →
      z.samples.length ≤ 2 * (x.samples.length + y.samples.length)) ∧
    (computeRobustness nd fuel (.or [phi, psi]) trace sy = .ok z →
      z.samples.length ≤ 2 * (x.samples.length + y.samples.length)) ∧
    (computeRobustness nd fuel (.untl phi psi i) trace sy = .ok z →
      z.samples.length ≤ x.samples.length + y.samples.length) ∧
    (computeRobustness nd fuel (.eventually phi i) trace sy = .ok z →
      z.samples.length = x.samples.length) ∧
    (computeRobustness nd fuel (.always phi i) trace sy = .ok z →
      z.samples.length = x.samples.length) := by
  unfold computeRobustness at *
  simp only at *
  set r : RobustnessOp K := ⟨nd, fuel, (minMaxTime trace).1, (minMaxTime trace).2, trace⟩
  let count : String → Nat := fun n => ((trace.lookup n).map fun x => x.samples.length).getD 0
  have hc : ∀ n x, trace.lookup n = some x → x.samples.length ≤ count n := by
    intro n x h; simp [count, h]
  have fx := (compute_any r count ht (minMaxTime_fin ht) hc phi x hx).1
  have fy := (compute_any r count ht (minMaxTime_fin ht) hc psi y hy).1
  refine ⟨fun h => ?_, fun h => ?_, fun h => ?_, fun h => ?_, fun h => ?_⟩
  · simp only [RobustnessOp.compute, RobustnessOp.computeArgs, hx, hy, Outcome.bind_ok] at h
    simp only [Outcome.bind_eq_ok] at h
    obtain ⟨ys, ⟨w, h1, h2⟩, -, -, h⟩ := h
    simp only [Outcome.pure_eq_ok, Outcome.ok.injEq] at h1 h2; subst h1; subst h2
    exact (pair_any ofValues_le fx fy h).2.2
  · simp only [RobustnessOp.compute, RobustnessOp.computeArgs, hx, hy, Outcome.bind_ok] at h
    simp only [Outcome.bind_eq_ok] at h
    obtain ⟨ys, ⟨w, h1, h2⟩, -, -, h⟩ := h
    simp only [Outcome.pure_eq_ok, Outcome.ok.injEq] at h1 h2; subst h1; subst h2
    exact (pair_any ofValues_ge fx fy h).2.2
  · rw [RobustnessOp.compute, hx, hy, Outcome.bind_ok, Outcome.bind_ok] at h
    exact (computeUntil_any fx fy (until_any h)).2
  · rw [RobustnessOp.compute, hx, Outcome.bind_ok] at h
    exact length_of_times (minmaxSeq_times (temporal_sane_ok fx.2 h)).1
  · rw [RobustnessOp.compute, hx, Outcome.bind_ok] at h
    exact length_of_times (minmaxSeq_times (temporal_sane_ok fx.2 h)).1

/-- The bound for a formula: the operands have 3, 3 and 2 samples. -/
example : sampleBound (fun n => if n = "y" then 2 else 3)
    (.or [.and [.pred "x" .GE 0, .Eventually (.not (.pred "x" .LE (.fin 1)))], .pred "y" .GE 0] : Expr ℚ) = 28 := by
  decide +kernel

/-- A result that attains the factor two up to a constant: zig-zags that cross in every segment. -/
example : (computeRobustness false 0 (.and [.pred "x" .GE 0, .pred "y" .GE 0])
    ([("x", ofPts [(0, 1), (1, -1), (2, 1), (3, -1)]), ("y", ofPts [(0, -1), (1, 1), (2, -1), (3, 1)])] :
      Trace ℚ) false).map' (fun z => z.samples.length) = .ok 7 := by decide +kernel

/-! ## C64 -/

theorem pointwises_eq_map (v : String → D K) : ∀ es : List (Expr K), pointwises v es = es.map (pointwise v)
  | [] => rfl
  | e :: es => by rw [pointwises, pointwises_eq_map v es, List.map_cons]

theorem static_any [SaneArith K] (r : RobustnessOp K) (ht : TraceFin r.trace)
    (hm : (r.minTime, r.maxTime) = (.pinf, .ninf) ∨ ∃ a b, (r.minTime, r.maxTime) = (.fin a, .fin b))
    (t : D K) (v : String → D K) (e : Expr K) (he : Static e) :
    (∀ n, Uses n e → ∃ x, r.trace.lookup n = some x ∧ HasSample x t (v n)) →
    ∀ z, r.compute e = .ok z → HasSample z t (pointwise v e) := by
  let count : String → Nat := fun n => ((r.trace.lookup n).map fun x => x.samples.length).getD 0
  have hc : ∀ n x, r.trace.lookup n = some x → x.samples.length ≤ count n := by
    intro n x h; simp [count, h]
  have args : ∀ (es : List (Expr K)) (ys : List (Signal K)), r.computeArgs es = .ok ys →
      (∀ e ∈ es, ∀ z, r.compute e = .ok z → HasSample z t (pointwise v e)) →
      List.Forall₂ (fun x w => HasSample x t w) ys (pointwises v es) := by
    intro es ys h hs
    have := computeArgs_forall₂ r es ys h
    clear h
    induction this with
    | nil => exact .nil
    | cons h _ ih =>
      rw [pointwises]
      exact .cons (hs _ (by simp) _ h) (ih fun e he => hs e (by simp [he]))
  induction he with
  | pred n op c =>
    intro hu z hz
    obtain ⟨x, h1, h2, h3⟩ := pred_ok hz
    obtain ⟨x', h4, h5, h6⟩ := hu n (.pred op c)
    rw [h1] at h4; simp only [Option.some.injEq] at h4; subst h4
    have e1 : pointwise v (.pred n op c) = RobustnessOp.predValue op c (v n) := by
      cases op <;> rw [pointwise, RobustnessOp.predValue]
    rw [e1]
    unfold HasSample
    rw [h3]
    refine ⟨?_, ?_⟩
    · obtain ⟨s, hs, e⟩ := List.mem_map.1 h5
      simp only [tv, Prod.mk.injEq] at e
      exact List.mem_map.2 ⟨s, hs, by rw [e.1, e.2]⟩
    · intro w hw
      obtain ⟨s, hs, e⟩ := List.mem_map.1 hw
      simp only [Prod.mk.injEq] at e
      rw [← e.2, h6 s.value (List.mem_map.2 ⟨s, hs, by rw [tv, e.1]⟩)]
  | not _ ih =>
    intro hu z hz
    obtain ⟨x, h1, h3⟩ := not_ok hz
    obtain ⟨h5, h6⟩ := ih (fun n hn => hu n (.not hn)) x h1
    rw [pointwise]
    unfold HasSample
    rw [h3]
    refine ⟨?_, ?_⟩
    · obtain ⟨s, hs, e⟩ := List.mem_map.1 h5
      simp only [tv, Prod.mk.injEq] at e
      exact List.mem_map.2 ⟨s, hs, by rw [e.1, e.2]⟩
    · intro w hw
      obtain ⟨s, hs, e⟩ := List.mem_map.1 hw
      simp only [Prod.mk.injEq] at e
      rw [← e.2, h6 s.value (List.mem_map.2 ⟨s, hs, by rw [tv, e.1]⟩)]
  | @and as hne _ ih =>
    intro hu z hz
    rw [RobustnessOp.compute] at hz
    simp only [Outcome.bind_eq_ok] at hz
    obtain ⟨ys, h1, -, -, h⟩ := hz
    have f := (computeArgs_any r count ht hm hc _ ys h1).1
    have := args _ ys h1 fun e he => ih e he fun n hn => hu n (.and he hn)
    rw [pointwise]
    obtain ⟨a, as, rfl⟩ := List.exists_cons_of_ne_nil hne
    rw [pointwises] at this ⊢
    exact (vec_any ofValues_le f h).2.1 t _ _ this
  | @or as hne _ ih =>
    intro hu z hz
    rw [RobustnessOp.compute] at hz
    simp only [Outcome.bind_eq_ok] at hz
    obtain ⟨ys, h1, -, -, h⟩ := hz
    have f := (computeArgs_any r count ht hm hc _ ys h1).1
    have := args _ ys h1 fun e he => ih e he fun n hn => hu n (.or he hn)
    rw [pointwise]
    obtain ⟨a, as, rfl⟩ := List.exists_cons_of_ne_nil hne
    rw [pointwises] at this ⊢
    exact (vec_any ofValues_ge f h).2.1 t _ _ this

/-- **C64.** For every rounding, binary64 included: at each instant at which all signals used by a formula of
predicates, Not, And and Or have a sample, the robustness (if any is returned) has exactly one sample, and
its value is the one computed from the samples by subtraction, negation, minimum and maximum: resampling,
crossings and chaining of the operands add no error. -/
theorem C64_no_error_at_samples [SaneArith K] (nd : Bool) (fuel : Nat) (phi : Expr K) (trace : Trace K)
    (sy : Bool) (hp : Static phi) (ht : FiniteTimes trace) (t : D K) (v : String → D K)
    (hv : ∀ n, Uses n phi → ∃ x, trace.lookup n = some x ∧ HasSample x t (v n))
    (z : Signal K) (h : computeRobustness nd fuel phi trace sy = .ok z) :
    HasSample z t (pointwise v phi) :=
  static_any ⟨nd, fuel, (minMaxTime trace).1, (minMaxTime trace).2, trace⟩ ht (minMaxTime_fin ht) t v phi hp hv z h

/-- Signals in binary64 whose timestamps differ; 0.1 is the double `3602879701896397 * 2^-55`. -/
def exB64 : Trace B64 :=
  [("x", ofPts (K := B64) [((0 : ℚ), (1 : ℚ)), (1, 3602879701896397 / 2 ^ 55), (2, -3)]),
   ("y", ofPts (K := B64) [((0 : ℚ), (-1 : ℚ)), (1 / 2, 7), (2, 1 / 2)])]

def exB64Formula : Expr B64 :=
  .or [.and [.pred "x" .GE (.fin (3602879701896397 / 2 ^ 55 : ℚ)), .not (.pred "y" .GT (.fin (1 / 4 : ℚ)))],
    .pred "y" .LE 0]

example : Static exB64Formula :=
  .or (by simp) (by
    intro e he
    simp only [List.mem_cons, List.not_mem_nil, or_false] at he
    rcases he with rfl | rfl
    · exact .and (by simp) (by
        intro e he
        simp only [List.mem_cons, List.not_mem_nil, or_false] at he
        rcases he with rfl | rfl
        · exact .pred _ _ _
        · exact .not (.pred _ _ _))
    · exact .pred _ _ _)
example : FiniteTimes exB64 := by
  intro e he a ha
  simp only [exB64, List.mem_cons, List.not_mem_nil, or_false] at he
  rcases he with rfl | rfl <;>
  · simp [ofPts, build, lift] at ha
    rcases ha with rfl | rfl | rfl <;> exact ⟨_, rfl⟩
/-- Both signals have a sample at time 2. -/
example : ∀ n x, exB64.lookup n = some x →
    HasSample x (.fin (2 : ℚ)) (if n = "x" then .fin (-3 : ℚ) else .fin (1 / 2 : ℚ)) := by
  intro n x h
  have key : ∀ {x : Signal B64} {t v : D B64}, ((t, v) ∈ x.samples.map tv ∧
      ∀ p ∈ x.samples.map tv, p.1 = t → p.2 = v) → HasSample x t v :=
    fun h => ⟨h.1, fun w hw => h.2 _ hw rfl⟩
  have hmem : (n, x) ∈ exB64 := by
    have h' : exB64.at_ n = .ok x := by unfold Trace.at_; rw [h]
    exact lookup_mem h'
  simp only [exB64, List.mem_cons, List.not_mem_nil, or_false, Prod.mk.injEq] at hmem
  rcases hmem with ⟨rfl, rfl⟩ | ⟨rfl, rfl⟩ <;> exact key (by decide +kernel)
/-- The rounded value of the formula at time 2. -/
example : (computeRobustness (K := B64) false 0 exB64Formula exB64 false).map'
      (fun z => z.samples.getLast?.map tv) =
    .ok (some (.fin (2 : ℚ), pointwise (fun n => if n = "x" then .fin (-3 : ℚ) else .fin (1 / 2 : ℚ))
      exB64Formula)) ∧
    pointwise (fun n => if n = "x" then .fin (-3 : ℚ) else .fin (1 / 2 : ℚ)) exB64Formula =
      .fin (-1 / 2 : ℚ) := by decide +kernel

/-! ## C65 -/

theorem suf_getElem {T V : Type} {op : V → V → V} (v : V) : ∀ (l : List (T × V)) (k : Nat) (p : T × V),
    (suf op v l)[k]? = some p → p.2 = (l.drop k).foldr (fun q w => op q.2 w) v
  | [], k, p, h => by simp [suf] at h
  | q :: l, 0, p, h => by simp [suf] at h; rw [← h]; rfl
  | q :: l, k + 1, p, h => by
    rw [suf, List.getElem?_cons_succ] at h
    rw [List.drop_succ_cons]; exact suf_getElem v l k p h

/-- The last element of `foldr` is one of the values and bounds all of them. -/
theorem foldr_best {T : Type} {op : D K → D K → D K} {R : D K → D K → Prop}
    (hsel : ∀ a b, op a b = a ∨ op a b = b)
    (hop : ∀ a b, a ≠ .nan → b ≠ .nan → R (op a b) a ∧ R (op a b) b)
    (hrefl : ∀ a, a ≠ .nan → R a a) (htr : ∀ a b c, R a b → R b c → R a c) (v : D K) (hv : v ≠ .nan) :
    ∀ l : List (T × D K), (∀ p ∈ l, p.2 ≠ .nan) →
      (l.foldr (fun q w => op q.2 w) v) ∈ l.map Prod.snd ++ [v] ∧
      (l.foldr (fun q w => op q.2 w) v) ≠ .nan ∧
      ∀ w ∈ l.map Prod.snd ++ [v], R (l.foldr (fun q w => op q.2 w) v) w := by
  intro l
  induction l with
  | nil => intro _; simpa using ⟨hv, hrefl v hv⟩
  | cons p l ih =>
    intro h
    obtain ⟨i1, i2, i3⟩ := ih fun q hq => h q (by simp [hq])
    have hp := h p (by simp)
    obtain ⟨o1, o2⟩ := hop p.2 _ hp i2
    refine ⟨?_, ?_, ?_⟩
    · rcases hsel p.2 (l.foldr (fun q w => op q.2 w) v) with e | e
      · rw [List.foldr_cons, e]; simp
      · rw [List.foldr_cons, e, List.map_cons, List.cons_append]; exact List.mem_cons_of_mem _ i1
    · rcases hsel p.2 (l.foldr (fun q w => op q.2 w) v) with e | e <;> rw [List.foldr_cons, e] <;> assumption
    · intro w hw
      rw [List.map_cons, List.cons_append] at hw
      rw [List.foldr_cons]
      rcases List.mem_cons.1 hw with rfl | hw
      · exact o1
      · exact htr _ _ _ o2 (i3 w hw)

theorem minmaxSeq_best {comp : Cmp K} {op : D K → D K → D K} (hc : Selects comp op)
    {R : D K → D K → Prop} (hsel : ∀ a b, op a b = a ∨ op a b = b)
    (hop : ∀ a b, a ≠ .nan → b ≠ .nan → R (op a b) a ∧ R (op a b) b)
    (hrefl : ∀ a, a ≠ .nan → R a a) (htr : ∀ a b c, R a b → R b c → R a c)
    {x : Signal K} (hw : WF x) (hne : x.samples ≠ []) (hn : ∀ a ∈ x.samples, a.value ≠ .nan) :
    ∃ z, minmaxSeq comp x = .ok z ∧ z.samples.map Sample.time = x.samples.map Sample.time ∧
      ∀ k (hk : k < z.samples.length),
        (∃ s ∈ x.samples.drop k, z.samples[k].value = s.value) ∧
        ∀ s ∈ x.samples.drop k, R z.samples[k].value s.value := by
  obtain ⟨l, hl, rfl⟩ := (wf_iff x).1 hw
  rcases List.eq_nil_or_concat l with rfl | ⟨l, b, rfl⟩
  · simp at hne
  rw [List.concat_eq_append] at *
  have hz := minmaxSeq_build hc l b hl
  refine ⟨_, hz, (minmaxSeq_times hz).1, ?_⟩
  have hv : ∀ l : List (D K × D K), (build l).map Sample.value = l.map Prod.snd := by
    intro l
    have := congrArg (List.map Prod.snd) (build_map_tv l)
    rw [List.map_map] at this
    exact this
  have hn' : ∀ p ∈ l ++ [b], p.2 ≠ .nan := by
    intro p hp
    have : p.2 ∈ (build (l ++ [b])).map Sample.value := by rw [hv]; exact List.mem_map_of_mem hp
    obtain ⟨a, ha, e⟩ := List.mem_map.1 this
    rw [← e]; exact hn a ha
  intro k hk
  simp only [build_length, List.length_append, suf_length, List.length_singleton] at hk
  have hval : ∀ (l : List (D K × D K)) (k) (hk : k < (build l).length) (hk' : k < l.length),
      (build l)[k].value = l[k].2 := by
    intro l k hk hk'
    have := hv l
    have h2 : ((build l).map Sample.value)[k]'(by simpa using hk) = (l.map Prod.snd)[k]'(by simpa using hk') := by
      simp only [this]
    simpa using h2
  have hdrop : ∀ w, (∃ s ∈ (build (l ++ [b])).drop k, w = s.value) ↔ w ∈ (l.drop k).map Prod.snd ++ [b.2] := by
    intro w
    have : ((build (l ++ [b])).drop k).map Sample.value = (l.drop k).map Prod.snd ++ [b.2] := by
      rw [List.map_drop, hv, ← List.map_drop, List.drop_append_of_le_length (by omega)]
      simp
    rw [← this, List.mem_map]
    exact ⟨fun ⟨s, h1, h2⟩ => ⟨s, h1, h2.symm⟩, fun ⟨s, h1, h2⟩ => ⟨s, h1, h2.symm⟩⟩
  obtain ⟨f1, -, f3⟩ := foldr_best (T := D K) hsel hop hrefl htr b.2 (hn' b (by simp)) (l.drop k)
    (fun p hp => hn' p (by simp [List.mem_of_mem_drop hp]))
  have key : ((suf op b.2 l ++ [b])[k]'(by simp [suf_length]; omega)).2 =
      (l.drop k).foldr (fun q w => op q.2 w) b.2 := by
    by_cases hkl : k < l.length
    · rw [List.getElem_append_left (by rw [suf_length]; exact hkl)]
      exact suf_getElem _ _ _ _ (List.getElem?_eq_getElem _)
    · have : k = l.length := by omega
      subst this
      rw [List.getElem_append_right (by rw [suf_length])]
      simp
  simp only
  rw [hval _ k (by simp [build_length, suf_length]; omega) (by simp [suf_length]; omega)]
  constructor
  · rw [key]; exact (hdrop _).2 f1
  · intro s hs
    rw [key]; exact f3 _ ((hdrop _).1 ⟨s, hs, rfl⟩)

/-- **C65.** For every rounding, binary64 included: if the robustness of `phi` is a non-empty signal without
NaN values, `Eventually(phi)` with any interval that the constructors build is a signal with the same times,
whose value at each sample is the greatest of the values of `phi` at this sample and the later ones. -/
theorem C65_eventually [SaneArith K] (nd : Bool) (fuel : Nat) (phi : Expr K) (trace : Trace K) (sy : Bool)
    (ht : FiniteTimes trace) (i : Interval K) (hi : i.asDouble.2 ≠ .ninf) (y : Signal K)
    (h : computeRobustness nd fuel phi trace sy = .ok y) (hne : y.samples ≠ [])
    (hn : ∀ a ∈ y.samples, a.value ≠ .nan) :
    ∃ z, computeRobustness nd fuel (.eventually phi i) trace sy = .ok z ∧
      z.samples.map Sample.time = y.samples.map Sample.time ∧
      ∀ k (hk : k < z.samples.length),
        (∃ s ∈ y.samples.drop k, z.samples[k].value = s.value) ∧
        ∀ s ∈ y.samples.drop k, s.value.le z.samples[k].value = true := by
  have hy := compute_any ⟨nd, fuel, (minMaxTime trace).1, (minMaxTime trace).2, trace⟩
    (fun n => ((trace.lookup n).map fun x => x.samples.length).getD 0) ht
    (minMaxTime_fin ht) (by intro n x h; simp only at h; simp [h]) phi y h
  unfold computeRobustness at *
  simp only at h ⊢
  rw [RobustnessOp.compute, h, Outcome.bind_ok]
  have hop : ∀ a b : D K, a ≠ .nan → b ≠ .nan → a.le (D.max a b) = true ∧ b.le (D.max a b) = true := by
    intro a b ha hb
    unfold D.max
    split
    · rename_i hlt; exact ⟨D.le_of_lt hlt, D.le_refl hb⟩
    · rename_i hlt
      refine ⟨D.le_refl ha, ?_⟩
      rw [D.le_eq_not_lt hb ha]; simpa using hlt
  obtain ⟨z, hz, h1, h2⟩ := minmaxSeq_best (x := y) selects_ge (R := fun v w => w.le v = true)
    (fun a b => by unfold D.max; split <;> simp) hop (fun a h => D.le_refl h)
    (fun a b c h1 h2 => D.le_trans h2 h1) hy.1.1 hne hn
  refine ⟨z, ?_, h1, h2⟩
  rcases temporal_sane _ Sample.ge hy.1.2 i with e | ⟨e, -⟩
  · rw [e]; exact hz
  · exact absurd e hi

/-- **C65.** The same for Always and the smallest value. -/
theorem C65_always [SaneArith K] (nd : Bool) (fuel : Nat) (phi : Expr K) (trace : Trace K) (sy : Bool)
    (ht : FiniteTimes trace) (i : Interval K) (hi : i.asDouble.2 ≠ .ninf) (y : Signal K)
    (h : computeRobustness nd fuel phi trace sy = .ok y) (hne : y.samples ≠ [])
    (hn : ∀ a ∈ y.samples, a.value ≠ .nan) :
    ∃ z, computeRobustness nd fuel (.always phi i) trace sy = .ok z ∧
      z.samples.map Sample.time = y.samples.map Sample.time ∧
      ∀ k (hk : k < z.samples.length),
        (∃ s ∈ y.samples.drop k, z.samples[k].value = s.value) ∧
        ∀ s ∈ y.samples.drop k, z.samples[k].value.le s.value = true := by
  have hy := compute_any ⟨nd, fuel, (minMaxTime trace).1, (minMaxTime trace).2, trace⟩
    (fun n => ((trace.lookup n).map fun x => x.samples.length).getD 0) ht
    (minMaxTime_fin ht) (by intro n x h; simp only at h; simp [h]) phi y h
  unfold computeRobustness at *
  simp only at h ⊢
  rw [RobustnessOp.compute, h, Outcome.bind_ok]
  have hop : ∀ a b : D K, a ≠ .nan → b ≠ .nan → (D.min a b).le a = true ∧ (D.min a b).le b = true := by
    intro a b ha hb
    unfold D.min
    split
    · rename_i hlt; exact ⟨D.le_of_lt hlt, D.le_refl hb⟩
    · rename_i hlt
      refine ⟨D.le_refl ha, ?_⟩
      rw [D.le_eq_not_lt ha hb]; simpa using hlt
  obtain ⟨z, hz, h1, h2⟩ := minmaxSeq_best (x := y) selects_le (R := fun v w => v.le w = true)
    (fun a b => by unfold D.min; split <;> simp) hop (fun a h => D.le_refl h)
    (fun a b c h1 h2 => D.le_trans h1 h2) hy.1.1 hne hn
  refine ⟨z, ?_, h1, h2⟩
  rcases temporal_sane _ Sample.le hy.1.2 i with e | ⟨e, -⟩
  · rw [e]; exact hz
  · exact absurd e hi

/-- Infinite values, and an interval of length 10. -/
example : computeRobustness false 0 (.eventually (.pred "x" .GE 0) ⟨.dbl 0, .dbl (.fin 10)⟩)
    ([("x", ⟨[⟨.fin 0, .ninf, 0⟩, ⟨.fin 1, .fin 2, 0⟩, ⟨.fin 2, .fin 1, 0⟩]⟩)] : Trace ℚ) false =
    .ok ⟨[⟨.fin 0, .fin 2, 0⟩, ⟨.fin 1, .fin 2, .fin (-1)⟩, ⟨.fin 2, .fin 1, 0⟩]⟩ := by decide +kernel
example : (⟨.dbl 0, .dbl (.fin 10)⟩ : Interval ℚ).asDouble.2 ≠ .ninf := by decide +kernel
example : (computeRobustness (K := B64) false 0 (.Always (.pred "y" .GE (.fin (3602879701896397 / 2 ^ 55 : ℚ)))) exB64
      false).map' (fun z : Signal B64 => z.samples.map Sample.value) =
    (.ok [.fin (-2476979795053773 / 2 ^ 51 : ℚ), .fin (3602879701896397 / 2 ^ 53 : ℚ),
      .fin (3602879701896397 / 2 ^ 53 : ℚ)] : Outcome (List (D B64))) := by
  decide +kernel

end any

end Verif
