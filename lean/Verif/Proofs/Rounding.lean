import Verif.Spec.Rounding
import Verif.Props.AnyRound
import Verif.Props.Start

/-!
# Monotone rounding commutes with minima and maxima
-/

set_option linter.unusedSectionVars false

namespace Verif
open Spec

namespace Spec

/-- Rounding is monotone. -/
class MonoArith (K : Type) [Field K] [LinearOrder K] [Arith K] : Prop where
  rnd_mono : ∀ a b : K, a ≤ b → (Arith.rnd a : D K).le (Arith.rnd b) = true

end Spec

section any
variable {K : Type} [Field K] [LinearOrder K] [IsStrictOrderedRing K] [Arith K]

theorem rnd_max [SaneArith K] [MonoArith K] (a b : K) :
    maxOf (Arith.rnd a : D K) (Arith.rnd b) = Arith.rnd (max a b) := by
  have ha := SaneArith.rnd_ne_nan a
  have hb := SaneArith.rnd_ne_nan b
  unfold maxOf
  rcases le_total a b with h | h
  · rw [max_eq_right h]
    have h1 := MonoArith.rnd_mono a b h
    split
    · rfl
    · rename_i h2
      rw [Bool.not_eq_true] at h2
      have h3 : (Arith.rnd b : D K).le (Arith.rnd a) = true := by rw [D.le_eq_not_lt hb ha]; simp [h2]
      exact D.le_antisymm h1 h3
  · rw [max_eq_left h]
    have h1 := MonoArith.rnd_mono b a h
    rw [if_neg]
    intro h2
    rw [D.le_eq_not_lt hb ha, h2] at h1; simp at h1

theorem rnd_min [SaneArith K] [MonoArith K] (a b : K) :
    minOf (Arith.rnd a : D K) (Arith.rnd b) = Arith.rnd (min a b) := by
  have ha := SaneArith.rnd_ne_nan a
  have hb := SaneArith.rnd_ne_nan b
  unfold minOf
  rcases le_total b a with h | h
  · rw [min_eq_right h]
    have h1 := MonoArith.rnd_mono b a h
    split
    · rfl
    · rename_i h2
      rw [Bool.not_eq_true] at h2
      have h3 : (Arith.rnd a : D K).le (Arith.rnd b) = true := by rw [D.le_eq_not_lt ha hb]; simp [h2]
      exact D.le_antisymm h3 h1
  · rw [min_eq_left h]
    have h1 := MonoArith.rnd_mono a b h
    rw [if_neg]
    intro h2
    rw [D.le_eq_not_lt ha hb, h2] at h1; simp at h1

/-- A point with its value rounded. -/
def rl (p : K × K) : D K × D K := (.fin p.1, Arith.rnd p.2)

theorem suf_rl {op : D K → D K → D K} {opK : K → K → K}
    (h : ∀ a b : K, op (Arith.rnd a) (Arith.rnd b) = Arith.rnd (opK a b)) (v : K) (l : List (K × K)) :
    suf op (Arith.rnd v) (l.map rl) = (suf opK v l).map rl := by
  have hf : ∀ l : List (K × K), (l.map rl).foldr (fun q w => op q.2 w) (Arith.rnd v) =
      Arith.rnd (l.foldr (fun q w => opK q.2 w) v) := by
    intro l
    induction l with
    | nil => rfl
    | cons p l ih => rw [List.map_cons, List.foldr_cons, ih, List.foldr_cons, ← h]; rfl
  induction l with
  | nil => rfl
  | cons p l ih =>
    rw [List.map_cons, suf, suf, ih, List.map_cons, ← List.map_cons, hf]; rfl

theorem incr_times {l l' : List (D K × D K)} (h : l.map Prod.fst = l'.map Prod.fst) (hi : Incr l) : Incr l' := by
  induction l generalizing l' with
  | nil => have : l' = [] := by simpa using h.symm
           subst this; trivial
  | cons p l ih =>
    cases l' with
    | nil => simp at h
    | cons p' l' =>
      rw [List.map_cons, List.map_cons, List.cons.injEq] at h
      cases l with
      | nil => have : l' = [] := by simpa using h.2.symm
               subst this; trivial
      | cons q l =>
        cases l' with
        | nil => simp at h
        | cons q' l' =>
          have h2 := h.2
          rw [List.map_cons, List.map_cons, List.cons.injEq] at h2
          refine ⟨?_, ih h.2 hi.2⟩
          rw [← h.1, ← h2.1]; exact hi.1

theorem incr_rl (l : List (K × K)) : Incr (l.map rl) ↔ Increasing l := by
  rw [← incr_lift]
  constructor <;> exact incr_times (by simp [rl, lift, Function.comp_def])

/-- The running extremum of rounded values. -/
theorem minmaxSeq_rl {comp : Cmp K} {op : D K → D K → D K} {opK : K → K → K} (hc : Selects comp op)
    (h : ∀ a b : K, op (Arith.rnd a) (Arith.rnd b) = Arith.rnd (opK a b)) (hid : ∀ a, opK a a = a)
    {y z : Signal K} {zs : List (K × K)} (hw : WF y) (hy : y.samples.map tv = zs.map rl)
    (hne : zs ≠ []) (e : minmaxSeq comp y = .ok z) : z.samples.map tv = (sufPts opK zs).map rl := by
  obtain ⟨l, hl, rfl⟩ := (wf_iff y).1 hw
  rw [build_map_tv] at hy
  subst hy
  rcases List.eq_nil_or_concat zs with rfl | ⟨l, b, rfl⟩
  · exact absurd rfl hne
  rw [List.concat_eq_append, List.map_append, List.map_singleton] at *
  rw [minmaxSeq_build hc _ _ hl] at e
  simp only [Outcome.ok.injEq] at e
  subst e
  rw [build_map_tv, sufPts_snoc opK hid, List.map_append, List.map_singleton,
    show (rl b).2 = Arith.rnd b.2 from rfl, suf_rl h]

theorem suf_witness {opK : K → K → K} (hop : ∀ a b, opK a b = a ∨ opK a b = b) {pts : List (K × K)} {z : K × K}
    (hz : z ∈ sufPts opK pts) : ∃ q ∈ pts, z.2 = q.2 := by
  have hf : ∀ (l : List (K × K)) (v : K), l.foldr (fun q w => opK q.2 w) v = v ∨
      ∃ q ∈ l, l.foldr (fun q w => opK q.2 w) v = q.2 := by
    intro l v
    induction l with
    | nil => exact .inl rfl
    | cons p l ih =>
      rw [List.foldr_cons]
      rcases hop p.2 (l.foldr (fun q w => opK q.2 w) v) with e | e <;> rw [e]
      · exact .inr ⟨p, by simp, rfl⟩
      · rcases ih with h | ⟨q, hq, h⟩
        · exact .inl h
        · exact .inr ⟨q, by simp [hq], h⟩
  have hs : ∀ (l : List (K × K)) (v : K) (z), z ∈ suf opK v l → z.2 = v ∨ ∃ q ∈ l, z.2 = q.2 := by
    intro l v
    induction l with
    | nil => intro z hz; simp [suf] at hz
    | cons p l ih =>
      intro z hz
      rw [suf] at hz
      rcases List.mem_cons.1 hz with rfl | hz
      · exact hf (p :: l) v
      · rcases ih z hz with h | ⟨q, hq, h⟩
        · exact .inl h
        · exact .inr ⟨q, by simp [hq], h⟩
  unfold sufPts at hz
  split at hz
  · simp at hz
  · rename_i b hb
    rcases hs _ _ _ hz with h | h
    · exact ⟨b, List.mem_of_getLast? hb, h⟩
    · exact h

end any

section cast
variable {K : Type} [Field K] [LinearOrder K] [IsStrictOrderedRing K] [Arith K] {ι : K →+* ℝ}
  (hι : StrictMono ι)

include hι

theorem castPts_increasing {pts : List (K × K)} (h : Increasing pts) : Increasing (castPts ι pts) := by
  unfold Increasing castPts at *
  rw [List.map_map, List.pairwise_map]
  rw [List.pairwise_map] at h
  exact h.imp fun h => hι h

omit hι in
theorem castPts_negPts (pts : List (K × K)) : castPts ι (negPts pts) = negPts (castPts ι pts) := by
  simp [castPts, negPts, Function.comp_def]

theorem castPts_suf {opK : K → K → K} {opR : ℝ → ℝ → ℝ} (h : ∀ a b, ι (opK a b) = opR (ι a) (ι b))
    (pts : List (K × K)) : castPts ι (sufPts opK pts) = sufPts opR (castPts ι pts) := by
  have hs : ∀ (v : K) (l : List (K × K)), castPts ι (suf opK v l) = suf opR (ι v) (castPts ι l) := by
    intro v l
    have hf : ∀ l : List (K × K), ι (l.foldr (fun q w => opK q.2 w) v) =
        (castPts ι l).foldr (fun q w => opR q.2 w) (ι v) := by
      intro l
      induction l with
      | nil => rfl
      | cons p l ih => rw [List.foldr_cons, h, ih]; rfl
    induction l with
    | nil => rfl
    | cons p l ih =>
      have := hf (p :: l)
      unfold castPts at *
      rw [suf, List.map_cons, ih, List.map_cons, suf]
      simp only
      rw [this]; rfl
  unfold sufPts
  have : (castPts ι pts).getLast? = pts.getLast?.map fun p => (ι p.1, ι p.2) := by
    unfold castPts; rw [List.getLast?_map]
  rw [this]
  cases pts.getLast? with
  | none => rfl
  | some b => exact hs _ _

theorem castPts_max (pts : List (K × K)) : castPts ι (sufPts max pts) = sufPts max (castPts ι pts) :=
  castPts_suf hι (fun _ _ => hι.monotone.map_max) pts

theorem castPts_min (pts : List (K × K)) : castPts ι (sufPts min pts) = sufPts min (castPts ι pts) :=
  castPts_suf hι (fun _ _ => hι.monotone.map_min) pts

theorem castPts_dom {pts : List (K × K)} {p : K × K} {r : List (K × K)} {T v : K} (hi : Increasing pts)
    (hp : pts = p :: r) (hT : pts.getLast? = some (T, v)) :
    dom (castPts ι pts) = Set.Icc (ι p.1) (ι T) := by
  have hmem : (T, v) ∈ pts := List.mem_of_getLast? hT
  obtain ⟨l, hl⟩ : ∃ l, pts = l ++ [(T, v)] := by
    rw [List.getLast?_eq_some_iff] at hT; exact hT
  have h1 : ∀ q ∈ pts, p.1 ≤ q.1 := by
    intro q hq
    rw [hp] at hq hi
    rcases List.mem_cons.1 hq with rfl | hq
    · exact le_rfl
    · exact ((increasing_cons.1 hi).1 q hq).le
  have h2 : ∀ q ∈ pts, q.1 ≤ T := by
    intro q hq
    rw [hl] at hq hi
    rcases List.mem_append.1 hq with hq | hq
    · exact ((increasing_append.1 hi).2.2 q hq (T, v) (by simp)).le
    · simp only [List.mem_singleton] at hq; rw [hq]
  ext t
  simp only [dom, castPts, Set.mem_ofPred_eq, Set.mem_Icc, List.mem_map]
  constructor
  · rintro ⟨⟨_, ⟨q, hq, rfl⟩, h3⟩, ⟨_, ⟨q', hq', rfl⟩, h4⟩⟩
    exact ⟨(hι.monotone (h1 q hq)).trans h3, h4.trans (hι.monotone (h2 q' hq'))⟩
  · rintro ⟨h3, h4⟩
    exact ⟨⟨_, ⟨p, by simp [hp], rfl⟩, h3⟩, ⟨_, ⟨(T, v), hmem, rfl⟩, h4⟩⟩

omit hι [LinearOrder K] [IsStrictOrderedRing K] [Arith K] in
theorem castExprs_eq (es : List (Expr K)) : castExprs ι es = es.map (castExpr ι) := by
  induction es with
  | nil => rfl
  | cons e es ih => rw [castExprs, ih, List.map_cons]

/-- The margin of a predicate. -/
def marg (op : ComparisonOp) (c v : K) : K :=
  match op with
  | .GE | .GT => v - c
  | .LE | .LT => c - v

omit hι [IsStrictOrderedRing K] in
theorem predValue_rnd (op : ComparisonOp) (c v : K) :
    RobustnessOp.predValue op (.fin c) (.fin v) = (Arith.rnd (marg op c v) : D K) := by
  have : ∀ a b : K, (.fin a : D K) - .fin b = Arith.rnd (a - b) := by
    intro a b; rw [sub_eq_add_neg]; rfl
  cases op <;> exact this _ _

omit hι [LinearOrder K] [IsStrictOrderedRing K] [Arith K] in
theorem marg_cast (op : ComparisonOp) (c : K) : ∃ a b : ℝ, (∀ v : K, ι (marg op c v) = a * ι v + b) ∧
    ∀ w : ℝ, margin op w (.fin (ι c)) = ((a * w + b : ℝ) : EReal) := by
  cases op
  · exact ⟨1, -ι c, fun v => by simp [marg]; ring, fun w => by rw [margin]; congr 1; ring⟩
  · exact ⟨1, -ι c, fun v => by simp [marg]; ring, fun w => by rw [margin]; congr 1; ring⟩
  · exact ⟨-1, ι c, fun v => by simp [marg]; ring, fun w => by rw [margin]; congr 1; ring⟩
  · exact ⟨-1, ι c, fun v => by simp [marg]; ring, fun w => by rw [margin]; congr 1; ring⟩

omit hι [LinearOrder K] [IsStrictOrderedRing K] [Arith K] in
theorem map_samples {l : List (Sample K)} {pts : List (K × K)} {f : K → D K}
    (h : l.map tv = pts.map fun p => (.fin p.1, f p.2)) (g : D K → D K) :
    (l.map fun s => (s.time, g s.value)) = pts.map fun p => (.fin p.1, g (f p.2)) := by
  have : (l.map fun s => (s.time, g s.value)) = (l.map tv).map fun p => (p.1, g p.2) := by
    simp [tv, Function.comp_def]
  rw [this, h]; simp [Function.comp_def]

omit hι in
theorem odd_neg [OddArith K] (q : K) : -(Arith.rnd q : D K) = Arith.rnd (-q) := by
  rw [OddArith.rnd_neg]; cases (Arith.rnd q : D K) <;> rfl

/-- A chain of unary operators: the samples are the rounded values of points at which the dense-time
robustness is known exactly. -/
theorem chain_rounded [SaneArith K] [OddArith K] [MonoArith K] {C P : K → Prop} (hneg : ∀ q, P q → P (-q))
    (r : RobustnessOp K) (T : K) (sig : String → List (K × K)) (e : Expr K) (he : Chain C e) :
    (∀ n, Uses n e → (∃ x, r.trace.lookup n = some x ∧ Represents x (sig n)) ∧ Increasing (sig n) ∧
      (∃ v, (sig n).getLast? = some (T, v)) ∧ ∀ p ∈ sig n, ∀ c, C c → P (p.2 - c) ∧ P (c - p.2)) →
    ∀ z, r.compute e = .ok z → ∃ n zs, Uses n e ∧ zs.map Prod.fst = (sig n).map Prod.fst ∧
      z.samples.map tv = zs.map rl ∧
      Agrees (castPts ι zs) (rob (ι T) (fun n => eval (castPts ι (sig n))) (castExpr ι e)) ∧
      ∀ p ∈ zs, P p.2 := by
  induction he with
  | @pred n op c hc =>
    intro hu z hz
    obtain ⟨⟨x, h1, h2⟩, hi, ⟨w, hw⟩, hP⟩ := hu n (.pred op _)
    obtain ⟨x', h3, -, h4⟩ := pred_ok hz
    rw [h1] at h3; simp only [Option.some.injEq] at h3; subst h3
    obtain ⟨a, b, hab, hm⟩ := marg_cast (ι := ι) op c
    set zs : List (K × K) := (sig n).map fun p => (p.1, marg op c p.2) with hzs
    have hne : sig n ≠ [] := by intro h; rw [h] at hw; simp at hw
    have hcast : castPts ι zs = (castPts ι (sig n)).map fun p => (p.1, a * p.2 + b) := by
      simp [castPts, hzs, Function.comp_def, hab]
    have hne' : castPts ι (sig n) ≠ [] := by simpa [castPts] using hne
    have hev : ∀ t, ((eval (castPts ι zs) t : ℝ) : EReal) =
        rob (ι T) (fun n => eval (castPts ι (sig n))) (castExpr ι (.pred n op (.fin c))) t := by
      intro t
      rw [castExpr, rob, castD, hm, hcast, eval_affine_map a b _ _ hne']
    have hzi : Increasing zs := by
      unfold Increasing; rw [hzs, List.map_map]; exact hi
    refine ⟨n, zs, .pred op _, by simp [hzs, Function.comp_def], ?_, ⟨fun p hp => ?_, .inl fun t _ => hev t⟩, ?_⟩
    · rw [h4, map_samples (f := D.fin) h2.2 (RobustnessOp.predValue op (.fin c))]
      simp only [predValue_rnd]
      simp [hzs, rl, Function.comp_def]
    · rw [← hev, eval_mem (castPts_increasing hι hzi) hp]
    · intro p hp
      obtain ⟨q, hq, rfl⟩ := List.mem_map.1 hp
      have := hP q hq c hc
      cases op
      · exact this.1
      · exact this.1
      · exact this.2
      · exact this.2
  | @not e _ ih =>
    intro hu z hz
    obtain ⟨x, h1, h2⟩ := not_ok hz
    obtain ⟨n, zs, i1, i2, i3, i4, i5⟩ := ih (fun n hn => hu n (.not hn)) x h1
    refine ⟨n, negPts zs, .not i1, ?_, ?_, ?_, ?_⟩
    · rw [← i2]; simp [negPts, Function.comp_def]
    · rw [h2, map_samples (f := Arith.rnd) i3 (fun v => -v)]
      simp only [odd_neg]
      simp [negPts, rl, Function.comp_def]
    · rw [castPts_negPts]
      have := i4.neg
      convert this using 2 with t
      rw [castExpr, rob]
    · intro p hp
      obtain ⟨q, hq, rfl⟩ := List.mem_map.1 hp
      exact hneg _ (i5 q hq)
  | @always e _ ih =>
    intro hu z hz
    rw [Expr.Always, RobustnessOp.compute] at hz
    simp only [Outcome.bind_eq_ok] at hz
    obtain ⟨y, h1, h2⟩ := hz
    obtain ⟨n, zs, i1, i2, i3, i4, i5⟩ := ih (fun n hn => hu n (.always hn)) y h1
    obtain ⟨-, hi, ⟨w, hw⟩, -⟩ := hu n (.always i1)
    have hy : FinTimes y.samples := by
      intro a ha
      have : tv a ∈ zs.map rl := by rw [← i3]; exact List.mem_map_of_mem ha
      obtain ⟨q, -, hq⟩ := List.mem_map.1 this
      exact ⟨q.1, (congrArg Prod.fst hq).symm⟩
    have hzi : Increasing zs := by unfold Increasing; rw [i2]; exact hi
    have hne : zs ≠ [] := by
      rintro rfl
      have : sig n = [] := by simpa using i2.symm
      rw [this] at hw; simp at hw
    have hT : ∃ v, zs.getLast? = some (T, v) := by
      have h3 : (zs.map Prod.fst).getLast? = some T := by rw [i2, List.getLast?_map, hw]; rfl
      rw [List.getLast?_map, Option.map_eq_some_iff] at h3
      obtain ⟨⟨a, b⟩, h3, h4⟩ := h3
      exact ⟨b, by rw [h3, ← h4]⟩
    obtain ⟨v, hv⟩ := hT
    obtain ⟨p0, r0, hp0⟩ := List.exists_cons_of_ne_nil hne
    have hd := castPts_dom hι hzi hp0 hv
    refine ⟨n, sufPts min zs, .always i1, by rw [sufPts_fst, i2], ?_, ?_, ?_⟩
    · exact minmaxSeq_rl selects_le (opK := min) rnd_min (fun a => min_self a) (compute_wf _ _ _ h1) i3 hne
        (temporal_sane_ok hy h2)
    · rw [castPts_min hι]
      have := i4.inf (castPts_increasing hι hzi) hd
      convert this using 2 with t
      rw [Expr.Always, castExpr, rob]
      have : castInterval ι (Interval.default : Interval K) = ⟨.dbl 0, .dbl .pinf⟩ := by
        simp [castInterval, Interval.default, castNum, castD, D.zero_def]
      rw [this, window_default]
    · intro p hp
      obtain ⟨q, hq, e⟩ := suf_witness (fun a b => by rcases le_total a b with h | h <;> simp [h]) hp
      rw [e]; exact i5 q hq
  | @eventually e _ ih =>
    intro hu z hz
    rw [Expr.Eventually, RobustnessOp.compute] at hz
    simp only [Outcome.bind_eq_ok] at hz
    obtain ⟨y, h1, h2⟩ := hz
    obtain ⟨n, zs, i1, i2, i3, i4, i5⟩ := ih (fun n hn => hu n (.eventually hn)) y h1
    obtain ⟨-, hi, ⟨w, hw⟩, -⟩ := hu n (.eventually i1)
    have hy : FinTimes y.samples := by
      intro a ha
      have : tv a ∈ zs.map rl := by rw [← i3]; exact List.mem_map_of_mem ha
      obtain ⟨q, -, hq⟩ := List.mem_map.1 this
      exact ⟨q.1, (congrArg Prod.fst hq).symm⟩
    have hzi : Increasing zs := by unfold Increasing; rw [i2]; exact hi
    have hne : zs ≠ [] := by
      rintro rfl
      have : sig n = [] := by simpa using i2.symm
      rw [this] at hw; simp at hw
    have hT : ∃ v, zs.getLast? = some (T, v) := by
      have h3 : (zs.map Prod.fst).getLast? = some T := by rw [i2, List.getLast?_map, hw]; rfl
      rw [List.getLast?_map, Option.map_eq_some_iff] at h3
      obtain ⟨⟨a, b⟩, h3, h4⟩ := h3
      exact ⟨b, by rw [h3, ← h4]⟩
    obtain ⟨v, hv⟩ := hT
    obtain ⟨p0, r0, hp0⟩ := List.exists_cons_of_ne_nil hne
    have hd := castPts_dom hι hzi hp0 hv
    refine ⟨n, sufPts max zs, .eventually i1, by rw [sufPts_fst, i2], ?_, ?_, ?_⟩
    · exact minmaxSeq_rl selects_ge (opK := max) rnd_max (fun a => max_self a) (compute_wf _ _ _ h1) i3 hne
        (temporal_sane_ok hy h2)
    · rw [castPts_max hι]
      have := i4.sup (castPts_increasing hι hzi) hd
      convert this using 2 with t
      rw [Expr.Eventually, castExpr, rob]
      have : castInterval ι (Interval.default : Interval K) = ⟨.dbl 0, .dbl .pinf⟩ := by
        simp [castInterval, Interval.default, castNum, castD, D.zero_def]
      rw [this, window_default]
    · intro p hp
      obtain ⟨q, hq, e⟩ := suf_witness (fun a b => by rcases le_total a b with h | h <;> simp [h]) hp
      rw [e]; exact i5 q hq

omit hι [Field K] [LinearOrder K] [IsStrictOrderedRing K] [Arith K] in
theorem coe_inf (a b : ℝ) : ((min a b : ℝ) : EReal) = (a : EReal) ⊓ b := EReal.coe_strictMono.monotone.map_min

omit hι [Field K] [LinearOrder K] [IsStrictOrderedRing K] [Arith K] in
theorem coe_sup (a b : ℝ) : ((max a b : ℝ) : EReal) = (a : EReal) ⊔ b := EReal.coe_strictMono.monotone.map_max

/-- Combinations of chains: the sample at a common sample time. -/
theorem layered_rounded [SaneArith K] [OddArith K] [MonoArith K] {C P : K → Prop} (hneg : ∀ q, P q → P (-q))
    (r : RobustnessOp K) (ht : TraceFin r.trace)
    (hm : (r.minTime, r.maxTime) = (.pinf, .ninf) ∨ ∃ a b, (r.minTime, r.maxTime) = (.fin a, .fin b))
    (T t : K) (sig : String → List (K × K)) (e : Expr K) (he : Layered C e) :
    (∀ n, Uses n e → (∃ x, r.trace.lookup n = some x ∧ Represents x (sig n)) ∧ Increasing (sig n) ∧
      (∃ v, (sig n).getLast? = some (T, v)) ∧ (∀ p ∈ sig n, ∀ c, C c → P (p.2 - c) ∧ P (c - p.2)) ∧
      t ∈ (sig n).map Prod.fst) →
    ∀ z, r.compute e = .ok z → ∃ q, P q ∧ HasSample z (.fin t) (Arith.rnd q) ∧
      ((ι q : ℝ) : EReal) = rob (ι T) (fun n => eval (castPts ι (sig n))) (castExpr ι e) (ι t) := by
  let count : String → Nat := fun n => ((r.trace.lookup n).map fun x => x.samples.length).getD 0
  have hc : ∀ n x, r.trace.lookup n = some x → x.samples.length ≤ count n := by
    intro n x h; simp [count, h]
  let X : String → ℝ → ℝ := fun n => eval (castPts ι (sig n))
  have args : ∀ (es : List (Expr K)) (ys : List (Signal K)), r.computeArgs es = .ok ys →
      (∀ e ∈ es, ∀ z, r.compute e = .ok z → ∃ q, P q ∧ HasSample z (.fin t) (Arith.rnd q) ∧
        ((ι q : ℝ) : EReal) = rob (ι T) X (castExpr ι e) (ι t)) →
      ∃ qs : List K, List.Forall₂ (fun e q => P q ∧ ((ι q : ℝ) : EReal) = rob (ι T) X (castExpr ι e) (ι t)) es qs ∧
        List.Forall₂ (fun x w => HasSample x (.fin t) w) ys (qs.map Arith.rnd) := by
    intro es ys h hs
    have := computeArgs_forall₂ r es ys h
    clear h
    induction this with
    | nil => exact ⟨[], .nil, .nil⟩
    | cons h _ ih =>
      obtain ⟨q, h1, h2, h3⟩ := hs _ (by simp) _ h
      obtain ⟨qs, h4, h5⟩ := ih fun e he => hs e (by simp [he])
      exact ⟨q :: qs, .cons ⟨h1, h3⟩ h4, .cons h2 h5⟩
  have foldP : ∀ (op : K → K → K), (∀ a b, op a b = a ∨ op a b = b) → ∀ (qs : List K) (q : K), P q →
      (∀ x ∈ qs, P x) → P (qs.foldl op q) := by
    intro op hop qs
    induction qs with
    | nil => intro q h _; exact h
    | cons x qs ih =>
      intro q h hx
      refine ih _ ?_ fun y hy => hx y (by simp [hy])
      rcases hop q x with e | e <;> rw [e]
      · exact h
      · exact hx x (by simp)
  have foldR : ∀ (pick : D K → D K → D K) (op : K → K → K),
      (∀ a b : K, pick (Arith.rnd a) (Arith.rnd b) = Arith.rnd (op a b)) → ∀ (qs : List K) (q : K),
      (qs.map Arith.rnd).foldl pick (Arith.rnd q) = Arith.rnd (qs.foldl op q) := by
    intro pick op hop qs
    induction qs with
    | nil => intro q; rfl
    | cons x qs ih => intro q; rw [List.map_cons, List.foldl_cons, List.foldl_cons, hop, ih]
  have forallP : ∀ (es : List (Expr K)) (qs : List K),
      List.Forall₂ (fun e q => P q ∧ ((ι q : ℝ) : EReal) = rob (ι T) X (castExpr ι e) (ι t)) es qs →
      ∀ x ∈ qs, P x := by
    intro es qs h
    induction h with
    | nil => simp
    | cons h _ ih => intro x hx; rcases List.mem_cons.1 hx with rfl | hx
                     · exact h.1
                     · exact ih x hx
  induction he with
  | @chain e he =>
    intro hu z hz
    obtain ⟨n, zs, h1, h2, h3, h4, h5⟩ := chain_rounded hι hneg r T sig e he
      (fun n hn => ⟨(hu n hn).1, (hu n hn).2.1, (hu n hn).2.2.1, (hu n hn).2.2.2.1⟩) z hz
    obtain ⟨-, hi, -, -, htm⟩ := hu n h1
    have hzi : Increasing zs := by unfold Increasing; rw [h2]; exact hi
    rw [← h2] at htm
    obtain ⟨p, hp, hpt⟩ := List.mem_map.1 htm
    refine ⟨p.2, h5 p hp, ⟨?_, ?_⟩, ?_⟩
    · rw [h3, ← hpt]; exact List.mem_map.2 ⟨p, hp, rfl⟩
    · intro w hw
      rw [h3] at hw
      obtain ⟨q, hq, e⟩ := List.mem_map.1 hw
      simp only [rl, Prod.mk.injEq, D.fin.injEq] at e
      obtain rfl : q = p := by
        have hev := eval_mem hzi hq
        have hev' := eval_mem hzi hp
        rw [e.1, ← hpt, hev'] at hev
        exact Prod.ext (e.1.trans hpt.symm) hev.symm
      exact e.2.symm
    · have := h4.1 (ι p.1, ι p.2) (List.mem_map.2 ⟨p, hp, rfl⟩)
      rw [hpt] at this
      exact this
  | @not e _ ih =>
    intro hu z hz
    obtain ⟨x, h1, h3⟩ := not_ok hz
    obtain ⟨q, h4, ⟨h5, h6⟩, h7⟩ := ih (fun n hn => hu n (.not hn)) x h1
    refine ⟨-q, hneg q h4, ?_, ?_⟩
    · unfold HasSample
      rw [h3, ← odd_neg]
      refine ⟨?_, ?_⟩
      · obtain ⟨s, hs, e⟩ := List.mem_map.1 h5
        simp only [tv, Prod.mk.injEq] at e
        exact List.mem_map.2 ⟨s, hs, by rw [e.1, e.2]⟩
      · intro w hw
        obtain ⟨s, hs, e⟩ := List.mem_map.1 hw
        simp only [Prod.mk.injEq] at e
        rw [← e.2, h6 s.value (List.mem_map.2 ⟨s, hs, by rw [tv, e.1]⟩)]
    · rw [castExpr, rob, ← h7, map_neg, EReal.coe_neg]
  | @and as hne hsub ih =>
    intro hu z hz
    rw [RobustnessOp.compute] at hz
    simp only [Outcome.bind_eq_ok] at hz
    obtain ⟨ys, h1, -, -, h⟩ := hz
    have f := (computeArgs_any r count ht hm hc _ ys h1).1
    obtain ⟨qs, h2, h3⟩ := args _ ys h1 fun e he => ih e he fun n hn => hu n (.and he hn)
    obtain ⟨a, as, rfl⟩ := List.exists_cons_of_ne_nil hne
    cases h2 with
    | @cons _ q _ qs h2 h4 =>
      refine ⟨qs.foldl min q, foldP min (fun a b => by rcases le_total a b with h | h <;> simp [h]) qs q h2.1 (forallP _ _ h4),
        ?_, ?_⟩
      · rw [← foldR minOf min rnd_min]
        exact (vec_any ofValues_le f h).2.1 _ _ _ h3
      · rw [castExpr, rob, castExprs_eq, List.map_cons, robAll, ← h2.2]
        clear h2 h3 f h1 h ih hu hne hsub
        induction h4 generalizing q with
        | nil => simp [robAll]
        | cons h5 _ ih =>
          rw [List.foldl_cons, ih, List.map_cons, robAll, ← h5.2, hι.monotone.map_min, coe_inf, inf_assoc]
  | @or as hne hsub ih =>
    intro hu z hz
    rw [RobustnessOp.compute] at hz
    simp only [Outcome.bind_eq_ok] at hz
    obtain ⟨ys, h1, -, -, h⟩ := hz
    have f := (computeArgs_any r count ht hm hc _ ys h1).1
    obtain ⟨qs, h2, h3⟩ := args _ ys h1 fun e he => ih e he fun n hn => hu n (.or he hn)
    obtain ⟨a, as, rfl⟩ := List.exists_cons_of_ne_nil hne
    cases h2 with
    | @cons _ q _ qs h2 h4 =>
      refine ⟨qs.foldl max q, foldP max (fun a b => by rcases le_total a b with h | h <;> simp [h]) qs q h2.1 (forallP _ _ h4),
        ?_, ?_⟩
      · rw [← foldR maxOf max rnd_max]
        exact (vec_any ofValues_ge f h).2.1 _ _ _ h3
      · rw [castExpr, rob, castExprs_eq, List.map_cons, robAny, ← h2.2]
        clear h2 h3 f h1 h ih hu hne hsub
        induction h4 generalizing q with
        | nil => simp [robAny]
        | cons h5 _ ih =>
          rw [List.foldl_cons, ih, List.map_cons, robAny, ← h5.2, hι.monotone.map_max, coe_sup, sup_assoc]

end cast

theorem chain_total {K : Type} [Field K] [LinearOrder K] [IsStrictOrderedRing K] [Arith K] [SaneArith K]
    {C : K → Prop} (r : RobustnessOp K) (sig : String → List (K × K)) (e : Expr K) (he : Chain C e) :
    (∀ n, Uses n e → (∃ x, r.trace.lookup n = some x ∧ Represents x (sig n)) ∧ sig n ≠ []) →
    ∃ z n, r.compute e = .ok z ∧ Uses n e ∧ z.samples.map Sample.time = (sig n).map fun p => .fin p.1 := by
  have fint : ∀ {z : Signal K} {n : String},
      (z.samples.map Sample.time = (sig n).map fun p => D.fin p.1) → FinTimes z.samples := by
    intro z n h a ha
    have : a.time ∈ (sig n).map fun p => D.fin p.1 := by rw [← h]; exact List.mem_map_of_mem ha
    obtain ⟨q, -, hq⟩ := List.mem_map.1 this
    exact ⟨q.1, hq.symm⟩
  have temp : ∀ {comp : Cmp K} {op : D K → D K → D K}, Selects comp op → ∀ {y : Signal K} {n : String},
      WF y → (y.samples.map Sample.time = (sig n).map fun p => D.fin p.1) → sig n ≠ [] →
      ∃ z, r.temporal comp y Interval.default = .ok z ∧
        z.samples.map Sample.time = (sig n).map fun p => D.fin p.1 := by
    intro comp op hc y n hw ht hne
    have : minmaxSeq comp y = r.temporal comp y Interval.default := by
      rcases temporal_sane r comp (fint ht) Interval.default with h | ⟨h, -⟩
      · exact h.symm
      · exact absurd h (by simp [Interval.default, Interval.asDouble, Interval.numAsDouble])
    rw [← this]
    obtain ⟨l, hl, rfl⟩ := (wf_iff y).1 hw
    rcases List.eq_nil_or_concat l with rfl | ⟨l, b, rfl⟩
    · have : sig n = [] := by simpa [build] using ht.symm
      exact absurd this hne
    rw [List.concat_eq_append] at *
    have hz := minmaxSeq_build hc l b hl
    exact ⟨_, hz, ((minmaxSeq_times hz).1).trans ht⟩
  induction he with
  | @pred n op c hc =>
    intro hu
    obtain ⟨⟨x, h1, h2⟩, -⟩ := hu n (.pred op _)
    have h3 : (x.samples.map fun s => (s.time, RobustnessOp.predValue op (.fin c) s.value)) =
        ((sig n).map fun p => (p.1, marg op c p.2)).map rl := by
      rw [map_samples (f := D.fin) h2.2 (RobustnessOp.predValue op (.fin c))]
      simp only [predValue_rnd]
      simp [rl, Function.comp_def]
    have hi : Increasing (sig n) := by
      have := (ordered_iff _).1 h2.1.1
      rw [h2.2] at this
      exact (incr_lift _).1 this
    have hi' : Increasing ((sig n).map fun p => (p.1, marg op c p.2)) := by
      unfold Increasing; rw [List.map_map]; exact hi
    refine ⟨⟨build ((x.samples.map fun s => (⟨s.time, RobustnessOp.predValue op (.fin c) s.value, 0⟩ : Sample K)).map tv)⟩,
      n, ?_, .pred op _, ?_⟩
    · rw [RobustnessOp.compute, RobustnessOp.pred, show r.trace.at_ n = .ok x by unfold Trace.at_; rw [h1], Outcome.bind_ok, ofSamples_eq, if_pos]
      rw [List.map_map]
      exact h3 ▸ (incr_rl _).2 hi'
    · have := congrArg (List.map Prod.fst) (build_map_tv
        ((x.samples.map fun s => (⟨s.time, RobustnessOp.predValue op (.fin c) s.value, 0⟩ : Sample K)).map tv))
      rw [List.map_map] at this
      refine this.trans ?_
      have h4 := congrArg (List.map Prod.fst) h3
      simpa [tv, rl, Function.comp_def] using h4
  | @not e _ ih =>
    intro hu
    obtain ⟨z, n, h1, h2, h3⟩ := ih fun n hn => hu n (.not hn)
    have hw := compute_wf _ _ _ h1
    have hi : Incr ((z.samples.map Sample.neg).map tv) := by
      have := (ordered_iff _).1 hw.1
      rw [List.map_map]
      exact incr_times (by simp [tv, Sample.neg, Function.comp_def]) this
    refine ⟨⟨build ((z.samples.map Sample.neg).map tv)⟩, n, ?_, .not h2, ?_⟩
    · rw [RobustnessOp.compute, h1, Outcome.bind_ok, RobustnessOp.negate, ofSamples_eq, if_pos hi]
    · rw [← h3]
      have := congrArg (List.map Prod.fst) (build_map_tv ((z.samples.map Sample.neg).map tv))
      rw [List.map_map] at this
      refine this.trans ?_
      simp [tv, Sample.neg, Function.comp_def]
  | @always e _ ih =>
    intro hu
    obtain ⟨y, n, h1, h2, h3⟩ := ih fun n hn => hu n (.always hn)
    obtain ⟨z, h4, h5⟩ := temp selects_le (compute_wf _ _ _ h1) h3 (hu n (.always h2)).2
    exact ⟨z, n, by rw [Expr.Always, RobustnessOp.compute, h1, Outcome.bind_ok, h4], .always h2, h5⟩
  | @eventually e _ ih =>
    intro hu
    obtain ⟨y, n, h1, h2, h3⟩ := ih fun n hn => hu n (.eventually hn)
    obtain ⟨z, h4, h5⟩ := temp selects_ge (compute_wf _ _ _ h1) h3 (hu n (.eventually h2)).2
    exact ⟨z, n, by rw [Expr.Eventually, RobustnessOp.compute, h1, Outcome.bind_ok, h4], .eventually h2, h5⟩

end Verif
