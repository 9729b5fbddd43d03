import Verif.Spec.Safe
import Verif.Proofs.Keep
import Verif.Proofs.Errors

/-! # Evaluation of signals that fit together -/

set_option linter.unusedSectionVars false

namespace Verif
open Spec

/-- The outcome is an exception or a value with the property. -/
def Tidy {α : Type} (P : α → Prop) : Outcome α → Prop
  | .ok a => P a
  | .throw _ => True
  | _ => False

namespace Tidy
variable {α β : Type}

theorem bind {P : α → Prop} {Q : β → Prop} {x : Outcome α} {f : α → Outcome β} (hx : Tidy P x)
    (hf : ∀ a, x = .ok a → P a → Tidy Q (f a)) : Tidy Q (x >>= f) := by
  cases x with
  | ok a => exact hf a rfl hx
  | throw e => trivial
  | abort => exact hx.elim
  | ub u => exact hx.elim
  | diverge => exact hx.elim

theorem mono {P Q : α → Prop} {x : Outcome α} (hx : Tidy P x) (h : ∀ a, x = .ok a → P a → Q a) : Tidy Q x := by
  cases x with
  | ok a => exact h a rfl hx
  | throw e => trivial
  | abort => exact hx.elim
  | ub u => exact hx.elim
  | diverge => exact hx.elim

end Tidy

section
variable {K : Type} [Field K] [LinearOrder K] [IsStrictOrderedRing K] [Arith K]

theorem pushBack_tidy (s : Signal K) (x : Sample K) : Tidy (fun _ => True) (s.pushBack x) := by
  unfold Signal.pushBack
  split
  · trivial
  · split <;> trivial

theorem ofSamples_tidy (xs : List (Sample K)) : Tidy (fun _ => True) (Signal.ofSamples xs) := by
  rw [ofSamples_eq]
  split <;> trivial

theorem pairLoop_tidy (comp : Cmp K) : ∀ (is js : List (Sample K)) (out : Signal K) (c : Chosen)
    (pi pj : Option (Sample K)), (c = .NONE ∨ (pi.isSome = true ∧ pj.isSome = true)) →
    Tidy (fun _ => True) (minmaxPairLoop comp out c pi pj is js) := by
  intro is
  induction is with
  | nil => intro js out c pi pj _; simp only [minmaxPairLoop]; trivial
  | cons i is ih =>
    intro js out c pi pj hc
    cases js with
    | nil => simp only [minmaxPairLoop]; trivial
    | cons j js =>
      rw [minmaxPairLoop]
      have next : ∀ (s : Signal K) (a : Sample K) (c : Chosen),
          Tidy (fun _ => True) (s.pushBack a >>= fun out => minmaxPairLoop comp out c (some i) (some j) is js) :=
        fun s a c => Tidy.bind (pushBack_tidy _ _) fun _ _ _ => ih _ _ _ _ _ (.inr ⟨rfl, rfl⟩)
      have cross : ∀ (p q : Option (Sample K)) (t : D K), p.isSome = true → q.isSome = true →
          Tidy (fun _ => True) (insertCrossing out p q t) := by
        intro p q t hp hq
        obtain ⟨p, rfl⟩ := Option.isSome_iff_exists.1 hp
        obtain ⟨q, rfl⟩ := Option.isSome_iff_exists.1 hq
        unfold insertCrossing derefPrev
        simp only [Outcome.bind_ok]
        split
        · exact pushBack_tidy _ _
        · trivial
      simp only
      split
      · split
        · rename_i h
          rcases hc with hc | ⟨h1, h2⟩
          · rw [hc] at h; cases h
          · exact Tidy.bind (cross _ _ _ (by assumption) (by assumption)) fun _ _ _ => next _ _ _
        · exact next _ _ _
      · split
        · rename_i h
          rcases hc with hc | ⟨h1, h2⟩
          · rw [hc] at h; cases h
          · exact Tidy.bind (cross _ _ _ (by assumption) (by assumption)) fun _ _ _ => next _ _ _
        · exact next _ _ _

/-- What is known of the value of a formula with the leaves `P`. -/
structure Good (P : Signal K → Prop) (z : Signal K) : Prop where
  ne : z.samples ≠ []
  fin : FinT z
  keeps : ∀ x, P x → Keeps x z
  begins : ∃ x, P x ∧ z.beginTime = x.beginTime
  range : ∀ t, (∀ x, P x → InRange t x) → InRange t z
  inside : ∀ x, P x → ∀ t ∈ times x, InRange t x

theorem mem_beginTime {s : Signal K} (hs : s.samples ≠ []) : s.beginTime ∈ times s := by
  have hs : times s ≠ [] := by simpa [times] using hs
  rw [beginTime_times]
  obtain ⟨a, l, e⟩ := List.exists_cons_of_ne_nil hs
  rw [e]; simp

theorem finT_ne_nan {s : Signal K} (hs : FinT s) {t : D K} (ht : t ∈ times s) : t ≠ .nan := by
  obtain ⟨a, ha, rfl⟩ := List.mem_map.1 ht
  exact hs.2.noNaN a ha

theorem finT_inside {s : Signal K} (hs : FinT s) {t : D K} (ht : t ∈ times s) : InRange t s := by
  obtain ⟨a, ha, rfl⟩ := List.mem_map.1 ht
  refine ⟨beginTime_le_mem hs.sorted hs.2.noNaN ha, ?_⟩
  have hp := (finT_strict hs).2
  rw [endTime_times]
  rcases List.eq_nil_or_concat s.samples with e | ⟨l, b, e⟩
  · rw [e] at ha; simp at ha
  rw [List.concat_eq_append] at e
  have hn := hs.2.noNaN
  unfold times
  rw [e] at hp ha hn ⊢
  simp only [List.map_append, List.map_cons, List.map_nil, List.getLast?_append, List.getLast?_singleton,
    Option.some_or, Option.getD_some]
  rcases List.mem_append.1 ha with h | h
  · rw [List.map_append] at hp
    have := (List.pairwise_append.1 hp).2.2 _ (List.mem_map_of_mem h) b.time (by simp)
    simp only [D.le, this, Bool.true_or]
  · rw [List.mem_singleton.1 h]; exact D.le_refl (hn b (by simp))

theorem D.max_of_le {a b : D K} (h : a.le b = true) : D.max a b = b := by
  unfold D.max
  split
  · rfl
  · rename_i h'
    simp only [D.le, Bool.or_eq_true] at h
    rcases h with h | h
    · exact absurd h h'
    · cases a <;> cases b <;> simp_all [D.eq]

theorem D.max_of_ge {a b : D K} (h : b.le a = true) : D.max a b = a := by
  unfold D.max
  split
  · rename_i h'
    have : a.le b = true := by simp [D.le, h']
    exact D.le_antisymm h this
  · rfl

/-- The later of the two begin times is a timestamp of both values. -/
theorem good_meet {P Q : Signal K → Prop} {x y : Signal K} (gx : Good P x) (gy : Good Q y)
    (hfit : ∀ a b, P a → Q b → D.max a.beginTime b.beginTime ∈ times a ∧ D.max a.beginTime b.beginTime ∈ times b) :
    D.max x.beginTime y.beginTime ∈ times x ∧ D.max x.beginTime y.beginTime ∈ times y := by
  have nx := finT_ne_nan gx.fin (mem_beginTime gx.ne)
  have ny := finT_ne_nan gy.fin (mem_beginTime gy.ne)
  have bx := finT_inside gx.fin (mem_beginTime gx.ne)
  have bY := finT_inside gy.fin (mem_beginTime gy.ne)
  rcases D.le_total nx ny with h | h
  · rw [D.max_of_le h]
    refine ⟨?_, mem_beginTime gy.ne⟩
    obtain ⟨b, hb, eb⟩ := gy.begins
    rw [eb] at h ⊢
    have hm : ∀ a, P a → b.beginTime ∈ times a := by
      intro a ha
      have := (hfit a b ha hb).1
      rwa [D.max_of_le (D.le_trans ((gx.keeps a ha).1 _ bx).1 h)] at this
    have hr : InRange b.beginTime x := gx.range _ fun a ha => gx.inside a ha _ (hm a ha)
    obtain ⟨a, ha, -⟩ := gx.begins
    exact (gx.keeps a ha).2 _ (hm a ha) hr
  · rw [D.max_of_ge h]
    refine ⟨mem_beginTime gx.ne, ?_⟩
    obtain ⟨a, ha, ea⟩ := gx.begins
    rw [ea] at h ⊢
    have hm : ∀ b, Q b → a.beginTime ∈ times b := by
      intro b hb
      have := (hfit a b ha hb).2
      rwa [D.max_of_ge (D.le_trans ((gy.keeps b hb).1 _ bY).1 h)] at this
    have hr : InRange a.beginTime y := gy.range _ fun b hb => gy.inside b hb _ (hm b hb)
    obtain ⟨b, hb, -⟩ := gy.begins
    exact (gy.keeps b hb).2 _ (hm b hb) hr

theorem good_pair {P Q : Signal K → Prop} {x y z : Signal K} (gx : Good P x) (gy : Good Q y)
    (hm : D.max x.beginTime y.beginTime ∈ times x ∧ D.max x.beginTime y.beginTime ∈ times y)
    (hz : FinT z) (k1 : Keeps x z) (k2 : Keeps y z) (k3 : ∀ t, InRange t x → InRange t y → InRange t z)
    (hne : z.samples ≠ []) : Good (fun s => P s ∨ Q s) z := by
  have bz := finT_inside hz (mem_beginTime hne)
  refine ⟨hne, hz, ?_, ?_, ?_, ?_⟩
  · rintro s (hs | hs)
    · exact (gx.keeps s hs).trans k1
    · exact (gy.keeps s hs).trans k2
  · have h1 := k3 _ (finT_inside gx.fin hm.1) (finT_inside gy.fin hm.2)
    have hx := (k1.1 _ bz).1
    have hy := (k2.1 _ bz).1
    rcases D.max_eq_or x.beginTime y.beginTime with e | e
    · obtain ⟨a, ha, ea⟩ := gx.begins
      exact ⟨a, .inl ha, by rw [← ea]; rw [e] at h1; exact D.le_antisymm h1.1 hx⟩
    · obtain ⟨a, ha, ea⟩ := gy.begins
      exact ⟨a, .inr ha, by rw [← ea]; rw [e] at h1; exact D.le_antisymm h1.1 hy⟩
  · intro t ht
    exact k3 t (gx.range t fun s hs => ht s (.inl hs)) (gy.range t fun s hs => ht s (.inr hs))
  · rintro s (hs | hs)
    · exact gx.inside s hs
    · exact gy.inside s hs

theorem good_of_times {P : Signal K → Prop} {x z : Signal K} (g : Good P x) (hz : FinT z)
    (h : times z = times x) : Good P z := by
  have hb : z.beginTime = x.beginTime := by rw [beginTime_times z, h, ← beginTime_times]
  refine ⟨?_, hz, fun s hs => keeps_of_times' h (g.keeps s hs), ?_, fun t ht => inRange_of_times h (g.range t ht),
    g.inside⟩
  · have : times z ≠ [] := by rw [h]; simpa [times] using g.ne
    simpa [times] using this
  · obtain ⟨a, ha, e⟩ := g.begins; exact ⟨a, ha, hb.trans e⟩

theorem good_congr {P Q : Signal K → Prop} {z : Signal K} (g : Good P z) (h : ∀ x, P x ↔ Q x) : Good Q z := by
  have : P = Q := funext fun x => propext (h x)
  exact this ▸ g

/-- The predicate has the timestamps of its signal. -/
theorem good_leaf {P : Signal K → Prop} {x z : Signal K} (hz : FinT z) (hne : z.samples ≠ []) (hx : P x)
    (hP : ∀ s, P s → times s = times z) : Good P z := by
  refine ⟨hne, hz, fun s hs => keeps_of_times (hP s hs) (Keeps.refl z), ⟨x, hx, ?_⟩, fun t ht => ?_, fun s hs t ht => ?_⟩
  · rw [beginTime_times z, ← hP x hx, ← beginTime_times]
  · exact inRange_of_times (hP x hx).symm (ht x hx)
  · rw [hP s hs] at ht
    exact inRange_of_times (hP s hs) (finT_inside hz ht)

theorem pair_tidy {nd : Bool} {comp : Cmp K} {pick : D K → D K → D K} (hp : OfValues comp pick)
    {P Q : Signal K → Prop} {x y : Signal K} (gx : Good P x) (gy : Good Q y)
    (hfit : ∀ a b, P a → Q b → D.max a.beginTime b.beginTime ∈ times a ∧ D.max a.beginTime b.beginTime ∈ times b) :
    Tidy (Good fun s => P s ∨ Q s) (minmaxPair nd comp x y false) := by
  have hm := good_meet gx gy hfit
  obtain ⟨r, hr⟩ := (synchronize_ok_iff x y gx.fin.sorted gy.fin.sorted gx.fin.2.noNaN gy.fin.2.noNaN gx.ne gy.ne).2
    ⟨by obtain ⟨a, ha, e⟩ := List.mem_map.1 hm.1; exact ⟨a, ha, e⟩,
     by obtain ⟨a, ha, e⟩ := List.mem_map.1 hm.2; exact ⟨a, ha, e⟩⟩
  have ht : Tidy (fun _ => True) (minmaxPair nd comp x y false) := by
    rw [minmaxPair_finT nd comp gx.fin gy.fin, hr]
    exact pairLoop_tidy comp _ _ _ _ _ _ (.inl rfl)
  refine ht.mono fun z e _ => ?_
  obtain ⟨k1, k2, k3⟩ := pair_keeps gx.fin gy.fin e
  have hz := (pair_any hp gx.fin gy.fin e).1
  refine good_pair gx gy hm hz k1 k2 k3 ?_
  intro h0
  have h1 := k3 _ (finT_inside gx.fin hm.1) (finT_inside gy.fin hm.2)
  have h2 := (k1.2 _ hm.1 h1)
  simp [times, h0] at h2

theorem until_tidy {nd : Bool} {P Q : Signal K → Prop} {x y : Signal K} (gx : Good P x) (gy : Good Q y)
    (hfit : ∀ a b, P a → Q b → D.max a.beginTime b.beginTime ∈ times a ∧ D.max a.beginTime b.beginTime ∈ times b) :
    Tidy (Good fun s => P s ∨ Q s) (computeUntil nd x y) := by
  have hm := good_meet gx gy hfit
  obtain ⟨r, hr⟩ := (synchronize_ok_iff x y gx.fin.sorted gy.fin.sorted gx.fin.2.noNaN gy.fin.2.noNaN gx.ne gy.ne).2
    ⟨by obtain ⟨a, ha, e⟩ := List.mem_map.1 hm.1; exact ⟨a, ha, e⟩,
     by obtain ⟨a, ha, e⟩ := List.mem_map.1 hm.2; exact ⟨a, ha, e⟩⟩
  have ht : Tidy (fun _ => True) (computeUntil nd x y) := by
    rw [computeUntil_finT nd gx.fin gy.fin, hr]
    exact ofSamples_tidy _
  refine ht.mono fun z e _ => ?_
  obtain ⟨k1, k2, k3⟩ := until_keeps gx.fin gy.fin e
  have hz := (computeUntil_any gx.fin gy.fin e).1
  refine good_pair gx gy hm hz k1 k2 k3 ?_
  intro h0
  have h1 := k3 _ (finT_inside gx.fin hm.1) (finT_inside gy.fin hm.2)
  have h2 := (k1.2 _ hm.1 h1)
  simp [times, h0] at h2

/-- A list of values, each good for its own leaves. -/
theorem fold_tidy {nd : Bool} {comp : Cmp K} {pick : D K → D K → D K} (hp : OfValues comp pick)
    {α : Type} (L : α → Signal K → Prop) :
    ∀ (es : List α) (xs : List (Signal K)) (P : Signal K → Prop) (acc : Signal K),
    List.Forall₂ (fun e x => Good (L e) x) es xs → Good P acc →
    (∀ a b, (P a ∨ ∃ e ∈ es, L e a) → (P b ∨ ∃ e ∈ es, L e b) →
      D.max a.beginTime b.beginTime ∈ times a ∧ D.max a.beginTime b.beginTime ∈ times b) →
    Tidy (Good fun s => P s ∨ ∃ e ∈ es, L e s) (minmaxFold nd comp false acc xs) := by
  intro es
  induction es with
  | nil =>
    intro xs P acc h g _
    cases h
    rw [minmaxFold]
    exact good_congr g fun s => by simp
  | cons e es ih =>
    intro xs P acc h g hfit
    cases h with | cons h1 h2 => ?_
    rw [minmaxFold]
    refine Tidy.bind (pair_tidy hp g h1 fun a b ha hb => hfit a b (.inl ha) (.inr ⟨e, by simp, hb⟩)) fun z _ gz => ?_
    refine (ih _ (fun s => P s ∨ L e s) z h2 gz ?_).mono fun w _ gw => good_congr gw fun s => ?_
    · intro a b ha hb
      refine hfit a b ?_ ?_
      · rcases ha with (h | h) | ⟨e', h, h'⟩
        · exact .inl h
        · exact .inr ⟨e, by simp, h⟩
        · exact .inr ⟨e', by simp [h], h'⟩
      · rcases hb with (h | h) | ⟨e', h, h'⟩
        · exact .inl h
        · exact .inr ⟨e, by simp, h⟩
        · exact .inr ⟨e', by simp [h], h'⟩
    · simp only [List.mem_cons, exists_eq_or_imp, or_assoc]

theorem vec_tidy {nd : Bool} {comp : Cmp K} {pick : D K → D K → D K} (hp : OfValues comp pick)
    {α : Type} (L : α → Signal K → Prop) {es : List α} {xs : List (Signal K)} (hes : es ≠ [])
    (h : List.Forall₂ (fun e x => Good (L e) x) es xs)
    (hfit : ∀ a b, (∃ e ∈ es, L e a) → (∃ e ∈ es, L e b) →
      D.max a.beginTime b.beginTime ∈ times a ∧ D.max a.beginTime b.beginTime ∈ times b) :
    Tidy (Good fun s => ∃ e ∈ es, L e s) (minmaxVec nd comp xs false) := by
  cases h with
  | nil => exact absurd rfl hes
  | @cons e x es xs h1 h2 =>
    have key := fold_tidy (nd := nd) hp L es xs (L e) x h2 h1 (by
      intro a b ha hb
      refine hfit a b ?_ ?_
      · rcases ha with h | ⟨e', h, h'⟩
        · exact ⟨e, by simp, h⟩
        · exact ⟨e', by simp [h], h'⟩
      · rcases hb with h | ⟨e', h, h'⟩
        · exact ⟨e, by simp, h⟩
        · exact ⟨e', by simp [h], h'⟩)
    have e1 : minmaxVec nd comp (x :: xs) false = minmaxFold nd comp false x xs := by
      unfold minmaxVec
      cases xs with
      | nil => simp [minmaxFold]
      | cons y xs =>
        cases xs with
        | nil => simp [minmaxFold, Outcome.bind_ok_right]
        | cons w xs => rfl
    rw [e1]
    exact key.mono fun w _ gw => good_congr gw fun s => by simp only [List.mem_cons, exists_eq_or_imp]

theorem temporal_tidy [SaneArith K] {r : RobustnessOp K} (comp : Cmp K) (i : Interval K)
    {P : Signal K → Prop} {y : Signal K} (g : Good P y) :
    Tidy (fun z => times z = times y) (r.temporal comp y i) := by
  rcases temporal_sane r comp g.fin.2 i with h | ⟨-, -, h⟩
  · rw [h]
    have ht : Tidy (fun _ => True) (minmaxSeq comp y) := by
      unfold minmaxSeq
      refine Tidy.bind (P := fun _ => True) ?_ fun _ _ _ => ofSamples_tidy _
      unfold Signal.back
      rw [List.getLast?_eq_some_getLast g.ne]
      trivial
    exact ht.mono fun z e _ => (minmaxSeq_times e).1
  · rw [h]; trivial

mutual
theorem compute_tidy [SaneArith K] {r : RobustnessOp K} (hf : AllFin r) :
    ∀ (e : Expr K), Arity e → Fit (Leaf r.trace r.minTime r.maxTime e) →
      Tidy (Good (Leaf r.trace r.minTime r.maxTime e)) (r.compute e)
  | .const b, _, _ => by
    have ht : Tidy (fun _ => True) (r.compute (.const b)) := by
      rw [RobustnessOp.compute, RobustnessOp.const]; exact ofSamples_tidy _
    refine ht.mono fun z e _ => ?_
    have hz := hf _ _ e
    have htz : times z = [r.minTime, r.maxTime] := by
      rw [RobustnessOp.compute, RobustnessOp.const] at e
      have := ofSamples_times e
      simpa [times] using this
    refine good_leaf (x := z) hz ?_ (.const htz) fun s hs => ?_
    · intro h0; simp [times, h0] at htz
    · cases hs with | const h => exact h.trans htz.symm
  | .pred n op c, _, hfit => by
    have ht : Tidy (fun _ => True) (r.compute (.pred n op c)) := by
      rw [RobustnessOp.compute, RobustnessOp.pred]
      refine Tidy.bind (P := fun _ => True) ?_ fun _ _ _ => ofSamples_tidy _
      unfold Trace.at_; split <;> trivial
    refine ht.mono fun z e _ => ?_
    have hz := hf _ _ e
    obtain ⟨x, h1, -, h3⟩ := pred_ok e
    have htz : times z = times x := by
      have := congrArg (List.map Prod.fst) h3
      simpa [tv, Function.comp_def, times] using this
    have hne := hfit.1 x (.pred h1)
    refine good_leaf (x := x) hz ?_ (.pred h1) fun s hs => ?_
    · have : times z ≠ [] := by rw [htz]; simpa [times] using hne
      simpa [times] using this
    · cases hs with | pred h => ?_
      rw [h1, Option.some.injEq] at h; subst h; exact htz.symm
  | .not e, ha, hfit => by
    have ih := compute_tidy hf e (by cases ha; assumption)
      ⟨fun x hx => hfit.1 x (.not hx), fun x y hx hy => hfit.2 x y (.not hx) (.not hy)⟩
    have ht : Tidy (fun z => ∃ y, r.compute e = .ok y ∧ Good (Leaf r.trace r.minTime r.maxTime e) y)
        (r.compute (.not e)) := by
      rw [RobustnessOp.compute]
      exact Tidy.bind ih fun y h g => (ofSamples_tidy _).mono fun _ _ _ => ⟨y, h, g⟩
    refine ht.mono fun z h ⟨y, h1, g⟩ => ?_
    obtain ⟨y', h1', h3⟩ := not_ok h
    rw [h1, Outcome.ok.injEq] at h1'; subst h1'
    refine good_congr (good_of_times g (hf _ _ h) ?_) fun s => ⟨.not, fun h => by cases h; assumption⟩
    have := congrArg (List.map Prod.fst) h3
    simpa [tv, Function.comp_def, times] using this
  | .and args, ha, hfit => by
    cases ha with | and hl ha => ?_
    have ih := computeArgs_tidy hf args ha
      ⟨fun x ⟨e, he, hx⟩ => hfit.1 x (.and he hx), fun x y ⟨e, he, hx⟩ ⟨e', he', hy⟩ => hfit.2 x y (.and he hx) (.and he' hy)⟩
    rw [RobustnessOp.compute]
    refine Tidy.bind ih fun ys h1 g => ?_
    have hlen : (ys.length == args.length) = true := by
      have := g.length_eq; simp [this]
    rw [assert_true _ hlen, Outcome.bind_ok]
    refine (vec_tidy ofValues_le (fun e => Leaf r.trace r.minTime r.maxTime e) (by rintro rfl; simp at hl) g ?_).mono
      fun z _ gz => good_congr gz fun s => ⟨fun ⟨e, he, h⟩ => .and he h, fun h => by cases h with | and he h => exact ⟨_, he, h⟩⟩
    rintro a b ⟨e, he, h⟩ ⟨e', he', h'⟩
    exact hfit.2 a b (.and he h) (.and he' h')
  | .or args, ha, hfit => by
    cases ha with | or hl ha => ?_
    have ih := computeArgs_tidy hf args ha
      ⟨fun x ⟨e, he, hx⟩ => hfit.1 x (.or he hx), fun x y ⟨e, he, hx⟩ ⟨e', he', hy⟩ => hfit.2 x y (.or he hx) (.or he' hy)⟩
    rw [RobustnessOp.compute]
    refine Tidy.bind ih fun ys h1 g => ?_
    have hlen : (ys.length == args.length) = true := by
      have := g.length_eq; simp [this]
    rw [assert_true _ hlen, Outcome.bind_ok]
    refine (vec_tidy ofValues_ge (fun e => Leaf r.trace r.minTime r.maxTime e) (by rintro rfl; simp at hl) g ?_).mono
      fun z _ gz => good_congr gz fun s => ⟨fun ⟨e, he, h⟩ => .or he h, fun h => by cases h with | or he h => exact ⟨_, he, h⟩⟩
    rintro a b ⟨e, he, h⟩ ⟨e', he', h'⟩
    exact hfit.2 a b (.or he h) (.or he' h')
  | .always e i, ha, hfit => by
    have ih := compute_tidy hf e (by cases ha; assumption)
      ⟨fun x hx => hfit.1 x (.always hx), fun x y hx hy => hfit.2 x y (.always hx) (.always hy)⟩
    have ht : Tidy (fun z => ∃ y, r.compute e = .ok y ∧ Good (Leaf r.trace r.minTime r.maxTime e) y ∧ times z = times y)
        (r.compute (.always e i)) := by
      rw [RobustnessOp.compute]
      exact Tidy.bind ih fun y h g => (temporal_tidy _ i g).mono fun _ _ h3 => ⟨y, h, g, h3⟩
    refine ht.mono fun z h ⟨y, h1, g, h3⟩ => ?_
    exact good_congr (good_of_times g (hf _ _ h) h3) fun s => ⟨.always, fun h => by cases h; assumption⟩
  | .eventually e i, ha, hfit => by
    have ih := compute_tidy hf e (by cases ha; assumption)
      ⟨fun x hx => hfit.1 x (.eventually hx), fun x y hx hy => hfit.2 x y (.eventually hx) (.eventually hy)⟩
    have ht : Tidy (fun z => ∃ y, r.compute e = .ok y ∧ Good (Leaf r.trace r.minTime r.maxTime e) y ∧ times z = times y)
        (r.compute (.eventually e i)) := by
      rw [RobustnessOp.compute]
      exact Tidy.bind ih fun y h g => (temporal_tidy _ i g).mono fun _ _ h3 => ⟨y, h, g, h3⟩
    refine ht.mono fun z h ⟨y, h1, g, h3⟩ => ?_
    exact good_congr (good_of_times g (hf _ _ h) h3) fun s => ⟨.eventually, fun h => by cases h; assumption⟩
  | .untl a b i, ha, hfit => by
    cases ha with | untl ha hb => ?_
    have iha := compute_tidy hf a ha
      ⟨fun x hx => hfit.1 x (.untl_left hx), fun x y hx hy => hfit.2 x y (.untl_left hx) (.untl_left hy)⟩
    have ihb := compute_tidy hf b hb
      ⟨fun x hx => hfit.1 x (.untl_right hx), fun x y hx hy => hfit.2 x y (.untl_right hx) (.untl_right hy)⟩
    rw [RobustnessOp.compute]
    refine Tidy.bind iha fun y _ g => Tidy.bind ihb fun y' _ g' => ?_
    have key := until_tidy (nd := r.ndebug) g g' fun s t hs ht => hfit.2 s t (.untl_left hs) (.untl_right ht)
    have key' := key.mono (Q := Good (Leaf r.trace r.minTime r.maxTime (.untl a b i)))
      fun z _ gz => good_congr gz fun s => by
        constructor
        · rintro (h | h)
          · exact .untl_left h
          · exact .untl_right h
        · intro h
          cases h with
          | untl_left h => exact .inl h
          | untl_right h => exact .inr h
    unfold RobustnessOp.untilOp
    split
    · exact key'
    · simp only
      split
      · exact key'
      · simp [computeUntilBounded, Tidy]

theorem computeArgs_tidy [SaneArith K] {r : RobustnessOp K} (hf : AllFin r) :
    ∀ (es : List (Expr K)), (∀ e ∈ es, Arity e) → Fit (fun s => ∃ e ∈ es, Leaf r.trace r.minTime r.maxTime e s) →
      Tidy (List.Forall₂ (fun e x => Good (Leaf r.trace r.minTime r.maxTime e) x) es) (r.computeArgs es)
  | [], _, _ => by rw [RobustnessOp.computeArgs]; exact .nil
  | e :: es, ha, hfit => by
    have ih := compute_tidy hf e (ha e (by simp))
      ⟨fun x hx => hfit.1 x ⟨e, by simp, hx⟩, fun x y hx hy => hfit.2 x y ⟨e, by simp, hx⟩ ⟨e, by simp, hy⟩⟩
    have ihs := computeArgs_tidy hf es (fun e he => ha e (by simp [he]))
      ⟨fun x ⟨e', he, hx⟩ => hfit.1 x ⟨e', by simp [he], hx⟩,
        fun x y ⟨e', he, hx⟩ ⟨e'', he', hy⟩ => hfit.2 x y ⟨e', by simp [he], hx⟩ ⟨e'', by simp [he'], hy⟩⟩
    rw [RobustnessOp.computeArgs]
    exact Tidy.bind ih fun y _ g => Tidy.bind ihs fun ys _ gs => .cons g gs
end

theorem trace_mem {trace : Trace K} {n : String} {x : Signal K} (h : trace.lookup n = some x) : (n, x) ∈ trace :=
  lookup_mem (by simp [Trace.at_, h])

theorem leaf_uses {trace : Trace K} {lo hi : D K} {phi : Expr K} (hc : ConstFree phi) {x : Signal K}
    (hx : Leaf trace lo hi phi x) : ∃ n, Uses n phi ∧ trace.lookup n = some x := by
  induction hx with
  | const _ => cases hc
  | @pred n op c x h => exact ⟨n, .pred op c, h⟩
  | not _ ih =>
    cases hc with | not hc => ?_
    obtain ⟨n, h1, h2⟩ := ih hc; exact ⟨n, .not h1, h2⟩
  | and he _ ih =>
    cases hc with | and hc => ?_
    obtain ⟨n, h1, h2⟩ := ih (hc _ he); exact ⟨n, .and he h1, h2⟩
  | or he _ ih =>
    cases hc with | or hc => ?_
    obtain ⟨n, h1, h2⟩ := ih (hc _ he); exact ⟨n, .or he h1, h2⟩
  | always _ ih =>
    cases hc with | always hc => ?_
    obtain ⟨n, h1, h2⟩ := ih hc; exact ⟨n, .always h1, h2⟩
  | eventually _ ih =>
    cases hc with | eventually hc => ?_
    obtain ⟨n, h1, h2⟩ := ih hc; exact ⟨n, .eventually h1, h2⟩
  | untl_left _ ih =>
    cases hc with | untl hc _ => ?_
    obtain ⟨n, h1, h2⟩ := ih hc; exact ⟨n, .untl_left h1, h2⟩
  | untl_right _ ih =>
    cases hc with | untl _ hc => ?_
    obtain ⟨n, h1, h2⟩ := ih hc; exact ⟨n, .untl_right h1, h2⟩

theorem plain_constFree {e : Expr K} (h : Plain e) : ConstFree e := by
  induction h with
  | pred => constructor
  | not _ ih => exact .not ih
  | and _ _ ih => exact .and ih
  | or _ _ ih => exact .or ih
  | always _ _ ih => exact .always ih
  | eventually _ _ ih => exact .eventually ih
  | untl _ _ _ ih ih' => exact .untl ih ih'

/-- Until ignores its interval (C33), in any rounding. -/
theorem untilOp_sane [SaneArith K] (r : RobustnessOp K) (x y : Signal K) (i : Interval K) :
    r.untilOp x y i = computeUntil r.ndebug x y := by
  unfold RobustnessOp.untilOp
  by_cases hv : i.hasValue = true
  · simp only [hv, Bool.not_true, Bool.false_eq_true, if_false]
    simp only [Interval.hasValue, Interval.isZeroToInf, Bool.and_eq_true] at hv
    obtain ⟨h1, h2⟩ := hv
    have ha : i.asDouble.1.eq 0 = true := by
      unfold Interval.asDouble
      cases hl : i.low with
      | ull n =>
        rw [hl] at h1
        simp only [Interval.numIsZero, beq_iff_eq] at h1
        have h0 : (Arith.rnd (0 : K) : D K) = .fin 0 := SaneArith.rnd_zero
        simp [Interval.numAsDouble, h1, h0, D.zero_def]
      | dbl d => rw [hl] at h1; exact h1
    have hb : i.asDouble.2.isinf = true := h2
    simp [ha, hb]
  · simp [hv]

end
end Verif
