import Verif.Spec.Keep
import Verif.Proofs.Future
import Verif.Props.Synchronize

/-! # Every timestamp of the operands is a timestamp of the result -/

set_option linter.unusedSectionVars false

namespace Verif
open Spec

section any
variable {K : Type} [Field K] [LinearOrder K] [IsStrictOrderedRing K] [Arith K]

theorem _root_.Verif.Spec.Keeps.refl (x : Signal K) : Keeps x x := ⟨fun _ h => h, fun _ h _ => h⟩

theorem _root_.Verif.Spec.Keeps.trans {x y z : Signal K} (h1 : Keeps x y) (h2 : Keeps y z) : Keeps x z :=
  ⟨fun t ht => h1.1 t (h2.1 t ht), fun t hx ht => h2.2 t (h1.2 t hx (h2.1 t ht)) ht⟩

theorem beginTime_times (x : Signal K) : x.beginTime = (times x).head?.getD 0 := by
  unfold Signal.beginTime times
  rw [List.head?_map]; cases x.samples.head? <;> rfl

theorem endTime_times (x : Signal K) : x.endTime = (times x).getLast?.getD 0 := by
  unfold Signal.endTime times
  rw [List.getLast?_map]; cases x.samples.getLast? <;> rfl

theorem keeps_of_times {x y z : Signal K} (h : times y = times x) (hk : Keeps x z) : Keeps y z := by
  unfold Keeps InRange at *
  rw [beginTime_times y, endTime_times y, h, ← beginTime_times, ← endTime_times]; exact hk

theorem keeps_of_times' {x y z : Signal K} (h : times z = times y) (hk : Keeps x y) : Keeps x z := by
  unfold Keeps InRange at *
  rw [beginTime_times z, endTime_times z, h, ← beginTime_times, ← endTime_times]; exact hk

theorem inRange_of_times {x z : Signal K} {t : D K} (h : times z = times x) (hr : InRange t x) : InRange t z := by
  unfold InRange at *
  rw [beginTime_times z, endTime_times z, h, ← beginTime_times, ← endTime_times]; exact hr

theorem insertCrossing_times {out z : Signal K} {a b : Option (Sample K)} {t : D K}
    (h : insertCrossing out a b t = .ok z) : times z = times out ∨ ∃ u, times z = times out ++ [u] := by
  rcases insertCrossing_tv h with rfl | ⟨u, v, -, e⟩
  · exact .inl rfl
  · right
    refine ⟨u, ?_⟩
    have := congrArg (List.map Prod.fst) e
    simpa [tv, Function.comp_def, times] using this

/-- The loop keeps all timestamps, and adds none at the ends. -/
theorem pairLoop_times (comp : Cmp K) : ∀ (is js : List (Sample K)) (pi pj : Option (Sample K))
    (out z : Signal K) (c : Chosen), minmaxPairLoop comp out c pi pj is js = .ok z →
    (c = .NONE ∨ out.samples ≠ []) → is.map Sample.time = js.map Sample.time →
    (times z).head? = (times out ++ is.map Sample.time).head? ∧
    (times z).getLast? = (times out ++ is.map Sample.time).getLast? ∧
    (times out ++ is.map Sample.time).Sublist (times z) := by
  intro is
  induction is with
  | nil =>
    intro js pi pj out z c h _ _
    simp only [minmaxPairLoop, Outcome.ok.injEq] at h; subst h; simp
  | cons i is ih =>
    intro js pi pj out z c h hc ht
    cases js with
    | nil => simp at ht
    | cons j js =>
      simp only [List.map_cons, List.cons.injEq] at ht
      have fin : ∀ (o1 o2 : Signal K) (w : Sample K) (c' : Chosen), w.time = i.time →
          (times o1 = times out ∨ (out.samples ≠ [] ∧ ∃ u, times o1 = times out ++ [u])) →
          o1.pushBack w = .ok o2 → minmaxPairLoop comp o2 c' (some i) (some j) is js = .ok z →
          (times z).head? = (times out ++ (i :: is).map Sample.time).head? ∧
          (times z).getLast? = (times out ++ (i :: is).map Sample.time).getLast? ∧
          (times out ++ (i :: is).map Sample.time).Sublist (times z) := by
        intro o1 o2 w c' hw ho e2 e3
        have hp : times o2 = times o1 ++ [i.time] := by rw [← hw]; exact pushBack_times e2
        obtain ⟨h1, h2, h3⟩ := ih js _ _ o2 z c' e3 (.inr (pushBack_ne e2)) ht.2
        rw [hp] at h1 h2 h3
        rcases ho with ho | ⟨hne, u, ho⟩
        · rw [ho] at h1 h2 h3
          rw [List.map_cons]
          simp only [List.append_assoc, List.singleton_append] at h1 h2 h3
          exact ⟨h1, h2, h3⟩
        · rw [ho] at h1 h2 h3
          rw [List.map_cons]
          simp only [List.append_assoc, List.singleton_append] at h1 h2 h3
          refine ⟨?_, ?_, (List.Sublist.append_left (List.sublist_cons_self _ _) _).trans h3⟩
          · rw [h1]
            obtain ⟨a, l, ha⟩ := List.exists_cons_of_ne_nil (l := times out) (by simpa [times] using hne)
            rw [ha]; simp
          · rw [h2]; simp [List.getLast?_append, List.getLast?_cons_cons]
      rw [minmaxPairLoop_cons] at h
      have hne : ∀ c', c = c' → c' ≠ .NONE → out.samples ≠ [] := by
        intro c' e hn
        rcases hc with h | h
        · exact absurd (e ▸ h) hn
        · exact h
      split at h
      · simp only [Outcome.bind_eq_ok] at h
        obtain ⟨o1, e1, o2, e2, e3⟩ := h
        refine fin o1 o2 i .X rfl ?_ e2 e3
        split at e1
        · rename_i hY
          rcases insertCrossing_times e1 with h | h
          · exact .inl h
          · exact .inr ⟨hne _ hY (by simp), h⟩
        · simp only [Outcome.ok.injEq] at e1; subst e1; exact .inl rfl
      · simp only [Outcome.bind_eq_ok] at h
        obtain ⟨o1, e1, o2, e2, e3⟩ := h
        refine fin o1 o2 j .Y ht.1.symm ?_ e2 e3
        split at e1
        · rename_i hX
          rcases insertCrossing_times e1 with h | h
          · exact .inl h
          · exact .inr ⟨hne _ hX (by simp), h⟩
        · simp only [Outcome.ok.injEq] at e1; subst e1; exact .inl rfl

theorem finT_strict {x : Signal K} (h : FinT x) : StrictTimes x :=
  ⟨h.2.noNaN, sortedT_of_ordered _ h.1.1 h.2.noNaN⟩

theorem D.min_le_left' {a b t : D K} (ha : a ≠ .nan) (hb : b ≠ .nan) (h : t.le (D.min a b) = true) :
    t.le a = true ∧ t.le b = true := by
  unfold D.min at h
  split at h
  · rename_i hlt
    exact ⟨D.le_trans h (by simp [D.le, hlt]), h⟩
  · rename_i hlt
    refine ⟨h, D.le_trans h ?_⟩
    by_contra hc
    rcases D.le_total ha hb with h' | h'
    · exact hc h'
    · cases a <;> cases b <;> simp_all [D.le, D.lt]
      rename_i u v
      exact hc.2 (_root_.le_antisymm hlt hc.1)

/-- Signals whose timestamps are, but for the ends, more than those of the synchronised signals. -/
theorem keeps_sync {x y x' y' z : Signal K} (hx : FinT x) (hy : FinT y)
    (h : synchronize x y = .ok (x', y')) (h1 : (times z).head? = (times x').head?)
    (h2 : (times z).getLast? = (times x').getLast?) (h3 : (times x').Sublist (times z)) :
    Keeps x z ∧ Keeps y z := by
  obtain ⟨-, -, c⟩ := C17_common_times x y x' y' (finT_strict hx) (finT_strict hy) h
  obtain ⟨nx, ny⟩ := synchronize_ok_ne h
  have hne : times x' ≠ [] := by simpa [times] using synchronize_ne h
  have hbz : z.beginTime ∈ times x' := by
    rw [beginTime_times z, h1]
    obtain ⟨a, l, e⟩ := List.exists_cons_of_ne_nil hne
    rw [e]; simp
  have hez : z.endTime ∈ times x' := by
    rw [endTime_times z, h2]
    rw [List.getLast?_eq_some_getLast hne]; simp
  obtain ⟨-, hb, -⟩ := (c _).1 hbz
  obtain ⟨-, -, he⟩ := (c _).1 hez
  have fin : ∀ s : Signal K, FinT s → s.samples ≠ [] → s.beginTime ≠ .nan ∧ s.endTime ≠ .nan := by
    intro s hs hn
    constructor
    · unfold Signal.beginTime
      cases hh : s.samples.head? with
      | none => simp at hh; exact absurd hh hn
      | some a => exact hs.2.noNaN a (List.mem_of_mem_head? hh)
    · unfold Signal.endTime
      cases hh : s.samples.getLast? with
      | none => simp at hh; exact absurd hh hn
      | some a => exact hs.2.noNaN a (List.mem_of_mem_getLast? hh)
  obtain ⟨bx, ex⟩ := fin x hx nx
  obtain ⟨bY, eY⟩ := fin y hy ny
  have hr : ∀ t, InRange t z → (D.max x.beginTime y.beginTime).le t = true ∧
      t.le (D.min x.endTime y.endTime) = true := fun t ht => ⟨D.le_trans hb ht.1, D.le_trans ht.2 he⟩
  refine ⟨⟨fun t ht => ?_, fun t hm ht => ?_⟩, ⟨fun t ht => ?_, fun t hm ht => ?_⟩⟩
  · exact ⟨D.le_trans (D.le_max_left bx) (hr t ht).1, (D.min_le_left' ex eY (hr t ht).2).1⟩
  · exact h3.subset ((c t).2 ⟨.inl hm, hr t ht⟩)
  · exact ⟨D.le_trans (D.le_max_right bx bY) (hr t ht).1, (D.min_le_left' ex eY (hr t ht).2).2⟩
  · exact h3.subset ((c t).2 ⟨.inr hm, hr t ht⟩)

/-- The range is the whole intersection. -/
theorem range_sync {x y x' y' z : Signal K} (hx : FinT x) (hy : FinT y)
    (h : synchronize x y = .ok (x', y')) (h1 : (times z).head? = (times x').head?)
    (h2 : (times z).getLast? = (times x').getLast?) {t : D K} (tx : InRange t x) (ty : InRange t y) :
    InRange t z := by
  obtain ⟨-, hp, c⟩ := C17_common_times x y x' y' (finT_strict hx) (finT_strict hy) h
  obtain ⟨nx, ny⟩ := synchronize_ok_ne h
  have hne : times x' ≠ [] := by simpa [times] using synchronize_ne h
  obtain ⟨u, hu⟩ := List.exists_mem_of_ne_nil _ hne
  obtain ⟨hu', u1, u2⟩ := (c u).1 hu
  have hle := D.le_trans u1 u2
  have mem : ∀ s : Signal K, s.samples ≠ [] → s.beginTime ∈ times s ∧ s.endTime ∈ times s := by
    intro s hs
    have hs : times s ≠ [] := by simpa [times] using hs
    constructor
    · rw [beginTime_times]
      obtain ⟨a, l, e⟩ := List.exists_cons_of_ne_nil hs
      rw [e]; simp
    · rw [endTime_times, List.getLast?_eq_some_getLast hs]; simp
  have fin : ∀ s : Signal K, FinT s → ∀ t ∈ times s, t ≠ .nan := by
    intro s hs t ht
    obtain ⟨a, ha, rfl⟩ := List.mem_map.1 ht
    exact hs.2.noNaN a ha
  have hb : D.max x.beginTime y.beginTime ∈ times x' := by
    refine (c _).2 ⟨?_, D.le_refl ?_, hle⟩
    · rcases D.max_eq_or x.beginTime y.beginTime with e | e <;> rw [e]
      · exact .inl (mem x nx).1
      · exact .inr (mem y ny).1
    · rcases D.max_eq_or x.beginTime y.beginTime with e | e <;> rw [e]
      · exact fin x hx _ (mem x nx).1
      · exact fin y hy _ (mem y ny).1
  have hmin : D.min x.endTime y.endTime = x.endTime ∨ D.min x.endTime y.endTime = y.endTime := by
    unfold D.min; split <;> simp
  have he : D.min x.endTime y.endTime ∈ times x' := by
    refine (c _).2 ⟨?_, hle, D.le_refl ?_⟩
    · rcases hmin with e | e <;> rw [e]
      · exact .inl (mem x nx).2
      · exact .inr (mem y ny).2
    · rcases hmin with e | e <;> rw [e]
      · exact fin x hx _ (mem x nx).2
      · exact fin y hy _ (mem y ny).2
  have hlt : ∀ a b : D K, a.lt b = true → a.le b = true := fun a b h => by simp [D.le, h]
  have nan' : ∀ a ∈ times x', a ≠ .nan := by
    intro a ha
    rcases ((c a).1 ha).1 with h | h
    · exact fin x hx a h
    · exact fin y hy a h
  refine ⟨?_, ?_⟩
  · refine D.le_trans (b := D.max x.beginTime y.beginTime) ?_ ?_
    · rw [beginTime_times z, h1]
      change (times x').Pairwise _ at hp
      obtain ⟨a, l, e⟩ := List.exists_cons_of_ne_nil hne
      rw [e] at hb hp nan' ⊢
      simp only [List.head?_cons, Option.getD_some]
      rcases List.mem_cons.1 hb with h | h
      · rw [h]; exact D.le_refl (nan' a (by simp))
      · exact hlt _ _ ((List.pairwise_cons.1 hp).1 _ h)
    · rcases D.max_eq_or x.beginTime y.beginTime with e | e <;> rw [e]
      · exact tx.1
      · exact ty.1
  · refine D.le_trans (b := D.min x.endTime y.endTime) ?_ ?_
    · rcases hmin with e | e <;> rw [e]
      · exact tx.2
      · exact ty.2
    · rw [endTime_times z, h2]
      change (times x').Pairwise _ at hp
      rcases List.eq_nil_or_concat (times x') with e | ⟨l, a, e⟩
      · exact absurd e hne
      rw [List.concat_eq_append] at e
      rw [e] at he hp nan' ⊢
      simp only [List.getLast?_append, List.getLast?_singleton, Option.some_or, Option.getD_some]
      rcases List.mem_append.1 he with h | h
      · exact hlt _ _ ((List.pairwise_append.1 hp).2.2 _ h a (by simp))
      · rw [List.mem_singleton.1 h]; exact D.le_refl (nan' a (by simp))

theorem pair_keeps {nd : Bool} {comp : Cmp K} {x y z : Signal K} (hx : FinT x) (hy : FinT y)
    (h : minmaxPair nd comp x y false = .ok z) :
    Keeps x z ∧ Keeps y z ∧ ∀ t, InRange t x → InRange t y → InRange t z := by
  rw [minmaxPair_finT nd comp hx hy] at h
  simp only [Outcome.bind_eq_ok] at h
  obtain ⟨⟨x', y'⟩, h1, h2⟩ := h
  obtain ⟨c, -⟩ := C17_common_times x y x' y' (finT_strict hx) (finT_strict hy) h1
  obtain ⟨e1, e2, e3⟩ := pairLoop_times comp _ _ _ _ _ _ _ h2 (.inl rfl) c
  have e1' : (times z).head? = (times x').head? := by simpa [times, Signal.empty] using e1
  have e2' : (times z).getLast? = (times x').getLast? := by simpa [times, Signal.empty] using e2
  obtain ⟨k1, k2⟩ := keeps_sync hx hy h1 e1' e2' (by simpa [times, Signal.empty] using e3)
  exact ⟨k1, k2, fun t tx ty => range_sync hx hy h1 e1' e2' tx ty⟩

theorem until_keeps {nd : Bool} {x y z : Signal K} (hx : FinT x) (hy : FinT y)
    (h : computeUntil nd x y = .ok z) :
    Keeps x z ∧ Keeps y z ∧ ∀ t, InRange t x → InRange t y → InRange t z := by
  rw [computeUntil_finT nd hx hy] at h
  simp only [Outcome.bind_eq_ok] at h
  obtain ⟨⟨x', y'⟩, h1, h2⟩ := h
  obtain ⟨hs, -⟩ := synchronize_synced hx hy h1
  have ht := ofSamples_times h2
  rw [List.map_reverse, untilLoop_times _ _ _ _ (by simp [synced_length _ _ hs]), List.map_reverse,
    List.reverse_reverse] at ht
  have ht : times z = times x' := ht
  obtain ⟨k1, k2⟩ := keeps_sync (z := z) hx hy h1 (by rw [ht]) (by rw [ht]) (by rw [ht])
  exact ⟨k1, k2, fun t tx ty => range_sync hx hy h1 (by rw [ht]) (by rw [ht]) tx ty⟩

theorem fold_keeps {nd : Bool} {comp : Cmp K} {pick : D K → D K → D K} (hp : OfValues comp pick) :
    ∀ (xs : List (Signal K)) (acc z : Signal K), FinT acc → (∀ x ∈ xs, FinT x) →
    minmaxFold nd comp false acc xs = .ok z →
    Keeps acc z ∧ (∀ x ∈ xs, Keeps x z) ∧ ∀ t, InRange t acc → (∀ x ∈ xs, InRange t x) → InRange t z := by
  intro xs
  induction xs with
  | nil =>
    intro acc z _ _ e
    simp only [minmaxFold, Outcome.ok.injEq] at e; subst e; exact ⟨Keeps.refl _, by simp, fun t h _ => h⟩
  | cons x xs ih =>
    intro acc z ha hx e
    rw [minmaxFold] at e
    simp only [Outcome.bind_eq_ok] at e
    obtain ⟨a, e1, e2⟩ := e
    have hfx := hx x (by simp)
    obtain ⟨k1, k2, k5⟩ := pair_keeps ha hfx e1
    obtain ⟨k3, k4, k6⟩ := ih a z (pair_any hp ha hfx e1).1 (fun y hy => hx y (by simp [hy])) e2
    refine ⟨k1.trans k3, fun y hy => ?_, fun t ta tx =>
      k6 t (k5 t ta (tx x (by simp))) fun y hy => tx y (by simp [hy])⟩
    rcases List.mem_cons.1 hy with rfl | hy
    · exact k2.trans k3
    · exact k4 y hy

theorem vec_keeps {nd : Bool} {comp : Cmp K} {pick : D K → D K → D K} (hp : OfValues comp pick)
    {xs : List (Signal K)} {z : Signal K} (hx : ∀ x ∈ xs, FinT x)
    (e : minmaxVec nd comp xs false = .ok z) :
    (∀ x ∈ xs, Keeps x z) ∧ (xs ≠ [] → ∀ t, (∀ x ∈ xs, InRange t x) → InRange t z) := by
  unfold minmaxVec at e
  split at e
  · simp
  · simp only [Outcome.ok.injEq] at e; subst e
    refine ⟨fun x hx => ?_, fun _ t ht => ht _ (by simp)⟩
    rw [List.mem_singleton.1 hx]; exact Keeps.refl _
  · obtain ⟨k1, k2, k3⟩ := pair_keeps (hx _ (by simp)) (hx _ (by simp)) e
    refine ⟨fun x hx => ?_, fun _ t ht => k3 t (ht _ (by simp)) (ht _ (by simp))⟩
    rcases List.mem_cons.1 hx with rfl | hx
    · exact k1
    · rw [List.mem_singleton.1 hx]; exact k2
  · obtain ⟨k1, k2, k3⟩ := fold_keeps hp _ _ _ (hx _ (by simp)) (fun y hy => hx y (by simp [hy])) e
    refine ⟨fun x hx => ?_, fun _ t ht => k3 t (ht _ (by simp)) fun y hy => ht y (by simp [hy])⟩
    rcases List.mem_cons.1 hx with rfl | hx
    · exact k1
    · exact k2 x hx

theorem forall₂_finT {r : RobustnessOp K} (hf : AllFin r) {es : List (Expr K)} {ys : List (Signal K)}
    (h : List.Forall₂ (fun e y => r.compute e = .ok y) es ys) : ∀ y ∈ ys, FinT y := by
  induction h with
  | nil => simp
  | cons h _ ih =>
    intro y hy
    rcases List.mem_cons.1 hy with rfl | hy
    · exact hf _ _ h
    · exact ih y hy

mutual
theorem compute_keeps [SaneArith K] {r : RobustnessOp K} (hf : AllFin r) :
    ∀ (e : Expr K) (z : Signal K), r.compute e = .ok z → ∀ n x, Uses n e → r.trace.lookup n = some x → Keeps x z
  | .const b, z, h, n, x, hu, hl => by cases hu
  | .pred m op c, z, h, n, x, hu, hl => by
    cases hu
    obtain ⟨x', h1, -, h3⟩ := pred_ok h
    rw [hl, Option.some.injEq] at h1; subst h1
    refine keeps_of_times' (y := x) ?_ (Keeps.refl _)
    have := congrArg (List.map Prod.fst) h3
    simpa [tv, Function.comp_def, times] using this
  | .not e, z, h, n, x, hu, hl => by
    cases hu with | not hu => ?_
    obtain ⟨y, h1, h3⟩ := not_ok h
    refine keeps_of_times' (y := y) ?_ (compute_keeps hf e y h1 n x hu hl)
    have := congrArg (List.map Prod.fst) h3
    simpa [tv, Function.comp_def, times] using this
  | .and args, z, h, n, x, hu, hl => by
    rw [RobustnessOp.compute] at h
    simp only [Outcome.bind_eq_ok] at h
    obtain ⟨ys, h1, -, -, h⟩ := h
    cases hu with | and he hu => ?_
    obtain ⟨a, y, hy, k⟩ := computeArgs_keeps hf args ys h1 n x ⟨_, he, hu⟩ hl
    exact k.trans ((vec_keeps ofValues_le a h).1 y hy)
  | .or args, z, h, n, x, hu, hl => by
    rw [RobustnessOp.compute] at h
    simp only [Outcome.bind_eq_ok] at h
    obtain ⟨ys, h1, -, -, h⟩ := h
    cases hu with | or he hu => ?_
    obtain ⟨a, y, hy, k⟩ := computeArgs_keeps hf args ys h1 n x ⟨_, he, hu⟩ hl
    exact k.trans ((vec_keeps ofValues_ge a h).1 y hy)
  | .always e i, z, h, n, x, hu, hl => by
    rw [RobustnessOp.compute] at h
    simp only [Outcome.bind_eq_ok] at h
    obtain ⟨y, h1, h⟩ := h
    cases hu with | always hu => ?_
    obtain ⟨h2, -⟩ := minmaxSeq_times (temporal_sane_ok (hf _ _ h1).2 h)
    exact keeps_of_times' h2 (compute_keeps hf e y h1 n x hu hl)
  | .eventually e i, z, h, n, x, hu, hl => by
    rw [RobustnessOp.compute] at h
    simp only [Outcome.bind_eq_ok] at h
    obtain ⟨y, h1, h⟩ := h
    cases hu with | eventually hu => ?_
    obtain ⟨h2, -⟩ := minmaxSeq_times (temporal_sane_ok (hf _ _ h1).2 h)
    exact keeps_of_times' h2 (compute_keeps hf e y h1 n x hu hl)
  | .untl a b i, z, h, n, x, hu, hl => by
    rw [RobustnessOp.compute] at h
    simp only [Outcome.bind_eq_ok] at h
    obtain ⟨y, h1, y', h2, h⟩ := h
    obtain ⟨k1, k2, -⟩ := until_keeps (hf _ _ h1) (hf _ _ h2) (until_any h)
    cases hu with
    | untl_left hu => exact (compute_keeps hf a y h1 n x hu hl).trans k1
    | untl_right hu => exact (compute_keeps hf b y' h2 n x hu hl).trans k2

theorem computeArgs_keeps [SaneArith K] {r : RobustnessOp K} (hf : AllFin r) :
    ∀ (es : List (Expr K)) (ys : List (Signal K)), r.computeArgs es = .ok ys → ∀ n x,
      (∃ e ∈ es, Uses n e) → r.trace.lookup n = some x → (∀ y ∈ ys, FinT y) ∧ ∃ y ∈ ys, Keeps x y
  | [], ys, h, n, x, hu, hl => by obtain ⟨e, he, -⟩ := hu; simp at he
  | e :: es, ys, h, n, x, hu, hl => by
    have hall : ∀ y ∈ ys, FinT y := by
      have := computeArgs_forall₂ r (e :: es) ys h
      exact forall₂_finT hf this
    rw [RobustnessOp.computeArgs] at h
    simp only [Outcome.bind_eq_ok] at h
    obtain ⟨y, h1, ys', h2, h⟩ := h
    simp only [Outcome.pure_eq_ok, Outcome.ok.injEq] at h; subst h
    refine ⟨hall, ?_⟩
    obtain ⟨e', he', hu⟩ := hu
    rcases List.mem_cons.1 he' with he' | he'
    · rw [he'] at hu; exact ⟨y, by simp, compute_keeps hf e y h1 n x hu hl⟩
    · obtain ⟨-, y', hy', k⟩ := computeArgs_keeps hf es ys' h2 n x ⟨e', he', hu⟩ hl
      exact ⟨y', by simp [hy'], k⟩
end

mutual
theorem compute_range [SaneArith K] {r : RobustnessOp K} (hf : AllFin r) {t : D K} :
    ∀ (e : Expr K) (z : Signal K), ConstFree e → Arity e →
      (∀ n x, Uses n e → r.trace.lookup n = some x → InRange t x) → r.compute e = .ok z → InRange t z
  | .const b, z, hc, ha, hu, h => by cases hc
  | .pred m op c, z, hc, ha, hu, h => by
    obtain ⟨x, h1, -, h3⟩ := pred_ok h
    have ht : times z = times x := by
      have := congrArg (List.map Prod.fst) h3
      simpa [tv, Function.comp_def, times] using this
    exact inRange_of_times ht (hu m x (.pred op c) h1)
  | .not e, z, hc, ha, hu, h => by
    obtain ⟨y, h1, h3⟩ := not_ok h
    have ht : times z = times y := by
      have := congrArg (List.map Prod.fst) h3
      simpa [tv, Function.comp_def, times] using this
    exact inRange_of_times ht (compute_range hf e y (by cases hc; assumption) (by cases ha; assumption)
      (fun n x h => hu n x (.not h)) h1)
  | .and args, z, hc, ha, hu, h => by
    rw [RobustnessOp.compute] at h
    simp only [Outcome.bind_eq_ok] at h
    obtain ⟨ys, h1, -, -, h⟩ := h
    cases hc with | and hc => ?_
    cases ha with | and hl ha => ?_
    have hf2 := computeArgs_forall₂ r args ys h1
    refine (vec_keeps ofValues_le (forall₂_finT hf hf2) h).2 (fun e => ?_) t
      (computeArgs_range hf args ys hc ha (fun n x e he hn => hu n x (.and he hn)) h1)
    subst e; cases hf2; simp at hl
  | .or args, z, hc, ha, hu, h => by
    rw [RobustnessOp.compute] at h
    simp only [Outcome.bind_eq_ok] at h
    obtain ⟨ys, h1, -, -, h⟩ := h
    cases hc with | or hc => ?_
    cases ha with | or hl ha => ?_
    have hf2 := computeArgs_forall₂ r args ys h1
    refine (vec_keeps ofValues_ge (forall₂_finT hf hf2) h).2 (fun e => ?_) t
      (computeArgs_range hf args ys hc ha (fun n x e he hn => hu n x (.or he hn)) h1)
    subst e; cases hf2; simp at hl
  | .always e i, z, hc, ha, hu, h => by
    rw [RobustnessOp.compute] at h
    simp only [Outcome.bind_eq_ok] at h
    obtain ⟨y, h1, h⟩ := h
    obtain ⟨h2, -⟩ := minmaxSeq_times (temporal_sane_ok (hf _ _ h1).2 h)
    exact inRange_of_times h2 (compute_range hf e y (by cases hc; assumption) (by cases ha; assumption)
      (fun n x h => hu n x (.always h)) h1)
  | .eventually e i, z, hc, ha, hu, h => by
    rw [RobustnessOp.compute] at h
    simp only [Outcome.bind_eq_ok] at h
    obtain ⟨y, h1, h⟩ := h
    obtain ⟨h2, -⟩ := minmaxSeq_times (temporal_sane_ok (hf _ _ h1).2 h)
    exact inRange_of_times h2 (compute_range hf e y (by cases hc; assumption) (by cases ha; assumption)
      (fun n x h => hu n x (.eventually h)) h1)
  | .untl a b i, z, hc, ha, hu, h => by
    rw [RobustnessOp.compute] at h
    simp only [Outcome.bind_eq_ok] at h
    obtain ⟨y, h1, y', h2, h⟩ := h
    cases hc with | untl hc1 hc2 => ?_
    cases ha with | untl ha1 ha2 => ?_
    exact (until_keeps (hf _ _ h1) (hf _ _ h2) (until_any h)).2.2 t
      (compute_range hf a y hc1 ha1 (fun n x h => hu n x (.untl_left h)) h1)
      (compute_range hf b y' hc2 ha2 (fun n x h => hu n x (.untl_right h)) h2)

theorem computeArgs_range [SaneArith K] {r : RobustnessOp K} (hf : AllFin r) {t : D K} :
    ∀ (es : List (Expr K)) (ys : List (Signal K)), (∀ e ∈ es, ConstFree e) → (∀ e ∈ es, Arity e) →
      (∀ n x, ∀ e ∈ es, Uses n e → r.trace.lookup n = some x → InRange t x) →
      r.computeArgs es = .ok ys → ∀ y ∈ ys, InRange t y
  | [], ys, _, _, _, h => by
    simp only [RobustnessOp.computeArgs, Outcome.ok.injEq] at h; subst h; simp
  | e :: es, ys, hc, ha, hu, h => by
    rw [RobustnessOp.computeArgs] at h
    simp only [Outcome.bind_eq_ok] at h
    obtain ⟨y, h1, ys', h2, h⟩ := h
    simp only [Outcome.pure_eq_ok, Outcome.ok.injEq] at h; subst h
    have h3 := compute_range hf e y (hc e (by simp)) (ha e (by simp)) (fun n x h => hu n x e (by simp) h) h1
    have h4 := computeArgs_range hf es ys' (fun e he => hc e (by simp [he])) (fun e he => ha e (by simp [he]))
      (fun n x e he h => hu n x e (by simp [he]) h) h2
    intro w hw
    rcases List.mem_cons.1 hw with rfl | hw
    · exact h3
    · exact h4 w hw
end

end any

end Verif
