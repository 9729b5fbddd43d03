import Verif.Proofs.FinT
import Verif.Spec.Discrete

/-!
# Results that hold for any rounding
-/

set_option linter.unusedSectionVars false

namespace Verif
open Spec

variable {K : Type} [Field K] [LinearOrder K] [IsStrictOrderedRing K] [Arith K]

theorem pushBack_tv {s z : Signal K} {x : Sample K} (h : s.pushBack x = .ok z) :
    z.samples.map tv = s.samples.map tv ++ [tv x] := by
  obtain ⟨l⟩ := s
  rcases List.eq_nil_or_concat l with rfl | ⟨l, a, rfl⟩
  · simp only [Signal.pushBack, List.getLast?_nil, Outcome.ok.injEq] at h; subst h; simp [tv]
  · rw [List.concat_eq_append] at h ⊢
    simp only [Signal.pushBack, List.getLast?_append, List.getLast?_singleton, Option.some_or] at h
    split at h
    · simp at h
    · simp only [Outcome.ok.injEq] at h; subst h; simp [tv]

/-- A successful `push_back` on a non-empty signal: the new time is not `<=` the last one. -/
theorem pushBack_last {s z : Signal K} {x a : Sample K} (h : s.pushBack x = .ok z)
    (ha : s.samples.getLast? = some a) : x.time.le a.time = false := by
  unfold Signal.pushBack at h
  rw [ha] at h
  simp only at h
  split at h
  · simp at h
  · rename_i hle; simpa [Signal.endTime, ha] using hle

theorem insertCrossing_tv {out z : Signal K} {a b : Option (Sample K)} {t : D K}
    (h : insertCrossing out a b t = .ok z) :
    z = out ∨ ∃ u v, out.endTime.lt u = true ∧ z.samples.map tv = out.samples.map tv ++ [(u, v)] := by
  unfold insertCrossing at h
  simp only [Outcome.bind_eq_ok] at h
  obtain ⟨s, -, p, -, h⟩ := h
  split at h
  · rename_i hlt
    simp only [Bool.and_eq_true] at hlt
    exact .inr ⟨_, _, hlt.1, pushBack_tv h⟩
  · simp only [Outcome.pure_eq_ok, Outcome.ok.injEq] at h; exact .inl h.symm

theorem finTimes_tv {l l' : List (Sample K)} (h : l.map tv = l'.map tv) (hf : FinTimes l') : FinTimes l := by
  rw [finTimes_iff] at hf ⊢
  have : l.map Sample.time = l'.map Sample.time := by
    have := congrArg (List.map Prod.fst) h
    simpa [tv, Function.comp_def] using this
  rw [this]; exact hf

/-- The crossing that was inserted before a successful `push_back` has a finite time. -/
theorem crossing_finTimes {out o1 o2 : Signal K} {a b : Option (Sample K)} {t : D K} {x : Sample K}
    (hne : out.samples ≠ []) (ho : FinTimes out.samples) (hx : ∃ k, x.time = .fin k)
    (h1 : insertCrossing out a b t = .ok o1) (h2 : o1.pushBack x = .ok o2) : FinTimes o2.samples := by
  rcases insertCrossing_tv h1 with rfl | ⟨u, v, hu, he⟩
  · exact pushBack_finTimes ho hx h2
  · refine pushBack_finTimes ?_ hx h2
    have hlast : o1.samples.getLast?.map tv = some (u, v) := by
      rw [← List.getLast?_map, he]; simp
    obtain ⟨w, hw, e⟩ := Option.map_eq_some_iff.1 hlast
    have hle := pushBack_last h2 hw
    have hwu : w.time = u := by simp [tv] at e; exact e.1
    obtain ⟨k, hk⟩ := hx
    obtain ⟨e0, he0⟩ := endTime_fin ho
    have : ∃ k, u = .fin k := by
      rw [he0] at hu
      rw [hwu, hk] at hle
      cases u with
      | fin k => exact ⟨k, rfl⟩
      | pinf => simp [D.le, D.lt] at hle
      | ninf => simp [D.lt] at hu
      | nan => simp [D.lt] at hu
    rw [finTimes_iff] at ho ⊢
    have ht : o1.samples.map Sample.time = out.samples.map Sample.time ++ [u] := by
      have := congrArg (List.map Prod.fst) he
      simpa [tv, Function.comp_def] using this
    rw [ht]
    intro t ht
    rcases List.mem_append.1 ht with ht | ht
    · exact ho t ht
    · rw [List.mem_singleton.1 ht]; exact this

theorem pushBack_ne {s z : Signal K} {x : Sample K} (h : s.pushBack x = .ok z) : z.samples ≠ [] := by
  intro h0
  have := pushBack_tv h
  rw [h0] at this
  simp at this

/-- The loop keeps what is in `out` and adds the chosen sample of every pair. -/
theorem pairLoop_any (comp : Cmp K) : ∀ (is js : List (Sample K)) (pi pj : Option (Sample K))
    (out z : Signal K) (c : Chosen), minmaxPairLoop comp out c pi pj is js = .ok z →
    (c = .NONE ∨ out.samples ≠ []) →
    (∀ p ∈ out.samples.map tv, p ∈ z.samples.map tv) ∧
    (∀ p ∈ List.zip is js, tv (if comp p.1 p.2 then p.1 else p.2) ∈ z.samples.map tv) ∧
    (FinTimes out.samples → FinTimes is → FinTimes js → FinTimes z.samples) ∧
    z.samples.length ≤ out.samples.length + 2 * min is.length js.length := by
  intro is
  induction is with
  | nil =>
    intro js pi pj out z c h _
    simp only [minmaxPairLoop, Outcome.ok.injEq] at h; subst h
    exact ⟨fun _ h => h, by simp, fun h _ _ => h, by omega⟩
  | cons i is ih =>
    intro js pi pj out z c h hc
    cases js with
    | nil =>
      simp only [minmaxPairLoop, Outcome.ok.injEq] at h; subst h
      exact ⟨fun _ h => h, by simp, fun h _ _ => h, by omega⟩
    | cons j js =>
      rw [minmaxPairLoop_cons] at h
      have key : ∀ (k : Sample K) (a b : Option (Sample K)) (c' : Chosen) (o1 o2 : Signal K), c' ≠ .NONE →
          (if c = c' then insertCrossing out a b k.time else .ok out) = .ok o1 → o1.pushBack k = .ok o2 →
          (∀ p ∈ out.samples.map tv, p ∈ o2.samples.map tv) ∧ tv k ∈ o2.samples.map tv ∧
          (FinTimes out.samples → (∃ t, k.time = .fin t) → FinTimes o2.samples) ∧
          o2.samples.length ≤ out.samples.length + 2 := by
        intro k a b c' o1 o2 hc' h1 h2
        have e2 := pushBack_tv h2
        have hl2 := congrArg List.length e2
        simp only [List.length_map, List.length_append, List.length_singleton] at hl2
        split at h1
        · rename_i hcc
          have hne : out.samples ≠ [] := hc.resolve_left (by rw [hcc]; exact hc')
          refine ⟨fun p hp => ?_, by rw [e2]; simp, fun ho hk => crossing_finTimes hne ho hk h1 h2, ?_⟩
          · rw [e2]
            rcases insertCrossing_tv h1 with rfl | ⟨u, v, -, he⟩
            · simp [hp]
            · rw [he]; simp [hp]
          · rcases insertCrossing_tv h1 with rfl | ⟨u, v, -, he⟩
            · omega
            · have := congrArg List.length he
              simp only [List.length_map, List.length_append, List.length_singleton] at this
              omega
        · simp only [Outcome.ok.injEq] at h1; subst h1
          exact ⟨fun p hp => by rw [e2]; simp [hp], by rw [e2]; simp,
            fun ho hk => pushBack_finTimes ho hk h2, by omega⟩
      split at h
      · rename_i hij
        simp only [Outcome.bind_eq_ok] at h
        obtain ⟨o1, h1, o2, h2, h3⟩ := h
        obtain ⟨a1, a2, a3, a4⟩ := key i _ _ .Y o1 o2 (by simp) h1 h2
        obtain ⟨b1, b2, b3, b4⟩ := ih _ _ _ _ _ _ h3 (.inr (pushBack_ne h2))
        refine ⟨fun p hp => b1 p (a1 p hp), ?_, ?_, ?_⟩
        · intro p hp
          rw [List.zip_cons_cons, List.mem_cons] at hp
          rcases hp with rfl | hp
          · simp only [hij, if_true]; exact b1 _ a2
          · exact b2 p hp
        · intro h1 h2 h3
          exact b3 (a3 h1 (h2 i (by simp))) (fun a ha => h2 a (by simp [ha])) fun a ha => h3 a (by simp [ha])
        · simp only [List.length_cons]; omega
      · rename_i hij
        simp only [Outcome.bind_eq_ok] at h
        obtain ⟨o1, h1, o2, h2, h3⟩ := h
        obtain ⟨a1, a2, a3, a4⟩ := key j _ _ .X o1 o2 (by simp) h1 h2
        obtain ⟨b1, b2, b3, b4⟩ := ih _ _ _ _ _ _ h3 (.inr (pushBack_ne h2))
        refine ⟨fun p hp => b1 p (a1 p hp), ?_, ?_, ?_⟩
        · intro p hp
          rw [List.zip_cons_cons, List.mem_cons] at hp
          rcases hp with rfl | hp
          · simp only [hij]; exact b1 _ a2
          · exact b2 p hp
        · intro h1 h2 h3
          exact b3 (a3 h1 (h3 j (by simp))) (fun a ha => h2 a (by simp [ha])) fun a ha => h3 a (by simp [ha])
        · simp only [List.length_cons]; omega

theorem evalD_mem {l : List (Sample K)} (hs : SortedT l) (hn : NoNaNT l) {a : Sample K} (ha : a ∈ l) :
    evalD l a.time = a.value := by
  obtain ⟨l₁, l₂, rfl⟩ := List.append_of_mem ha
  rw [evalD_append l₁ a l₂ (hn a ha) hs (D.le_refl (hn a ha))]
  exact evalD_head a l₂ (hn a ha) (sortedT_append.1 hs).2.1

theorem hasSample_iff {s : Signal K} (hs : FinT s) {t v : D K} :
    HasSample s t v ↔ (t, v) ∈ s.samples.map tv := by
  refine ⟨fun h => h.1, fun h => ⟨h, fun w hw => ?_⟩⟩
  obtain ⟨a, ha, ea⟩ := List.mem_map.1 h
  obtain ⟨b, hb, eb⟩ := List.mem_map.1 hw
  simp only [tv, Prod.mk.injEq] at ea eb
  rw [← ea.2, ← eb.2, ← evalD_mem hs.sorted hs.2.noNaN ha, ← evalD_mem hs.sorted hs.2.noNaN hb, ea.1, eb.1]

theorem mem_zip_build {ts : List (D K)} (f g : D K → D K) {t : D K} (ht : t ∈ ts) :
    ∃ i j, (i, j) ∈ List.zip (build (ts.map fun t => (t, f t))) (build (ts.map fun t => (t, g t))) ∧
      tv i = (t, f t) ∧ tv j = (t, g t) := by
  induction ts with
  | nil => simp at ht
  | cons u ts ih =>
    simp only [List.map_cons]
    obtain ⟨d, hd⟩ := build_cons (u, f u) (ts.map fun t => (t, f t))
    obtain ⟨d', hd'⟩ := build_cons (u, g u) (ts.map fun t => (t, g t))
    rw [hd, hd']
    rcases List.mem_cons.1 ht with rfl | ht
    · exact ⟨_, _, List.mem_cons_self .., rfl, rfl⟩
    · obtain ⟨i, j, h1, h2, h3⟩ := ih ht
      exact ⟨i, j, List.mem_cons_of_mem _ h1, h2, h3⟩

/-- The comparison is one of the values. -/
def OfValues (comp : Cmp K) (pick : D K → D K → D K) : Prop :=
  ∀ a b : Sample K, (if comp a b then a else b).value = pick a.value b.value

theorem ofValues_le : OfValues (K := K) Sample.le minOf := by
  intro a b
  simp only [Sample.le, Sample.gt, Sample.lt, minOf]
  by_cases h : b.value.lt a.value = true <;> simp [h]

theorem ofValues_ge : OfValues (K := K) Sample.ge maxOf := by
  intro a b
  simp only [Sample.ge, Sample.lt, maxOf]
  by_cases h : a.value.lt b.value = true <;> simp [h]

theorem mergeT_length (as bs : List (D K)) : (mergeT as bs).length ≤ as.length + bs.length := by
  induction as, bs using mergeT.induct with
  | case1 => simp
  | case2 => simp
  | case3 a as b bs h ih => rw [mergeT_cons]; simp only [h, if_true, List.length_cons]; omega
  | case4 a as b bs h h' ih =>
    rw [mergeT_cons]; simp only [h, h', if_false, if_true, List.length_cons] at *; simp; omega
  | case5 a as b bs h h' ih =>
    rw [mergeT_cons]; simp only [h, h', if_false, List.length_cons] at *; simp; omega

theorem beginTime_le_mem {s : Signal K} (hs : SortedT s.samples) (hn : NoNaNT s.samples) {a : Sample K}
    (ha : a ∈ s.samples) : s.beginTime.le a.time = true := by
  unfold Signal.beginTime
  cases h : s.samples with
  | nil => rw [h] at ha; simp at ha
  | cons b l =>
    rw [h] at ha hs
    simp only [List.head?_cons]
    rcases List.mem_cons.1 ha with rfl | ha
    · exact D.le_refl (hn _ (by rw [h]; simp))
    · exact D.le_of_lt ((sortedT_cons.1 hs).1 a ha)

theorem pair_any {nd : Bool} {comp : Cmp K} {pick : D K → D K → D K} (hp : OfValues comp pick)
    {x y z : Signal K} (hx : FinT x) (hy : FinT y) (h : minmaxPair nd comp x y false = .ok z) :
    FinT z ∧ (∀ t a b, HasSample x t a → HasSample y t b → HasSample z t (pick a b)) ∧
    z.samples.length ≤ 2 * (x.samples.length + y.samples.length) := by
  have hwf := wf_minmaxPair h
  rw [minmaxPair_finT nd comp hx hy] at h
  simp only [Outcome.bind_eq_ok] at h
  obtain ⟨⟨x', y'⟩, h1, h2⟩ := h
  obtain ⟨hn, e⟩ := synchronize_ok_eq hx.sorted hy.sorted hx.2.noNaN hy.2.noNaN h1
  simp only [Prod.mk.injEq] at e
  obtain ⟨rfl, rfl⟩ := e
  obtain ⟨-, a2, a3, a4⟩ := pairLoop_any comp _ _ _ _ _ _ _ h2 (.inl rfl)
  have hf := syncTimes_fin (b := D.max x.beginTime y.beginTime) hx.2 hy.2
  have hfz : FinTimes z.samples := by
    refine a3 (by simp [FinTimes, Signal.empty]) ?_ ?_ <;>
    · rw [finTimes_iff]
      simp only [resample]
      rw [build_times]
      simp only [List.map_map, Function.comp_def, List.map_id']
      exact hf
  refine ⟨⟨hwf, hfz⟩, ?_, ?_⟩
  · intro t a b ha hb
    rw [hasSample_iff ⟨hwf, hfz⟩]
    obtain ⟨sa, hsa, ea⟩ := List.mem_map.1 ha.1
    obtain ⟨sb, hsb, eb⟩ := List.mem_map.1 hb.1
    simp only [tv, Prod.mk.injEq] at ea eb
    obtain ⟨rfl, rfl⟩ := ea
    obtain ⟨et, rfl⟩ := eb
    have hnt : sa.time ≠ .nan := hx.2.noNaN sa hsa
    have hb1 := beginTime_le_mem hx.sorted hx.2.noNaN hsa
    have hb2 := beginTime_le_mem hy.sorted hy.2.noNaN hsb
    rw [et] at hb2
    have hbt : (D.max x.beginTime y.beginTime).le sa.time = true := by
      rcases D.max_eq_or x.beginTime y.beginTime with h | h <;> rw [h] <;> assumption
    have hmem : sa.time ∈ syncTimes (D.max x.beginTime y.beginTime) x.samples y.samples := by
      unfold syncTimes
      have sub : ∀ s : Signal K, FinT s → ∀ t ∈ (s.samples.map Sample.time).filter
          (fun t => (D.max x.beginTime y.beginTime).le t), t ≠ .nan := by
        intro s hs t ht
        obtain ⟨a, ha, rfl⟩ := List.mem_map.1 (List.mem_of_mem_filter ht)
        exact hs.2.noNaN a ha
      have m1 : sa.time ∈ (x.samples.map Sample.time).filter
          (fun t => (D.max x.beginTime y.beginTime).le t) :=
        List.mem_filter.2 ⟨List.mem_map_of_mem hsa, hbt⟩
      have m2 : sa.time ∈ (y.samples.map Sample.time).filter
          (fun t => (D.max x.beginTime y.beginTime).le t) :=
        List.mem_filter.2 ⟨by rw [← et]; exact List.mem_map_of_mem hsb, hbt⟩
      rw [mem_mergeT _ _ (sub x hx) (sub y hy) (List.Pairwise.sublist List.filter_sublist hx.sorted)
        (List.Pairwise.sublist List.filter_sublist hy.sorted)]
      exact ⟨.inl m1, ⟨_, m1, D.le_refl hnt⟩, ⟨_, m2, D.le_refl hnt⟩⟩
    obtain ⟨i, j, hz, ei, ej⟩ := mem_zip_build (evalD x.samples) (evalD y.samples) hmem
    have := a2 (i, j) hz
    have hval : tv (if comp i j then i else j) = (sa.time, pick sa.value sb.value) := by
      have h1 := hp i j
      simp only [tv, Prod.mk.injEq] at ei ej ⊢
      refine ⟨?_, ?_⟩
      · split
        · exact ei.1
        · exact ej.1
      · rw [h1, ei.2, ej.2, evalD_mem hx.sorted hx.2.noNaN hsa, ← et,
          evalD_mem hy.sorted hy.2.noNaN hsb]
    rw [← hval]; exact this
  · have hl := mergeT_length ((x.samples.map Sample.time).filter
      (fun t => (D.max x.beginTime y.beginTime).le t)) ((y.samples.map Sample.time).filter
      (fun t => (D.max x.beginTime y.beginTime).le t))
    have h1 := List.length_filter_le (fun t => (D.max x.beginTime y.beginTime).le t)
      (x.samples.map Sample.time)
    have h2 := List.length_filter_le (fun t => (D.max x.beginTime y.beginTime).le t)
      (y.samples.map Sample.time)
    simp only [List.length_map] at h1 h2
    simp only [resample, build_length, List.length_map, syncTimes, Signal.empty, List.length_nil] at a4
    omega

/-! ### Any number of operands -/

theorem naryBound_mono : ∀ (l l' : List Nat) (n n' : Nat), n ≤ n' → List.Forall₂ (· ≤ ·) l l' →
    l.foldl (fun m k => 2 * (m + k)) n ≤ l'.foldl (fun m k => 2 * (m + k)) n' := by
  intro l l' n n' hn h
  induction h generalizing n n' with
  | nil => simpa using hn
  | cons h _ ih => simp only [List.foldl_cons]; exact ih _ _ (by omega)

theorem fold_any {nd : Bool} {comp : Cmp K} {pick : D K → D K → D K} (hp : OfValues comp pick) :
    ∀ (xs : List (Signal K)) (acc z : Signal K), FinT acc → (∀ x ∈ xs, FinT x) →
    minmaxFold nd comp false acc xs = .ok z →
    FinT z ∧
    (∀ t a vs, HasSample acc t a → List.Forall₂ (fun x v => HasSample x t v) xs vs →
      HasSample z t (vs.foldl pick a)) ∧
    z.samples.length ≤ (xs.map fun x => x.samples.length).foldl (fun m k => 2 * (m + k))
      acc.samples.length := by
  intro xs
  induction xs with
  | nil =>
    intro acc z h _ e
    simp only [minmaxFold, Outcome.ok.injEq] at e; subst e
    refine ⟨h, ?_, by simp⟩
    intro t a vs ha hv; cases hv; exact ha
  | cons x xs ih =>
    intro acc z h hx e
    rw [minmaxFold] at e
    simp only [Outcome.bind_eq_ok] at e
    obtain ⟨a, e1, e2⟩ := e
    obtain ⟨h1, h2, h3⟩ := pair_any hp h (hx x (by simp)) e1
    obtain ⟨h4, h5, h6⟩ := ih a z h1 (fun x' hx' => hx x' (by simp [hx'])) e2
    refine ⟨h4, ?_, ?_⟩
    · intro t b vs hb hv
      cases hv with
      | cons hv hvs => exact h5 t (pick b _) _ (h2 t _ _ hb hv) hvs
    · simp only [List.map_cons, List.foldl_cons]
      exact h6.trans (naryBound_mono _ _ _ _ h3 (List.forall₂_refl _))

theorem vec_any {nd : Bool} {comp : Cmp K} {pick : D K → D K → D K} (hp : OfValues comp pick)
    {xs : List (Signal K)} {z : Signal K} (hx : ∀ x ∈ xs, FinT x)
    (e : minmaxVec nd comp xs false = .ok z) :
    FinT z ∧
    (∀ t v vs, List.Forall₂ (fun x v => HasSample x t v) xs (v :: vs) → HasSample z t (vs.foldl pick v)) ∧
    z.samples.length ≤ naryBound (xs.map fun x => x.samples.length) := by
  have hw := wf_minmaxVec (fun x h => (hx x h).1) e
  unfold minmaxVec at e
  split at e
  · refine ⟨⟨hw, ?_⟩, ?_, ?_⟩
    · exact pushBack_finTimes (s := Signal.empty) (by simp [FinTimes, Signal.empty]) ⟨0, rfl⟩ e
    · intro t v vs h; cases h
    · have := congrArg List.length (pushBack_tv e)
      simp [Signal.empty] at this
      simp [naryBound, this]
  · simp only [Outcome.ok.injEq] at e; subst e
    refine ⟨hx _ (by simp), ?_, by simp [naryBound]⟩
    intro t v vs h
    cases h with | cons h h' => cases h'; exact h
  · obtain ⟨h1, h2, h3⟩ := pair_any hp (hx _ (by simp)) (hx _ (by simp)) e
    refine ⟨h1, ?_, by simpa [naryBound] using h3⟩
    intro t v vs h
    cases h with
    | cons h h' => cases h' with | cons h' h'' => cases h''; exact h2 t _ _ h h'
  · obtain ⟨h1, h2, h3⟩ := fold_any hp _ _ _ (hx _ (by simp)) (fun x' hx' => hx x' (by simp [hx'])) e
    refine ⟨h1, ?_, by simpa [naryBound] using h3⟩
    intro t v vs h
    cases h with | cons h h' => exact h2 t _ _ h h'

/-! ### Whole formulas -/

theorem computeArgs_forall₂ (r : RobustnessOp K) : ∀ (es : List (Expr K)) (ys : List (Signal K)),
    r.computeArgs es = .ok ys → List.Forall₂ (fun e y => r.compute e = .ok y) es ys := by
  intro es
  induction es with
  | nil => intro ys h; simp only [RobustnessOp.computeArgs, Outcome.ok.injEq] at h; subst h; exact .nil
  | cons e es ih =>
    intro ys h
    rw [RobustnessOp.computeArgs] at h
    simp only [Outcome.bind_eq_ok] at h
    obtain ⟨y, h1, ys', h2, h3⟩ := h
    simp only [Outcome.pure_eq_ok, Outcome.ok.injEq] at h3; subst h3
    exact .cons h1 (ih ys' h2)

theorem temporal_sane [SaneArith K] (r : RobustnessOp K) (comp : Cmp K) {y : Signal K}
    (hy : FinTimes y.samples) (i : Interval K) : r.temporal comp y i = minmaxSeq comp y ∨
      (i.asDouble.2 = .ninf ∧ i.hasValue = true ∧ r.temporal comp y i = .throw .logicError) := by
  unfold RobustnessOp.temporal
  by_cases hv : i.hasValue = true
  · simp only [hv, Bool.not_true, Bool.false_eq_true, if_false]
    simp only [Interval.hasValue, Interval.isZeroToInf, Bool.and_eq_true] at hv
    obtain ⟨h1, h2⟩ := hv
    have ha : i.asDouble.1 = .fin 0 := by
      unfold Interval.asDouble
      cases hl : i.low with
      | ull n =>
        rw [hl] at h1
        simp only [Interval.numIsZero, beq_iff_eq] at h1
        simp [Interval.numAsDouble, h1, SaneArith.rnd_zero]
      | dbl d =>
        rw [hl] at h1
        simp only [Interval.numIsZero, D.zero_def] at h1
        exact (D.eq_iff.1 h1).1
    obtain ⟨b, hb⟩ := beginTime_fin hy
    obtain ⟨e, he⟩ := endTime_fin hy
    have h2' : i.asDouble.2.isinf = true := h2
    have hs : (D.fin e - D.fin b : D K) = Arith.rnd (e + -b) := rfl
    cases h3 : i.asDouble.2 with
    | fin q => rw [h3] at h2'; simp [D.isinf] at h2'
    | nan => rw [h3] at h2'; simp [D.isinf] at h2'
    | pinf =>
      left
      rw [ha, hb, he, hs]
      have h4 : (D.pinf - D.fin 0 : D K) = .pinf := rfl
      rw [h4]
      have h5 : (Arith.rnd (e + -b) : D K).le .pinf = true := by
        have := SaneArith.rnd_ne_nan (e + -b)
        cases h : (Arith.rnd (e + -b) : D K) with
        | nan => exact absurd h this
        | fin _ => simp [D.le, D.lt]
        | pinf => simp [D.le, D.eq]
        | ninf => simp [D.le, D.lt]
      simp [D.lt, D.eq, D.zero_def, h5]
    | ninf =>
      right
      rw [ha]
      have : ((.ninf : D K) - .fin 0) = .ninf := rfl
      simp [this, D.zero_def, D.lt]
  · left
    simp [hv]

theorem temporal_sane_ok [SaneArith K] {r : RobustnessOp K} {comp : Cmp K} {y z : Signal K}
    (hy : FinTimes y.samples) {i : Interval K} (h : r.temporal comp y i = .ok z) :
    minmaxSeq comp y = .ok z := by
  rcases temporal_sane r comp hy i with h1 | ⟨-, -, h1⟩
  · rw [← h1]; exact h
  · rw [h1] at h; cases h

theorem length_of_times {l l' : List (Sample K)} (h : l.map Sample.time = l'.map Sample.time) :
    l.length = l'.length := by simpa using congrArg List.length h

theorem computeUntil_any {nd : Bool} {x y z : Signal K} (hx : FinT x) (hy : FinT y)
    (h : computeUntil nd x y = .ok z) : FinT z ∧ z.samples.length ≤ x.samples.length + y.samples.length := by
  refine ⟨(computeUntil_ok hx hy h).1, ?_⟩
  rw [computeUntil_finT nd hx hy] at h
  simp only [Outcome.bind_eq_ok] at h
  obtain ⟨⟨x', y'⟩, h1, h2⟩ := h
  obtain ⟨hs, -⟩ := synchronize_synced hx hy h1
  have ht := ofSamples_times h2
  rw [List.map_reverse, untilLoop_times _ _ _ _ (by simp [synced_length _ _ hs]), List.map_reverse,
    List.reverse_reverse] at ht
  rw [length_of_times ht]
  obtain ⟨-, e⟩ := synchronize_ok_eq hx.sorted hy.sorted hx.2.noNaN hy.2.noNaN h1
  simp only [Prod.mk.injEq] at e
  rw [e.1]
  have hl := mergeT_length ((x.samples.map Sample.time).filter
    (fun t => (D.max x.beginTime y.beginTime).le t)) ((y.samples.map Sample.time).filter
    (fun t => (D.max x.beginTime y.beginTime).le t))
  have h1 := List.length_filter_le (fun t => (D.max x.beginTime y.beginTime).le t)
    (x.samples.map Sample.time)
  have h2 := List.length_filter_le (fun t => (D.max x.beginTime y.beginTime).le t)
    (y.samples.map Sample.time)
  simp only [List.length_map] at h1 h2
  simp only [resample, build_length, List.length_map, syncTimes]
  omega

theorem until_any {r : RobustnessOp K} {x y z : Signal K} {i : Interval K}
    (h : r.untilOp x y i = .ok z) : computeUntil r.ndebug x y = .ok z := by
  unfold RobustnessOp.untilOp at h
  split at h
  · exact h
  · simp only at h
    split at h
    · exact h
    · simp [computeUntilBounded] at h

theorem pred_ok {r : RobustnessOp K} {n : String} {op : ComparisonOp} {c : D K} {z : Signal K}
    (h : r.compute (.pred n op c) = .ok z) : ∃ x, r.trace.lookup n = some x ∧ (n, x) ∈ r.trace ∧
      z.samples.map tv = x.samples.map fun s => (s.time, RobustnessOp.predValue op c s.value) := by
  rw [RobustnessOp.compute, RobustnessOp.pred] at h
  simp only [Outcome.bind_eq_ok] at h
  obtain ⟨x, h1, h⟩ := h
  refine ⟨x, ?_, lookup_mem h1, ?_⟩
  · unfold Trace.at_ at h1
    split at h1
    · cases h1
    · simp only [Outcome.ok.injEq] at h1; subst h1; assumption
  · obtain ⟨-, rfl⟩ := (ofSamples_ok_iff _ _).1 h
    simp [tv, Function.comp_def]

theorem not_ok {r : RobustnessOp K} {e : Expr K} {z : Signal K} (h : r.compute (.not e) = .ok z) :
    ∃ x, r.compute e = .ok x ∧ z.samples.map tv = x.samples.map fun s => (s.time, -s.value) := by
  rw [RobustnessOp.compute] at h
  simp only [Outcome.bind_eq_ok] at h
  obtain ⟨x, h1, h⟩ := h
  obtain ⟨-, rfl⟩ := (ofSamples_ok_iff _ _).1 h
  exact ⟨x, h1, by simp [tv, Function.comp_def, Sample.neg]⟩

mutual
/-- Finite timestamps and the number of samples, for any formula and any rounding. -/
theorem compute_any [SaneArith K] (r : RobustnessOp K) (count : String → Nat) (ht : TraceFin r.trace)
    (hm : (r.minTime, r.maxTime) = (.pinf, .ninf) ∨ ∃ a b, (r.minTime, r.maxTime) = (.fin a, .fin b))
    (hc : ∀ n x, r.trace.lookup n = some x → x.samples.length ≤ count n) :
    ∀ (e : Expr K) (z : Signal K), r.compute e = .ok z →
      FinT z ∧ z.samples.length ≤ sampleBound count e
  | .const b, z, h => by
    have hw := compute_wf r _ _ h
    rw [RobustnessOp.compute, RobustnessOp.const] at h
    have ht := ofSamples_times h
    refine ⟨⟨hw, ?_⟩, ?_⟩
    · rcases hm with hm | ⟨a, c, hm⟩
      · simp only [Prod.mk.injEq] at hm
        rw [hm.1, hm.2, ofSamples_eq] at h
        simp [tv, Incr, D.le, D.lt] at h
      · simp only [Prod.mk.injEq] at hm
        rw [finTimes_iff, ht]
        simp [hm.1, hm.2]
    · rw [length_of_times ht, sampleBound]; simp
  | .pred n op c, z, h => by
    have hw := compute_wf r _ _ h
    obtain ⟨x, h1, h2, h3⟩ := pred_ok h
    have h4 : z.samples.map Sample.time = x.samples.map Sample.time := by
      have := congrArg (List.map Prod.fst) h3
      simpa [tv, Function.comp_def] using this
    refine ⟨⟨hw, finTimes_of_times h4 (ht _ h2)⟩, ?_⟩
    rw [length_of_times h4, sampleBound]; exact hc n x h1
  | .not e, z, h => by
    have hw := compute_wf r _ _ h
    obtain ⟨x, h1, h3⟩ := not_ok h
    obtain ⟨hx, hn⟩ := compute_any r count ht hm hc e x h1
    have h4 : z.samples.map Sample.time = x.samples.map Sample.time := by
      have := congrArg (List.map Prod.fst) h3
      simpa [tv, Function.comp_def] using this
    refine ⟨⟨hw, finTimes_of_times h4 hx.2⟩, ?_⟩
    rw [length_of_times h4, sampleBound]; exact hn
  | .and args, z, h => by
    rw [RobustnessOp.compute] at h
    simp only [Outcome.bind_eq_ok] at h
    obtain ⟨ys, h1, -, -, h⟩ := h
    obtain ⟨ih1, ih2⟩ := computeArgs_any r count ht hm hc args ys h1
    obtain ⟨h2, -, h3⟩ := vec_any ofValues_le ih1 h
    refine ⟨h2, h3.trans ?_⟩
    rw [sampleBound]
    cases ih2' : sampleBounds count args with
    | nil => rw [ih2'] at ih2; cases hys : ys with
      | nil => simp
      | cons y ys => rw [hys] at ih2; cases ih2
    | cons k ks => rw [ih2'] at ih2; cases hys : ys with
      | nil => rw [hys] at ih2; cases ih2
      | cons y ys =>
        rw [hys] at ih2
        cases ih2 with | cons h1 h2 => exact naryBound_mono _ _ _ _ h1 h2
  | .or args, z, h => by
    rw [RobustnessOp.compute] at h
    simp only [Outcome.bind_eq_ok] at h
    obtain ⟨ys, h1, -, -, h⟩ := h
    obtain ⟨ih1, ih2⟩ := computeArgs_any r count ht hm hc args ys h1
    obtain ⟨h2, -, h3⟩ := vec_any ofValues_ge ih1 h
    refine ⟨h2, h3.trans ?_⟩
    rw [sampleBound]
    cases ih2' : sampleBounds count args with
    | nil => rw [ih2'] at ih2; cases hys : ys with
      | nil => simp
      | cons y ys => rw [hys] at ih2; cases ih2
    | cons k ks => rw [ih2'] at ih2; cases hys : ys with
      | nil => rw [hys] at ih2; cases ih2
      | cons y ys =>
        rw [hys] at ih2
        cases ih2 with | cons h1 h2 => exact naryBound_mono _ _ _ _ h1 h2
  | .always e i, z, h => by
    have hw := compute_wf r _ _ h
    rw [RobustnessOp.compute] at h
    simp only [Outcome.bind_eq_ok] at h
    obtain ⟨x, h1, h⟩ := h
    obtain ⟨hx, hn⟩ := compute_any r count ht hm hc e x h1
    obtain ⟨h2, h3⟩ := minmaxSeq_times (temporal_sane_ok hx.2 h)
    refine ⟨⟨hw, finTimes_of_times h2 hx.2⟩, ?_⟩
    rw [length_of_times h2, sampleBound]; exact hn
  | .eventually e i, z, h => by
    have hw := compute_wf r _ _ h
    rw [RobustnessOp.compute] at h
    simp only [Outcome.bind_eq_ok] at h
    obtain ⟨x, h1, h⟩ := h
    obtain ⟨hx, hn⟩ := compute_any r count ht hm hc e x h1
    obtain ⟨h2, h3⟩ := minmaxSeq_times (temporal_sane_ok hx.2 h)
    refine ⟨⟨hw, finTimes_of_times h2 hx.2⟩, ?_⟩
    rw [length_of_times h2, sampleBound]; exact hn
  | .untl a b i, z, h => by
    rw [RobustnessOp.compute] at h
    simp only [Outcome.bind_eq_ok] at h
    obtain ⟨x, h1, y, h2, h⟩ := h
    obtain ⟨hx, hx'⟩ := compute_any r count ht hm hc a x h1
    obtain ⟨hy, hy'⟩ := compute_any r count ht hm hc b y h2
    obtain ⟨h4, h5⟩ := computeUntil_any hx hy (until_any h)
    refine ⟨h4, ?_⟩
    rw [sampleBound]; omega

theorem computeArgs_any [SaneArith K] (r : RobustnessOp K) (count : String → Nat) (ht : TraceFin r.trace)
    (hm : (r.minTime, r.maxTime) = (.pinf, .ninf) ∨ ∃ a b, (r.minTime, r.maxTime) = (.fin a, .fin b))
    (hc : ∀ n x, r.trace.lookup n = some x → x.samples.length ≤ count n) :
    ∀ (es : List (Expr K)) (ys : List (Signal K)), r.computeArgs es = .ok ys →
      (∀ y ∈ ys, FinT y) ∧
      List.Forall₂ (· ≤ ·) (ys.map fun y => y.samples.length) (sampleBounds count es)
  | [], ys, h => by
    simp [RobustnessOp.computeArgs] at h; subst h; simp [sampleBounds]
  | e :: es, ys, h => by
    rw [RobustnessOp.computeArgs] at h
    simp only [Outcome.bind_eq_ok] at h
    obtain ⟨y, h1, ys', h2, h3⟩ := h
    simp only [Outcome.pure_eq_ok, Outcome.ok.injEq] at h3; subst h3
    obtain ⟨i1, i2⟩ := compute_any r count ht hm hc e _ h1
    obtain ⟨i3, i4⟩ := computeArgs_any r count ht hm hc es ys' h2
    refine ⟨?_, ?_⟩
    · intro z hz
      rcases List.mem_cons.1 hz with rfl | hz
      · exact i1
      · exact i3 z hz
    · rw [sampleBounds]; exact .cons i2 i4
end

end Verif
