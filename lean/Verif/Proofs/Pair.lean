import Verif.Proofs.Equiv
import Verif.Proofs.SyncOk

/-! # The pairwise minimum/maximum on signals with finite timestamps (values may be special) -/

set_option linter.unusedSectionVars false

namespace Verif
open Spec

section any
variable {K : Type} [Field K] [LinearOrder K] [Arith K]

/-- All timestamps are finite. -/
def FinTimes (l : List (Sample K)) : Prop := ∀ a ∈ l, ∃ t, a.time = .fin t

/-- Well formed with finite timestamps. -/
def FinT (s : Signal K) : Prop := WF s ∧ FinTimes s.samples

theorem FinTimes.noNaN {l : List (Sample K)} (h : FinTimes l) : NoNaNT l := by
  intro a ha e; obtain ⟨t, ht⟩ := h a ha; rw [e] at ht; cases ht

theorem FinT.sorted {s : Signal K} (h : FinT s) : SortedT s.samples :=
  sortedT_of_ordered _ h.1.1 h.2.noNaN

/-- Two consecutive pairs of samples of a synchronised pair of signals. -/
def Adj (p q i j : Sample K) : Prop :=
  ∃ t0 t1 : K, t0 < t1 ∧ p.time = .fin t0 ∧ q.time = .fin t0 ∧ i.time = .fin t1 ∧ j.time = .fin t1 ∧
    p.derivative = (i.value - p.value) / (i.time - p.time) ∧
    q.derivative = (j.value - q.value) / (j.time - q.time)

/-- Synchronised lists of samples. -/
def Synced : List (Sample K) → List (Sample K) → Prop
  | [], [] => True
  | [p], [q] => ∃ t, p.time = .fin t ∧ q.time = .fin t
  | p :: i :: is, q :: j :: js => Adj p q i j ∧ Synced (i :: is) (j :: js)
  | _, _ => False

theorem synced_build : ∀ (ts : List (D K)) (f g : D K → D K), SortedD ts →
    (∀ t ∈ ts, ∃ k, t = .fin k) →
    Synced (build (ts.map fun t => (t, f t))) (build (ts.map fun t => (t, g t)))
  | [], _, _, _, _ => trivial
  | [t], _, _, _, h => by
    obtain ⟨k, rfl⟩ := h t (by simp)
    exact ⟨k, rfl, rfl⟩
  | a :: b :: ts, f, g, hs, h => by
    have hs' := List.pairwise_cons.1 hs
    have ih := synced_build (b :: ts) f g hs'.2 (fun t ht => h t (List.mem_cons_of_mem _ ht))
    obtain ⟨ka, ea⟩ := h a (by simp)
    obtain ⟨kb, eb⟩ := h b (by simp)
    have hlt : ka < kb := by
      have := hs'.1 b (by simp)
      rw [ea, eb] at this; simpa using this
    simp only [List.map_cons, build_cons₂] at ih ⊢
    obtain ⟨d1, e1⟩ := build_cons (b, f b) (ts.map fun t => (t, f t))
    obtain ⟨d2, e2⟩ := build_cons (b, g b) (ts.map fun t => (t, g t))
    rw [e1, e2] at ih ⊢
    refine ⟨⟨ka, kb, hlt, ea, ea, eb, eb, rfl, rfl⟩, ih⟩

theorem syncTimes_fin {x y : Signal K} {b : D K} (hx : FinTimes x.samples) (hy : FinTimes y.samples) :
    ∀ t ∈ syncTimes b x.samples y.samples, ∃ k, t = .fin k := by
  intro t ht
  rcases mem_mergeT_sub _ _ t ht with h | h
  · have := List.mem_of_mem_filter h
    obtain ⟨a, ha, rfl⟩ := List.mem_map.1 this
    exact hx a ha
  · have := List.mem_of_mem_filter h
    obtain ⟨a, ha, rfl⟩ := List.mem_map.1 this
    exact hy a ha

theorem syncTimes_sorted {x y : Signal K} {b : D K} (hx : FinT x) (hy : FinT y) :
    SortedD (syncTimes b x.samples y.samples) := by
  unfold syncTimes
  have sub : ∀ l : List (Sample K), FinTimes l → ∀ t ∈ (l.map Sample.time).filter (fun t => b.le t),
      t ≠ .nan := by
    intro l hl t ht
    obtain ⟨a, ha, rfl⟩ := List.mem_map.1 (List.mem_of_mem_filter ht)
    exact hl.noNaN a ha
  exact sorted_mergeT _ _ (sub _ hx.2) (sub _ hy.2) (List.Pairwise.sublist List.filter_sublist hx.sorted)
    (List.Pairwise.sublist List.filter_sublist hy.sorted)

/-- A successful synchronisation of signals with finite timestamps yields synchronised lists. -/
theorem synchronize_synced {x y x' y' : Signal K} (hx : FinT x) (hy : FinT y)
    (h : synchronize x y = .ok (x', y')) : Synced x'.samples y'.samples ∧ WF x' ∧ WF y' := by
  obtain ⟨-, e⟩ := synchronize_ok_eq hx.sorted hy.sorted hx.2.noNaN hy.2.noNaN h
  simp only [Prod.mk.injEq] at e
  obtain ⟨rfl, rfl⟩ := e
  have hs := syncTimes_sorted (b := D.max x.beginTime y.beginTime) hx hy
  refine ⟨synced_build _ _ _ hs (syncTimes_fin hx.2 hy.2), ?_, ?_⟩
  · exact wf_build (incr_of_sortedD _ _ hs)
  · exact wf_build (incr_of_sortedD _ _ hs)

theorem synced_length : ∀ (l l' : List (Sample K)), Synced l l' → l.length = l'.length
  | [], [], _ => rfl
  | [_], [_], _ => rfl
  | _ :: i :: is, _ :: j :: js, h => by
    have := synced_length (i :: is) (j :: js) h.2
    simpa using this
  | [], _ :: _, h => h.elim
  | _ :: _, [], h => by simp [Synced] at h
  | [_], _ :: _ :: _, h => h.elim
  | _ :: _ :: _, [_], h => h.elim

theorem synced_times : ∀ (l l' : List (Sample K)), Synced l l' → FinTimes l ∧ FinTimes l' ∧
    l.map Sample.time = l'.map Sample.time
  | [], [], _ => ⟨by simp [FinTimes], by simp [FinTimes], rfl⟩
  | [p], [q], h => by
    obtain ⟨t, h1, h2⟩ := h
    refine ⟨?_, ?_, by simp [h1, h2]⟩
    · intro a ha; rw [List.mem_singleton.1 ha]; exact ⟨t, h1⟩
    · intro a ha; rw [List.mem_singleton.1 ha]; exact ⟨t, h2⟩
  | p :: i :: is, q :: j :: js, h => by
    obtain ⟨h1, h2, h3⟩ := synced_times (i :: is) (j :: js) h.2
    obtain ⟨t0, t1, -, e1, e2, -⟩ := h.1
    refine ⟨?_, ?_, ?_⟩
    · intro a ha
      rcases List.mem_cons.1 ha with rfl | ha
      · exact ⟨t0, e1⟩
      · exact h1 a ha
    · intro a ha
      rcases List.mem_cons.1 ha with rfl | ha
      · exact ⟨t0, e2⟩
      · exact h2 a ha
    · rw [List.map_cons, h3, List.map_cons (a := q), e1, e2]
  | [], _ :: _, h => h.elim
  | _ :: _, [], h => by simp [Synced] at h
  | [_], _ :: _ :: _, h => h.elim
  | _ :: _ :: _, [_], h => h.elim

/-- The assertions of `compute_minmax_pair` hold after a synchronisation. -/
theorem synced_asserts {x y : Signal K} (h : Synced x.samples y.samples) (nd : Bool) :
    assert_ nd (x.size == y.size) = .ok () ∧ assert_ nd (x.beginTime.eq y.beginTime) = .ok () ∧
      assert_ nd (x.endTime.eq y.endTime) = .ok () := by
  obtain ⟨h1, h2, h3⟩ := synced_times _ _ h
  have hb : x.beginTime.eq y.beginTime = true := by
    unfold Signal.beginTime
    have e : x.samples.head?.map Sample.time = y.samples.head?.map Sample.time := by
      rw [← List.head?_map, ← List.head?_map, h3]
    cases ex : x.samples.head? with
    | none => rw [ex] at e; cases ey : y.samples.head? with
      | none => simp [D.zero_def]
      | some b => rw [ey] at e; simp at e
    | some a => rw [ex] at e; cases ey : y.samples.head? with
      | none => rw [ey] at e; simp at e
      | some b =>
        rw [ey] at e
        simp only [Option.map_some, Option.some.injEq] at e
        obtain ⟨t, ht⟩ := h1 a (List.mem_of_head? ex)
        simp only
        rw [← e, ht]; simp
  have he : x.endTime.eq y.endTime = true := by
    unfold Signal.endTime
    have e : x.samples.getLast?.map Sample.time = y.samples.getLast?.map Sample.time := by
      rw [← List.getLast?_map, ← List.getLast?_map, h3]
    cases ex : x.samples.getLast? with
    | none => rw [ex] at e; cases ey : y.samples.getLast? with
      | none => simp [D.zero_def]
      | some b => rw [ey] at e; simp at e
    | some a => rw [ex] at e; cases ey : y.samples.getLast? with
      | none => rw [ey] at e; simp at e
      | some b =>
        rw [ey] at e
        simp only [Option.map_some, Option.some.injEq] at e
        obtain ⟨t, ht⟩ := h1 a (List.mem_of_getLast? ex)
        simp only
        rw [← e, ht]; simp
  have hl : (x.size == y.size) = true := by simp [Signal.size, synced_length _ _ h]
  simp [assert_, hb, he, hl]

/-- With finite timestamps the pairwise operation is a synchronisation followed by the loop. -/
theorem minmaxPair_finT (nd : Bool) (comp : Cmp K) {x y : Signal K} (hx : FinT x) (hy : FinT y) :
    minmaxPair nd comp x y false = (synchronize x y >>= fun p =>
      minmaxPairLoop comp Signal.empty .NONE none none p.1.samples p.2.samples) := by
  rw [minmaxPair_eq]
  simp only [Bool.false_eq_true, if_false]
  apply Outcome.bind_congr_ok
  rintro ⟨x', y'⟩ h
  obtain ⟨hs, -⟩ := synchronize_synced hx hy h
  obtain ⟨h1, h2, h3⟩ := synced_asserts hs nd
  simp only [h1, h2, h3, Outcome.bind_ok]

/-! ### Equivariance of the loop -/

/-- The comparison changes its result between the two pairs of samples. -/
def Change (comp : Cmp K) (p q i j : Sample K) : Prop := comp p q ≠ comp i j

variable {L : Type} [Field L] [LinearOrder L] [Arith L] {φ : SMap K L} {comp : Cmp K} {comp' : Cmp L}

theorem SMap.insertCrossing {out : Signal K} (ho : out.samples ≠ []) (p q : Sample K) (t : D K)
    (h : (φ.smp p).timeIntersect (φ.smp q) = φ.α (p.timeIntersect q)) :
    insertCrossing (φ.sig out) (some (φ.smp p)) (some (φ.smp q)) (φ.α t) =
      (insertCrossing out (some p) (some q) t).map' φ.sig := by
  unfold Verif.insertCrossing
  simp only [Verif.derefPrev, Outcome.bind_ok, h, φ.endTime ho, φ.lt', φ.eq', φ.interpolate,
    ← φ.smp_mk2, φ.pushBack]
  split <;> simp

theorem insertCrossing_ne {out z : Signal K} (ho : out.samples ≠ []) {a b : Option (Sample K)} {t : D K}
    (h : insertCrossing out a b t = .ok z) : z.samples ≠ [] := by
  unfold insertCrossing at h
  simp only [Outcome.bind_eq_ok] at h
  obtain ⟨s, -, p, -, h⟩ := h
  split at h
  · exact SMap.pushBack_ne h
  · simp only [Outcome.pure_eq_ok, Outcome.ok.injEq] at h; subst h; exact ho

theorem SMap.minmaxPairLoop_some (hc : ∀ a b, comp' (φ.smp a) (φ.smp b) = comp a b)
    (hTI : ∀ p q i j, Adj p q i j → Change comp p q i j →
      (φ.smp p).timeIntersect (φ.smp q) = φ.α (p.timeIntersect q) ∧
      (φ.smp q).timeIntersect (φ.smp p) = φ.α (q.timeIntersect p)) :
    ∀ (is js : List (Sample K)) (p q : Sample K) (out : Signal K) (c : Chosen),
      Synced (p :: is) (q :: js) → out.samples ≠ [] →
      (c = .X ∧ comp p q = true ∨ c = .Y ∧ comp p q = false) →
      minmaxPairLoop comp' (φ.sig out) c (some (φ.smp p)) (some (φ.smp q)) (is.map φ.smp)
        (js.map φ.smp) =
      (minmaxPairLoop comp out c (some p) (some q) is js).map' φ.sig := by
  intro is
  induction is with
  | nil => intro js p q out c _ _ _; simp [minmaxPairLoop]
  | cons i is ih =>
    intro js p q out c hs ho hcc
    cases js with
    | nil => simp [minmaxPairLoop]
    | cons j js =>
      obtain ⟨hadj, hs'⟩ := hs
      rw [List.map_cons, List.map_cons, minmaxPairLoop_cons, minmaxPairLoop_cons, hc]
      by_cases hij : comp i j = true
      · rw [if_pos hij, if_pos hij]
        have e1 : (if c = .Y then Verif.insertCrossing (φ.sig out) (some (φ.smp q)) (some (φ.smp p))
            (φ.smp i).time else .ok (φ.sig out)) =
            (if c = .Y then Verif.insertCrossing out (some q) (some p) i.time else .ok out).map' φ.sig := by
          split
          · rename_i hY
            rw [φ.smp_time]
            apply SMap.insertCrossing ho
            refine (hTI p q i j hadj ?_).2
            rcases hcc with ⟨h, -⟩ | ⟨-, h⟩
            · rw [hY] at h; cases h
            · rw [Change, h, hij]; simp
          · rfl
        rw [e1, Outcome.bind_map', Outcome.map'_bind]
        apply Outcome.bind_congr_ok
        intro o1 h1
        rw [φ.pushBack, Outcome.bind_map', Outcome.map'_bind]
        apply Outcome.bind_congr_ok
        intro o2 h2
        exact ih js i j o2 .X hs' (SMap.pushBack_ne h2) (.inl ⟨rfl, hij⟩)
      · rw [if_neg hij, if_neg hij]
        have e1 : (if c = .X then Verif.insertCrossing (φ.sig out) (some (φ.smp p)) (some (φ.smp q))
            (φ.smp j).time else .ok (φ.sig out)) =
            (if c = .X then Verif.insertCrossing out (some p) (some q) j.time else .ok out).map' φ.sig := by
          split
          · rename_i hX
            rw [φ.smp_time]
            apply SMap.insertCrossing ho
            refine (hTI p q i j hadj ?_).1
            rcases hcc with ⟨-, h⟩ | ⟨h, -⟩
            · rw [Change, h]; simpa using hij
            · rw [hX] at h; cases h
          · rfl
        rw [e1, Outcome.bind_map', Outcome.map'_bind]
        apply Outcome.bind_congr_ok
        intro o1 h1
        rw [φ.pushBack, Outcome.bind_map', Outcome.map'_bind]
        apply Outcome.bind_congr_ok
        intro o2 h2
        exact ih js i j o2 .Y hs' (SMap.pushBack_ne h2) (.inr ⟨rfl, by simpa using hij⟩)

theorem SMap.minmaxPairLoop (hc : ∀ a b, comp' (φ.smp a) (φ.smp b) = comp a b)
    (hTI : ∀ p q i j, Adj p q i j → Change comp p q i j →
      (φ.smp p).timeIntersect (φ.smp q) = φ.α (p.timeIntersect q) ∧
      (φ.smp q).timeIntersect (φ.smp p) = φ.α (q.timeIntersect p))
    (is js : List (Sample K)) (hs : Synced is js) :
      minmaxPairLoop comp' Signal.empty .NONE none none (is.map φ.smp) (js.map φ.smp) =
      (minmaxPairLoop comp Signal.empty .NONE none none is js).map' φ.sig := by
  cases is with
  | nil => simp [Verif.minmaxPairLoop]
  | cons i is =>
    cases js with
    | nil => simp [Verif.minmaxPairLoop]
    | cons j js =>
      rw [List.map_cons, List.map_cons, minmaxPairLoop_cons, minmaxPairLoop_cons, hc]
      have h1 := φ.pushBack Signal.empty i
      have h2 := φ.pushBack Signal.empty j
      rw [φ.sig_empty] at h1 h2
      simp only [reduceCtorEq, if_false, Outcome.bind_ok, h1, h2]
      split
      · rename_i hij
        rw [Outcome.bind_map', Outcome.map'_bind]
        apply Outcome.bind_congr_ok
        intro o2 h2
        exact SMap.minmaxPairLoop_some hc hTI is js i j o2 .X hs (SMap.pushBack_ne h2) (.inl ⟨rfl, hij⟩)
      · rename_i hij
        rw [Outcome.bind_map', Outcome.map'_bind]
        apply Outcome.bind_congr_ok
        intro o2 h2
        exact SMap.minmaxPairLoop_some hc hTI is js i j o2 .Y hs (SMap.pushBack_ne h2)
          (.inr ⟨rfl, by simpa using hij⟩)

theorem wf_times_map {s : Signal K} (h : WF s) (hn : FinTimes s.samples)
    (hf : ∀ t : K, ∃ u, φ.α (.fin t) = .fin u) : FinT (φ.sig s) := by
  refine ⟨φ.wf h, ?_⟩
  intro a ha
  obtain ⟨b, hb, rfl⟩ := List.mem_map.1 ha
  obtain ⟨t, ht⟩ := hn b hb
  obtain ⟨u, hu⟩ := hf t
  exact ⟨u, by rw [φ.smp_time, ht, hu]⟩

theorem SMap.minmaxPair (hc : ∀ a b, comp' (φ.smp a) (φ.smp b) = comp a b)
    (hTI : ∀ p q i j, Adj p q i j → Change comp p q i j →
      (φ.smp p).timeIntersect (φ.smp q) = φ.α (p.timeIntersect q) ∧
      (φ.smp q).timeIntersect (φ.smp p) = φ.α (q.timeIntersect p))
    (hf : ∀ t : K, ∃ u, φ.α (.fin t) = .fin u)
    (nd : Bool) {x y : Signal K} (hx : FinT x) (hy : FinT y)
    (h0 : φ.α 0 = 0 ∨ x.samples ≠ [] ∧ y.samples ≠ []) :
    minmaxPair nd comp' (φ.sig x) (φ.sig y) false = (minmaxPair nd comp x y false).map' φ.sig := by
  rw [minmaxPair_finT nd comp hx hy, minmaxPair_finT nd comp' (wf_times_map hx.1 hx.2 hf)
    (wf_times_map hy.1 hy.2 hf), φ.synchronize h0, Outcome.bind_map', Outcome.map'_bind]
  apply Outcome.bind_congr_ok
  rintro ⟨x', y'⟩ h
  obtain ⟨hs, -⟩ := synchronize_synced hx hy h
  exact SMap.minmaxPairLoop hc hTI _ _ hs

/-! ### Preservation of finite timestamps -/

theorem pushBack_times {s z : Signal K} {x : Sample K} (h : s.pushBack x = .ok z) :
    z.samples.map Sample.time = s.samples.map Sample.time ++ [x.time] := by
  obtain ⟨l⟩ := s
  rcases List.eq_nil_or_concat l with rfl | ⟨l, a, rfl⟩
  · simp only [Signal.pushBack, List.getLast?_nil, Outcome.ok.injEq] at h; subst h; simp
  · rw [List.concat_eq_append] at h ⊢
    simp only [Signal.pushBack, List.getLast?_append, List.getLast?_singleton, Option.some_or] at h
    split at h
    · simp at h
    · simp only [Outcome.ok.injEq] at h; subst h; simp

theorem finTimes_iff {l : List (Sample K)} : FinTimes l ↔ ∀ t ∈ l.map Sample.time, ∃ k, t = .fin k := by
  simp [FinTimes]

theorem pushBack_finTimes {s z : Signal K} {x : Sample K} (hs : FinTimes s.samples)
    (hx : ∃ k, x.time = .fin k) (h : s.pushBack x = .ok z) : FinTimes z.samples := by
  rw [finTimes_iff] at hs ⊢
  rw [pushBack_times h]
  intro t ht
  rcases List.mem_append.1 ht with ht | ht
  · exact hs t ht
  · rw [List.mem_singleton.1 ht]; exact hx

theorem minmaxPairLoop_finTimes
    (hTI : ∀ p q i j : Sample K, Adj p q i j → Change comp p q i j →
      (p.timeIntersect q = .nan ∨ ∃ k, p.timeIntersect q = .fin k) ∧
      (q.timeIntersect p = .nan ∨ ∃ k, q.timeIntersect p = .fin k)) :
    ∀ (is js : List (Sample K)) (p q : Sample K) (out z : Signal K) (c : Chosen),
      Synced (p :: is) (q :: js) → FinTimes out.samples →
      (c = .X ∧ comp p q = true ∨ c = .Y ∧ comp p q = false) →
      minmaxPairLoop comp out c (some p) (some q) is js = .ok z → FinTimes z.samples := by
  have hic : ∀ (out z : Signal K) (p q : Sample K) (t : D K), FinTimes out.samples →
      (p.timeIntersect q = .nan ∨ ∃ k, p.timeIntersect q = .fin k) →
      insertCrossing out (some p) (some q) t = .ok z → FinTimes z.samples := by
    intro out z p q t ho h e
    unfold insertCrossing at e
    simp only [derefPrev, Outcome.bind_ok] at e
    split at e
    · rename_i hlt
      refine pushBack_finTimes ho ?_ e
      rcases h with h | h
      · rw [h] at hlt; simp at hlt
      · exact h
    · simp only [Outcome.pure_eq_ok, Outcome.ok.injEq] at e; subst e; exact ho
  intro is
  induction is with
  | nil =>
    intro js p q out z c _ ho _ e
    simp only [minmaxPairLoop, Outcome.ok.injEq] at e; subst e; exact ho
  | cons i is ih =>
    intro js p q out z c hs ho hcc e
    cases js with
    | nil => simp only [minmaxPairLoop, Outcome.ok.injEq] at e; subst e; exact ho
    | cons j js =>
      obtain ⟨hadj, hs'⟩ := hs
      have hft := synced_times _ _ hs'
      rw [minmaxPairLoop_cons] at e
      by_cases hij : comp i j = true
      · rw [if_pos hij] at e
        simp only [Outcome.bind_eq_ok] at e
        obtain ⟨o1, e1, o2, e2, e3⟩ := e
        have h1 : FinTimes o1.samples := by
          split at e1
          · rename_i hY
            refine hic _ _ _ _ _ ho (hTI p q i j hadj ?_).2 e1
            rcases hcc with ⟨h, -⟩ | ⟨-, h⟩
            · rw [hY] at h; cases h
            · rw [Change, h, hij]; simp
          · simp only [Outcome.ok.injEq] at e1; subst e1; exact ho
        exact ih js i j o2 z .X hs' (pushBack_finTimes h1 (hft.1 i (by simp)) e2) (.inl ⟨rfl, hij⟩) e3
      · rw [if_neg hij] at e
        simp only [Outcome.bind_eq_ok] at e
        obtain ⟨o1, e1, o2, e2, e3⟩ := e
        have h1 : FinTimes o1.samples := by
          split at e1
          · rename_i hX
            refine hic _ _ _ _ _ ho (hTI p q i j hadj ?_).1 e1
            rcases hcc with ⟨-, h⟩ | ⟨h, -⟩
            · rw [Change, h]; simpa using hij
            · rw [hX] at h; cases h
          · simp only [Outcome.ok.injEq] at e1; subst e1; exact ho
        exact ih js i j o2 z .Y hs' (pushBack_finTimes h1 (hft.2.1 j (by simp)) e2)
          (.inr ⟨rfl, by simpa using hij⟩) e3

theorem minmaxPairLoop_ne : ∀ (is js : List (Sample K)) (pi pj : Option (Sample K)) (out z : Signal K)
    (c : Chosen), out.samples ≠ [] → minmaxPairLoop comp out c pi pj is js = .ok z → z.samples ≠ [] := by
  intro is
  induction is with
  | nil =>
    intro js pi pj out z c ho e
    simp only [minmaxPairLoop, Outcome.ok.injEq] at e; subst e; exact ho
  | cons i is ih =>
    intro js pi pj out z c ho e
    cases js with
    | nil => simp only [minmaxPairLoop, Outcome.ok.injEq] at e; subst e; exact ho
    | cons j js =>
      rw [minmaxPairLoop_cons] at e
      split at e <;>
      · simp only [Outcome.bind_eq_ok] at e
        obtain ⟨o1, -, o2, e2, e3⟩ := e
        exact ih _ _ _ _ _ _ (SMap.pushBack_ne e2) e3

theorem minmaxPair_finT_ok
    (hTI : ∀ p q i j : Sample K, Adj p q i j → Change comp p q i j →
      (p.timeIntersect q = .nan ∨ ∃ k, p.timeIntersect q = .fin k) ∧
      (q.timeIntersect p = .nan ∨ ∃ k, q.timeIntersect p = .fin k))
    {nd : Bool} {x y z : Signal K} (hx : FinT x) (hy : FinT y)
    (h : minmaxPair nd comp x y false = .ok z) : FinT z ∧ z.samples ≠ [] := by
  have hwf := wf_minmaxPair h
  rw [minmaxPair_finT nd comp hx hy] at h
  simp only [Outcome.bind_eq_ok] at h
  obtain ⟨⟨x', y'⟩, h1, h2⟩ := h
  obtain ⟨hs, wx, wy⟩ := synchronize_synced hx hy h1
  have hne : x'.samples ≠ [] := by
    -- the synchronised signals are not empty
    have := h1
    unfold synchronize at this
    simp only [Outcome.bind_eq_ok] at this
    obtain ⟨_, -, _, -, _, -, _, -, p, -, hf⟩ := this
    unfold syncFinish at hf
    simp only [Outcome.bind_eq_ok] at hf
    obtain ⟨xb, e1, yb, e2, yb', e3, xb', e4, sx, e5, sy, e6, e7⟩ := hf
    simp only [Outcome.pure_eq_ok, Outcome.ok.injEq, Prod.mk.injEq] at e7
    obtain ⟨rfl, rfl⟩ := e7
    rw [ofSamples_ok_iff] at e5
    obtain ⟨-, rfl⟩ := e5
    simp only [ne_eq, build_eq_nil, List.map_eq_nil_iff]
    intro hnil
    have : ∀ l : List (Sample K), vback l = .ok xb → l ≠ [] := by
      rintro l hl rfl; simp [vback] at hl
    split at hnil
    · simp at hnil
    · exact this _ e1 hnil
  simp only at h2
  generalize x'.samples = xs at *
  generalize y'.samples = ys at *
  cases xs with
  | nil => exact absurd rfl hne
  | cons i is =>
    cases ys with
    | nil => cases is <;> exact hs.elim
    | cons j js =>
      have hft := synced_times _ _ hs
      rw [minmaxPairLoop_cons] at h2
      simp only [reduceCtorEq, if_false, Outcome.bind_ok] at h2
      split at h2
      · rename_i hij
        simp only [Outcome.bind_eq_ok] at h2
        obtain ⟨o, e1, e2⟩ := h2
        refine ⟨⟨hwf, minmaxPairLoop_finTimes hTI is js i j o z .X hs
          (pushBack_finTimes (by simp [FinTimes, Signal.empty]) (hft.1 i (by simp)) e1)
          (.inl ⟨rfl, hij⟩) e2⟩, minmaxPairLoop_ne _ _ _ _ _ _ _ (SMap.pushBack_ne e1) e2⟩
      · rename_i hij
        simp only [Outcome.bind_eq_ok] at h2
        obtain ⟨o, e1, e2⟩ := h2
        refine ⟨⟨hwf, minmaxPairLoop_finTimes hTI is js i j o z .Y hs
          (pushBack_finTimes (by simp [FinTimes, Signal.empty]) (hft.2.1 j (by simp)) e1)
          (.inr ⟨rfl, by simpa using hij⟩) e2⟩, minmaxPairLoop_ne _ _ _ _ _ _ _ (SMap.pushBack_ne e1) e2⟩

end any

/-! ### The crossing under exact arithmetic -/

section exact
variable {K : Type} [Field K] [LinearOrder K] [IsStrictOrderedRing K] [Arith K] [ExactArith K]

theorem D.sub_eq_zero {a b : D K} (h : a - b = .fin 0) : ∃ u, a = .fin u ∧ b = .fin u := by
  cases a <;> cases b <;> simp [D.sub_def] at h
  case fin.fin u v => exact ⟨u, rfl, by rw [← sub_eq_add_neg, _root_.sub_eq_zero] at h; rw [h]⟩
  all_goals first | (cases h; done) | skip

theorem D.sub_eq_fin {a b : D K} {c : K} (h : a - b = .fin c) :
    ∃ u v, a = .fin u ∧ b = .fin v ∧ u - v = c := by
  cases a <;> cases b <;> simp [D.sub_def] at h
  case fin.fin u v => exact ⟨u, v, rfl, rfl, by rw [← h]; ring⟩
  all_goals first | (cases h; done) | skip

theorem D.div_eq_fin {a : D K} {b c : K} (hb : b ≠ 0) (h : a / .fin b = .fin c) :
    ∃ u, a = .fin u ∧ u / b = c := by
  cases a with
  | fin u => rw [D.div_fin _ _ hb] at h; exact ⟨u, rfl, by simpa using h⟩
  | pinf => exfalso; change (if b < 0 then (.ninf : D K) else .pinf) = _ at h; split at h <;> cases h
  | ninf => exfalso; change (if b < 0 then (.pinf : D K) else .ninf) = _ at h; split at h <;> cases h
  | nan => simp at h

/-- If a slope is finite, both values are. -/
theorem slope_fin {v1 v0 : D K} {t1 t0 c : K} (ht : t0 < t1)
    (h : (v1 - v0) / ((.fin t1 : D K) - .fin t0) = .fin c) :
    ∃ a b, v1 = .fin a ∧ v0 = .fin b ∧ (a - b) / (t1 - t0) = c := by
  rw [D.sub_fin] at h
  obtain ⟨u, hu, e⟩ := D.div_eq_fin (sub_ne_zero.2 ht.ne') h
  obtain ⟨a, b, rfl, rfl, e2⟩ := D.sub_eq_fin hu
  exact ⟨a, b, rfl, rfl, by rw [e2, e]⟩

/-- The comparison is one of the two used by the code. -/
def MinOrMax (comp : Cmp K) : Prop := comp = Sample.le ∨ comp = Sample.ge

theorem den_ne {comp : Cmp K} (hm : MinOrMax comp) {p q i j : Sample K} (h : Adj p q i j)
    (hch : Change comp p q i j) : q.derivative - p.derivative ≠ .fin 0 := by
  intro hd
  obtain ⟨u, e1, e2⟩ := D.sub_eq_zero hd
  obtain ⟨t0, t1, hlt, ep, eq, ei, ej, dp, dq⟩ := h
  rw [e2, ei, ep] at dp
  rw [e1, ej, eq] at dq
  obtain ⟨a, b, h1, h2, h3⟩ := slope_fin hlt dp.symm
  obtain ⟨c, d, h4, h5, h6⟩ := slope_fin hlt dq.symm
  have hne : t1 - t0 ≠ 0 := sub_ne_zero.2 hlt.ne'
  have h7 : a - b = c - d := by
    rw [← h6] at h3
    field_simp at h3
    exact h3
  apply hch
  rcases hm with rfl | rfl
  · simp only [Sample.le, Sample.gt, Sample.lt, h1, h2, h4, h5, D.lt_fin]
    congr 1
    rw [decide_eq_decide]
    constructor <;> intro <;> linarith
  · simp only [Sample.ge, Sample.lt, h1, h2, h4, h5, D.lt_fin]
    congr 1
    rw [decide_eq_decide]
    constructor <;> intro <;> linarith

theorem den_ne' {comp : Cmp K} (hm : MinOrMax comp) {p q i j : Sample K} (h : Adj p q i j)
    (hch : Change comp p q i j) : p.derivative - q.derivative ≠ .fin 0 := by
  intro hd
  obtain ⟨u, e1, e2⟩ := D.sub_eq_zero hd
  exact den_ne hm h hch (by rw [e1, e2]; simp)

/-- The crossing time is finite or NaN. -/
theorem crossing_fin {p q i j : Sample K} (h : Adj p q i j)
    (hd : q.derivative - p.derivative ≠ .fin 0) :
    p.timeIntersect q = .nan ∨ ∃ k, p.timeIntersect q = .fin k := by
  obtain ⟨t0, t1, hlt, ep, eq, ei, ej, dp, dq⟩ := h
  unfold Sample.timeIntersect
  cases e : q.derivative - p.derivative with
  | nan => left; simp
  | fin c =>
    right
    obtain ⟨u, v, e1, e2, e3⟩ := D.sub_eq_fin e
    rw [e2, ei, ep] at dp
    rw [e1, ej, eq] at dq
    obtain ⟨a, b, h1, h2, h3⟩ := slope_fin hlt dp.symm
    obtain ⟨c', d, h4, h5, h6⟩ := slope_fin hlt dq.symm
    have hc : c ≠ 0 := by rintro rfl; exact hd e
    rw [h2, h5, e1, e2, ep, eq]
    simp only [D.sub_fin, D.mul_fin, D.add_fin]
    rw [D.div_fin _ _ hc]
    exact ⟨_, rfl⟩
  | pinf =>
    generalize (p.value - q.value + q.derivative * q.time - p.derivative * p.time) = n
    cases n with
    | fin a => exact .inr ⟨0, rfl⟩
    | _ => exact .inl rfl
  | ninf =>
    generalize (p.value - q.value + q.derivative * q.time - p.derivative * p.time) = n
    cases n with
    | fin a => exact .inr ⟨0, rfl⟩
    | _ => exact .inl rfl

theorem Adj.symm {p q i j : Sample K} (h : Adj p q i j) : Adj q p j i := by
  obtain ⟨t0, t1, hlt, ep, eq, ei, ej, dp, dq⟩ := h
  exact ⟨t0, t1, hlt, eq, ep, ej, ei, dq, dp⟩

theorem crossings_fin {comp : Cmp K} (hm : MinOrMax comp) (p q i j : Sample K) (h : Adj p q i j)
    (hch : Change comp p q i j) :
    (p.timeIntersect q = .nan ∨ ∃ k, p.timeIntersect q = .fin k) ∧
      (q.timeIntersect p = .nan ∨ ∃ k, q.timeIntersect p = .fin k) :=
  ⟨crossing_fin h (den_ne hm h hch), crossing_fin h.symm (den_ne' hm h hch)⟩

theorem minmaxPair_finT_exact {comp : Cmp K} (hm : MinOrMax comp) {nd : Bool} {x y z : Signal K}
    (hx : FinT x) (hy : FinT y) (h : minmaxPair nd comp x y false = .ok z) :
    FinT z ∧ z.samples ≠ [] :=
  minmaxPair_finT_ok (crossings_fin hm) hx hy h

end exact

end Verif
