import Verif.Proofs.FinT

/-! # Minimum and maximum with the signal of a Boolean constant -/

set_option linter.unusedSectionVars false

namespace Verif
open Spec

variable {K : Type} [Field K] [LinearOrder K] [Arith K]

/-- The points of the signal of a constant, as they are after synchronisation. -/
def constPts (c a z : D K) (mid : List (D K)) : List (D K × D K) :=
  (a, c) :: (mid.map (fun t => (t, .nan)) ++ [(z, c)])

theorem timeIntersect_nan {p q : Sample K} (h : p.derivative = .nan ∨ q.derivative = .nan) :
    p.timeIntersect q = .nan := by
  unfold Sample.timeIntersect
  rcases h with h | h <;> simp [h]

theorem insertCrossing_nan {out : Signal K} {p q : Sample K} (t : D K)
    (h : p.derivative = .nan ∨ q.derivative = .nan) : insertCrossing out (some p) (some q) t = .ok out := by
  unfold insertCrossing
  simp [derefPrev, timeIntersect_nan h]

/-- Without crossings the loop just chooses. -/
theorem minmaxPairLoop_nan (comp : Cmp K) : ∀ (is js : List (Sample K)) (p q : Sample K) (out : Signal K)
    (c : Chosen),
    ((∀ k ∈ (p :: is).dropLast, k.derivative = .nan) ∨ (∀ k ∈ (q :: js).dropLast, k.derivative = .nan)) →
    minmaxPairLoop comp out c (some p) (some q) is js =
      out.pushAll (List.zipWith (fun i j => if comp i j then i else j) is js)
  | [], js, p, q, out, c, _ => by cases js <;> simp [minmaxPairLoop, Signal.pushAll]
  | i :: is, [], p, q, out, c, _ => by simp [minmaxPairLoop, Signal.pushAll]
  | i :: is, j :: js, p, q, out, c, h => by
    have hd : p.derivative = .nan ∨ q.derivative = .nan := by
      rcases h with h | h
      · exact .inl (h p (by simp))
      · exact .inr (h q (by simp))
    have hn : ((∀ k ∈ (i :: is).dropLast, k.derivative = .nan) ∨
        (∀ k ∈ (j :: js).dropLast, k.derivative = .nan)) := by
      rcases h with h | h
      · exact .inl fun k hk => h k (by rw [List.dropLast_cons_of_ne_nil (by simp)]; simp [hk])
      · exact .inr fun k hk => h k (by rw [List.dropLast_cons_of_ne_nil (by simp)]; simp [hk])
    rw [minmaxPairLoop_cons, insertCrossing_nan _ hd, insertCrossing_nan _ hd.symm]
    simp only [ite_self, Outcome.bind_ok, List.zipWith_cons_cons, Signal.pushAll]
    split_ifs with hc
    · apply Outcome.bind_congr_ok; intro o _
      exact minmaxPairLoop_nan comp is js i j o .X hn
    · apply Outcome.bind_congr_ok; intro o _
      exact minmaxPairLoop_nan comp is js i j o .Y hn

theorem minmaxPairLoop_nan_start (comp : Cmp K) (is js : List (Sample K))
    (h : (∀ k ∈ is.dropLast, k.derivative = .nan) ∨ (∀ k ∈ js.dropLast, k.derivative = .nan)) :
    minmaxPairLoop comp Signal.empty .NONE none none is js =
      Signal.ofSamples (List.zipWith (fun i j => if comp i j then i else j) is js) := by
  cases is with
  | nil => cases js <;> simp [minmaxPairLoop, Signal.ofSamples, Signal.pushAll]
  | cons i is =>
    cases js with
    | nil => simp [minmaxPairLoop, Signal.ofSamples, Signal.pushAll]
    | cons j js =>
      rw [minmaxPairLoop_cons]
      simp only [reduceCtorEq, if_false, Outcome.bind_ok, Signal.ofSamples, List.zipWith_cons_cons,
        Signal.pushAll]
      split_ifs with hc
      · apply Outcome.bind_congr_ok; intro o _
        exact minmaxPairLoop_nan comp is js i j o .X h
      · apply Outcome.bind_congr_ok; intro o _
        exact minmaxPairLoop_nan comp is js i j o .Y h

theorem build_nan_derivative (c z : D K) : ∀ mid : List (D K), ∀ k ∈
    (build (mid.map (fun t => (t, D.nan)) ++ [(z, c)])).dropLast, k.derivative = .nan
  | [], k, hk => by simp at hk
  | [t], k, hk => by
    simp at hk; subst hk; simp
  | t :: u :: mid, k, hk => by
    have ih := build_nan_derivative c z (u :: mid)
    simp only [List.map_cons, List.cons_append, build_cons₂] at hk ih
    rw [List.dropLast_cons_of_ne_nil (by simp)] at hk
    rcases List.mem_cons.1 hk with rfl | hk
    · simp
    · exact ih k hk

theorem constPts_derivative {c : D K} (hc : c = .pinf ∨ c = .ninf) (a z : D K) (mid : List (D K)) :
    ∀ k ∈ (build (constPts c a z mid)).dropLast, k.derivative = .nan := by
  intro k hk
  unfold constPts at hk
  have hcc : c - c = .nan := by rcases hc with rfl | rfl <;> rfl
  cases mid with
  | nil => simp at hk; subst hk; simp [hcc]
  | cons t mid =>
    simp only [List.map_cons, List.cons_append, build_cons₂] at hk
    rw [List.dropLast_cons_of_ne_nil (by simp)] at hk
    rcases List.mem_cons.1 hk with rfl | hk
    · simp
    · exact build_nan_derivative c z (t :: mid) k (by simpa using hk)

theorem sortedD_cons {a : D K} {l : List (D K)} :
    SortedD (a :: l) ↔ (∀ b ∈ l, a.lt b = true) ∧ SortedD l := by
  simp [SortedD]

theorem mergeT_last (z : D K) (hz : z ≠ .nan) : ∀ mid : List (D K), SortedD (mid ++ [z]) →
    mergeT (mid ++ [z]) [z] = mid ++ [z]
  | [], _ => by rw [List.nil_append, mergeT_cons, if_pos (D.eq_iff.2 ⟨rfl, hz⟩)]; simp
  | t :: mid, h => by
    rw [List.cons_append, sortedD_cons] at h
    have hl := h.1 z (by simp)
    rw [List.cons_append, mergeT_cons, if_neg, if_pos hl, mergeT_last z hz mid h.2]
    rw [D.eq_iff]; rintro ⟨rfl, -⟩; rw [D.lt_irrefl] at hl; cases hl

theorem mergeT_ends {a z : D K} (ha : a ≠ .nan) (hz : z ≠ .nan) (mid : List (D K))
    (h : SortedD (a :: (mid ++ [z]))) : mergeT (a :: (mid ++ [z])) [a, z] = a :: (mid ++ [z]) := by
  rw [mergeT_cons, if_pos (D.eq_iff.2 ⟨rfl, ha⟩), mergeT_last z hz mid (sortedD_cons.1 h).2]

theorem resample_self : ∀ (l : List (Sample K)), NoNaNT l → SortedT l →
    resample l (l.map Sample.time) = l.map tv
  | [], _, _ => rfl
  | a :: l, hn, hs => by
    have ih := resample_self l (fun b hb => hn b (by simp [hb])) (sortedT_cons.1 hs).2
    rw [List.map_cons, List.map_cons, ← ih]
    simp only [resample, List.map_cons]
    rw [evalD_head a l (hn a (by simp)) hs]
    congr 1
    apply List.map_congr_left
    intro t ht
    obtain ⟨b, hb, rfl⟩ := List.mem_map.1 ht
    cases l with
    | nil => simp at hb
    | cons c l =>
      rw [evalD_cons_of_le a rfl]
      rcases List.mem_cons.1 hb with rfl | hb
      · exact D.le_refl (hn _ (by simp))
      · exact D.le_of_lt ((sortedT_cons.1 (sortedT_cons.1 hs).2).1 b hb)

theorem resample_const {c a z : D K} (hc : c = .pinf ∨ c = .ninf) (ha : a ≠ .nan) (hz : z ≠ .nan)
    (mid : List (D K)) (h : SortedD (a :: (mid ++ [z]))) :
    resample (build [(a, c), (z, c)]) (a :: (mid ++ [z])) = constPts c a z mid := by
  have hcc : c - c = .nan := by rcases hc with rfl | rfl <;> rfl
  obtain ⟨h1, h2⟩ := sortedD_cons.1 h
  have haz : a.lt z = true := h1 z (by simp)
  simp only [build_cons₂, build_single, resample, List.map_cons, List.map_append, constPts, hcc,
    D.nan_div]
  refine List.cons_eq_cons.2 ⟨?_, ?_⟩
  · rw [evalD, if_neg, if_pos (D.eq_iff.2 ⟨rfl, ha⟩)]
    rw [Bool.not_eq_true]; exact (D.not_le_iff_lt ha hz).2 haz
  · congr 1
    · apply List.map_congr_left
      intro t ht
      have hat : a.lt t = true := h1 t (by simp [ht])
      have htz : t.lt z = true := by
        have := (List.pairwise_append.1 h2).2.2 t ht z (by simp)
        exact this
      rw [evalD_between (⟨a, c, .nan⟩ : Sample K) _ _ hat htz]
      simp [Sample.interpolate]
    · simp [evalD, D.le_refl hz, D.eq_iff.2 ⟨rfl, hz⟩]

/-- The signal of a constant. -/
theorem const_ok (c : D K) {a z : D K} (h : a.lt z = true) :
    Signal.ofSamples [⟨a, c, 0⟩, ⟨z, c, 0⟩] = .ok (⟨build [(a, c), (z, c)]⟩ : Signal K) := by
  have hn := D.lt_ne_nan h
  rw [ofSamples_ok_iff]
  exact ⟨⟨(D.not_le_iff_lt hn.1 hn.2).2 h, trivial⟩, rfl⟩

variable (nd : Bool) (comp : Cmp K) {x : Signal K} {c : D K} {a z : K} {v w : D K}
  {mid : List (D K × D K)}

theorem const_finT (hc : c = .pinf ∨ c = .ninf) (haz : a < z) :
    FinT (⟨build [(.fin a, c), (.fin z, c)]⟩ : Signal K) := by
  refine ⟨wf_build ?_, ?_⟩
  · simp [haz]
  · intro s hs
    simp only [build_cons₂, build_single, List.mem_cons, List.not_mem_nil, or_false] at hs
    rcases hs with rfl | rfl
    · exact ⟨a, rfl⟩
    · exact ⟨z, rfl⟩

theorem sync_const_aux (hx : FinT x) (e : x.samples.map tv = (.fin a, v) :: (mid ++ [(.fin z, w)])) :
    x.samples.map Sample.time = .fin a :: (mid.map Prod.fst ++ [.fin z]) ∧
    SortedD (.fin a :: (mid.map Prod.fst ++ [.fin z])) ∧ a < z ∧
    (∃ b r, x.samples = b :: r ∧ b.time = .fin a) ∧ x.beginTime = .fin a ∧
    (x.samples.map Sample.time).filter (fun t => (D.fin a).le t) = x.samples.map Sample.time := by
  have et : x.samples.map Sample.time = .fin a :: (mid.map Prod.fst ++ [.fin z]) := by
    have := congrArg (List.map Prod.fst) e
    simpa [tv, Function.comp_def] using this
  have hs : SortedD (x.samples.map Sample.time) := hx.sorted
  rw [et] at hs
  have hlt := (sortedD_cons.1 hs).1
  obtain ⟨b, r, hb⟩ := List.exists_cons_of_ne_nil (l := x.samples) (by rintro h; rw [h] at e; simp at e)
  have hbt : b.time = .fin a := by rw [hb] at et; simpa using (List.cons_eq_cons.1 et).1
  refine ⟨et, hs, by simpa using hlt (.fin z) (by simp), ⟨b, r, hb, hbt⟩, ?_, ?_⟩
  · simp [Signal.beginTime, hb, hbt]
  · rw [et]
    apply List.filter_eq_self.2
    intro t ht
    rcases List.mem_cons.1 ht with rfl | ht
    · simp
    · exact D.le_of_lt (hlt t ht)

theorem sync_const_right (hx : FinT x) (hc : c = .pinf ∨ c = .ninf)
    (e : x.samples.map tv = (.fin a, v) :: (mid ++ [(.fin z, w)])) :
    synchronize x ⟨build [(.fin a, c), (.fin z, c)]⟩ =
      .ok (x, ⟨build (constPts c (.fin a) (.fin z) (mid.map Prod.fst))⟩) := by
  obtain ⟨et, hs, haz, ⟨b, r, hb, hbt⟩, hbeg, hfil⟩ := sync_const_aux hx e
  have hcf := const_finT hc haz
  have hmax : D.max x.beginTime (⟨build [(.fin a, c), (.fin z, c)]⟩ : Signal K).beginTime = .fin a := by
    rw [hbeg]; simp [Signal.beginTime, D.max]
  rw [synchronize_split x ⟨build [(.fin a, c), (.fin z, c)]⟩ [] r [] [⟨.fin z, c, 0⟩] b
    ⟨.fin a, c, (c - c) / (.fin z - .fin a)⟩ (by simp [hb]) rfl hx.sorted hcf.sorted
    (by rw [hmax, hbt]) (by rw [hmax]) (by rw [hmax]; simp)]
  rw [hmax]
  have ets : syncTimes (.fin a) x.samples (build [(.fin a, c), (.fin z, c)]) =
      .fin a :: (mid.map Prod.fst ++ [.fin z]) := by
    unfold syncTimes
    rw [hfil, et]
    have : ((build [((D.fin a : D K), c), (.fin z, c)]).map Sample.time).filter (fun t => (D.fin a).le t) =
        [.fin a, .fin z] := by simp [haz.le]
    rw [this, mergeT_ends (by simp) (by simp) _ hs]
  simp only [ets]
  rw [resample_const hc (by simp) (by simp) _ hs, ← et, resample_self _ hx.2.noNaN hx.sorted,
    ← (slopes_iff _).1 hx.1.2]

theorem sync_const_left (hx : FinT x) (hc : c = .pinf ∨ c = .ninf)
    (e : x.samples.map tv = (.fin a, v) :: (mid ++ [(.fin z, w)])) :
    synchronize ⟨build [(.fin a, c), (.fin z, c)]⟩ x =
      .ok (⟨build (constPts c (.fin a) (.fin z) (mid.map Prod.fst))⟩, x) := by
  obtain ⟨et, hs, haz, ⟨b, r, hb, hbt⟩, hbeg, hfil⟩ := sync_const_aux hx e
  have hcf := const_finT hc haz
  have hmax : D.max (⟨build [(.fin a, c), (.fin z, c)]⟩ : Signal K).beginTime x.beginTime = .fin a := by
    rw [hbeg]; simp [Signal.beginTime, D.max]
  rw [synchronize_split ⟨build [(.fin a, c), (.fin z, c)]⟩ x [] [⟨.fin z, c, 0⟩] [] r
    ⟨.fin a, c, (c - c) / (.fin z - .fin a)⟩ b rfl (by simp [hb]) hcf.sorted hx.sorted
    (by rw [hmax]) (by rw [hmax, hbt]) (by rw [hmax]; simp)]
  rw [hmax]
  have ets : syncTimes (.fin a) (build [(.fin a, c), (.fin z, c)]) x.samples =
      .fin a :: (mid.map Prod.fst ++ [.fin z]) := by
    unfold syncTimes
    rw [hfil, et]
    have : ((build [((D.fin a : D K), c), (.fin z, c)]).map Sample.time).filter (fun t => (D.fin a).le t) =
        [.fin a, .fin z] := by simp [haz.le]
    rw [this, mergeT_comm, mergeT_ends (by simp) (by simp) _ hs]
    · simp
    · rw [← et]
      intro t ht
      obtain ⟨s, hs', rfl⟩ := List.mem_map.1 ht
      exact hx.2.noNaN s hs'
  simp only [ets]
  rw [resample_const hc (by simp) (by simp) _ hs, ← et, resample_self _ hx.2.noNaN hx.sorted,
    ← (slopes_iff _).1 hx.1.2]

/-- A comparison that depends on the values only and is true of NaN. -/
structure ValCmp (comp : Cmp K) (f : D K → D K → Bool) : Prop where
  eq : ∀ i j, comp i j = f i.value j.value
  nan_left : ∀ v, f .nan v = true
  nan_right : ∀ v, f v .nan = true

theorem valCmp_le : ValCmp (Sample.le (K := K)) (fun a b => !(b.lt a)) :=
  ⟨fun _ _ => rfl, by simp, by simp⟩

theorem valCmp_ge : ValCmp (Sample.ge (K := K)) (fun a b => !(a.lt b)) :=
  ⟨fun _ _ => rfl, by simp, by simp⟩

theorem zip_choose (f : D K → D K → Bool) (hf : ValCmp comp f) (is js : List (Sample K)) :
    (List.zipWith (fun i j => if comp i j then i else j) is js).map tv =
      List.zipWith (fun p q => if f p.2 q.2 then p else q) (is.map tv) (js.map tv) := by
  rw [List.map_zipWith, List.zipWith_map]
  congr 1
  funext i j
  rw [hf.eq]
  simp only [tv]
  split_ifs <;> simp_all

theorem zip_mid_right (f : D K → D K → Bool) (hf : ∀ v, f v .nan = true) (mid : List (D K × D K)) :
    List.zipWith (fun p q : D K × D K => if f p.2 q.2 then p else q) mid
      ((mid.map Prod.fst).map fun t => (t, .nan)) = mid := by
  induction mid with
  | nil => rfl
  | cons p mid ih =>
    simp only [List.map_cons, List.zipWith_cons_cons, hf, if_true, ih]

theorem zip_mid_left (f : D K → D K → Bool) (hf : ∀ v, f .nan v = true) (mid : List (D K × D K)) :
    List.zipWith (fun p q : D K × D K => if f p.2 q.2 then p else q)
      ((mid.map Prod.fst).map fun t => (t, .nan)) mid = mid.map fun p => (p.1, .nan) := by
  induction mid with
  | nil => rfl
  | cons p mid ih =>
    simp only [List.map_cons, List.zipWith_cons_cons, hf, if_true, ih]

theorem incr_of_fst {l l' : List (D K × D K)} (h : l.map Prod.fst = l'.map Prod.fst) (hl : Incr l) :
    Incr l' := by
  induction l generalizing l' with
  | nil => cases l' with
    | nil => trivial
    | cons => simp at h
  | cons p l ih =>
    cases l' with
    | nil => trivial
    | cons p' l' =>
      simp only [List.map_cons, List.cons.injEq] at h
      cases l with
      | nil => cases l' with
        | nil => trivial
        | cons => simp at h
      | cons q l =>
        cases l' with
        | nil => trivial
        | cons q' l' =>
          refine ⟨?_, ih h.2 hl.2⟩
          simp only [List.map_cons, List.cons.injEq] at h
          rw [← h.2.1, ← h.1]; exact hl.1

/-- The constant as second operand: at the two ends the comparison decides, in between the first operand
is chosen. -/
theorem minmaxPair_const_right (hx : FinT x) (hc : c = .pinf ∨ c = .ninf)
    (e : x.samples.map tv = (.fin a, v) :: (mid ++ [(.fin z, w)])) (f : D K → D K → Bool)
    (hf : ValCmp comp f) :
    minmaxPair nd comp x ⟨build [(.fin a, c), (.fin z, c)]⟩ false =
      .ok ⟨build ((.fin a, if f v c then v else c) :: (mid ++ [(.fin z, if f w c then w else c)]))⟩ := by
  obtain ⟨et, hs, haz, -, -, -⟩ := sync_const_aux hx e
  rw [minmaxPair_finT nd comp hx (const_finT hc haz), sync_const_right hx hc e, Outcome.bind_ok,
    minmaxPairLoop_nan_start _ _ _ (.inr (constPts_derivative hc _ _ _)), ofSamples_ok_iff]
  have hz : (List.zipWith (fun i j => if comp i j then i else j) x.samples
      (build (constPts c (.fin a) (.fin z) (mid.map Prod.fst)))).map tv =
      (.fin a, if f v c then v else c) :: (mid ++ [(.fin z, if f w c then w else c)]) := by
    rw [zip_choose comp f hf, e, build_map_tv, constPts, List.zipWith_cons_cons,
      List.zipWith_append (by simp), zip_mid_right f hf.nan_right]
    simp only [List.zipWith_cons_cons, List.zipWith_nil_left]
    split_ifs <;> rfl
  refine ⟨?_, by rw [hz]⟩
  rw [hz]
  have hi : Incr (x.samples.map tv) := (ordered_iff _).1 hx.1.1
  rw [e] at hi
  exact incr_of_fst (by simp) hi

/-- The constant as first operand: in between the result is NaN. -/
theorem minmaxPair_const_left (hx : FinT x) (hc : c = .pinf ∨ c = .ninf)
    (e : x.samples.map tv = (.fin a, v) :: (mid ++ [(.fin z, w)])) (f : D K → D K → Bool)
    (hf : ValCmp comp f) :
    minmaxPair nd comp ⟨build [(.fin a, c), (.fin z, c)]⟩ x false =
      .ok ⟨build ((.fin a, if f c v then c else v) ::
        (mid.map (fun p => (p.1, .nan)) ++ [(.fin z, if f c w then c else w)]))⟩ := by
  obtain ⟨et, hs, haz, -, -, -⟩ := sync_const_aux hx e
  rw [minmaxPair_finT nd comp (const_finT hc haz) hx, sync_const_left hx hc e, Outcome.bind_ok,
    minmaxPairLoop_nan_start _ _ _ (.inl (constPts_derivative hc _ _ _)), ofSamples_ok_iff]
  have hz : (List.zipWith (fun i j => if comp i j then i else j)
      (build (constPts c (.fin a) (.fin z) (mid.map Prod.fst))) x.samples).map tv =
      (.fin a, if f c v then c else v) ::
        (mid.map (fun p => (p.1, .nan)) ++ [(.fin z, if f c w then c else w)]) := by
    rw [zip_choose comp f hf, e, build_map_tv, constPts, List.zipWith_cons_cons,
      List.zipWith_append (by simp), zip_mid_left f hf.nan_left]
    simp only [List.zipWith_cons_cons, List.zipWith_nil_left]
    split_ifs <;> rfl
  refine ⟨?_, by rw [hz]⟩
  rw [hz]
  have hi : Incr (x.samples.map tv) := (ordered_iff _).1 hx.1.1
  rw [e] at hi
  exact incr_of_fst (by simp) hi

end Verif
