import Verif.Proofs.Pwl

/-! # `synchronize` on finite signals in exact arithmetic -/

set_option linter.unusedSectionVars false

namespace Verif
open Spec

variable {K : Type} [Field K] [LinearOrder K] [IsStrictOrderedRing K]

section
variable [Arith K]

theorem build_times (l : List (D K × D K)) : (build l).map Sample.time = l.map Prod.fst := by
  conv_rhs => rw [← build_map_tv l, List.map_map]
  rfl

theorem build_values (l : List (D K × D K)) : (build l).map Sample.value = l.map Prod.snd := by
  conv_rhs => rw [← build_map_tv l, List.map_map]
  rfl

theorem ofPts_times (pts : List (K × K)) :
    (ofPts pts).samples.map Sample.time = pts.map fun p => .fin p.1 := by
  rw [ofPts, build_times, List.map_map]; rfl

theorem ofPts_values (pts : List (K × K)) :
    (ofPts pts).samples.map Sample.value = pts.map fun p => .fin p.2 := by
  rw [ofPts, build_values, List.map_map]; rfl

theorem ofPts_noNaNT (pts : List (K × K)) : NoNaNT (ofPts pts).samples := by
  intro a ha
  have : a.time ∈ (ofPts pts).samples.map Sample.time := List.mem_map.2 ⟨a, ha, rfl⟩
  rw [ofPts_times] at this
  obtain ⟨p, _, e⟩ := List.mem_map.1 this
  rw [← e]; simp

theorem ofPts_sortedT {pts : List (K × K)} (h : Increasing pts) : SortedT (ofPts pts).samples := by
  rw [SortedT, ofPts_times]
  simp only [Increasing] at h
  rw [List.pairwise_map] at h ⊢
  simpa using h

theorem ofPts_beginTime (p : K × K) (l : List (K × K)) : (ofPts (p :: l)).beginTime = .fin p.1 := by
  simp only [ofPts, List.map_cons, beginTime_build, lift]

theorem ofPts_endTime (p : K × K) (l : List (K × K)) : (ofPts (l ++ [p])).endTime = .fin p.1 := by
  simp only [ofPts, List.map_append, List.map_cons, List.map_nil, endTime_build, lift]

theorem ofPts_split {l r : List (K × K)} {p : K × K} :
    ∃ l' r' d, (ofPts (l ++ p :: r)).samples = l' ++ ⟨.fin p.1, .fin p.2, d⟩ :: r' := by
  have h := build_map_tv ((l ++ p :: r).map lift : List (D K × D K))
  conv_rhs at h => rw [List.map_append]
  rw [List.map_eq_append_iff] at h
  obtain ⟨l', r', e, e1, e2⟩ := h
  rw [List.map_cons, List.map_eq_cons_iff] at e2
  obtain ⟨a, r'', rfl, e3, e4⟩ := e2
  obtain ⟨t, v, d⟩ := a
  simp only [tv, lift, Prod.mk.injEq] at e3
  obtain ⟨rfl, rfl⟩ := e3
  exact ⟨l', r'', d, by rw [ofPts]; simpa using e⟩

theorem ofPts_append_samples (l : List (K × K)) :
    (ofPts l).samples.length = l.length := by simp [ofPts]

theorem mem_syncTimes (b : D K) (xs ys : List (Sample K)) (nx : NoNaNT xs) (ny : NoNaNT ys)
    (sx : SortedT xs) (sy : SortedT ys) (t : D K) :
    t ∈ syncTimes b xs ys ↔ (t ∈ xs.map Sample.time ∨ t ∈ ys.map Sample.time) ∧ b.le t = true ∧
      (∃ a ∈ xs, t.le a.time = true) ∧ ∃ a ∈ ys, t.le a.time = true := by
  rw [syncTimes, mem_mergeT]
  · constructor
    · rintro ⟨h1, ⟨a, ha, ha'⟩, c, hc, hc'⟩
      have hb : b.le t = true := by
        rcases h1 with h | h <;> simpa using (List.mem_filter.1 h).2
      obtain ⟨a', ha1, rfl⟩ := List.mem_map.1 (List.mem_filter.1 ha).1
      obtain ⟨c', hc1, rfl⟩ := List.mem_map.1 (List.mem_filter.1 hc).1
      exact ⟨h1.imp (fun h => (List.mem_filter.1 h).1) (fun h => (List.mem_filter.1 h).1), hb,
        ⟨a', ha1, ha'⟩, c', hc1, hc'⟩
    · rintro ⟨h1, hb, ⟨a, ha, ha'⟩, c, hc, hc'⟩
      refine ⟨h1.imp (fun h => List.mem_filter.2 ⟨h, hb⟩) (fun h => List.mem_filter.2 ⟨h, hb⟩),
        ⟨a.time, List.mem_filter.2 ⟨List.mem_map.2 ⟨a, ha, rfl⟩, D.le_trans hb ha'⟩, ha'⟩,
        ⟨c.time, List.mem_filter.2 ⟨List.mem_map.2 ⟨c, hc, rfl⟩, D.le_trans hb hc'⟩, hc'⟩⟩
  · intro a ha
    obtain ⟨a', h, rfl⟩ := List.mem_map.1 (List.mem_filter.1 ha).1; exact nx a' h
  · intro a ha
    obtain ⟨a', h, rfl⟩ := List.mem_map.1 (List.mem_filter.1 ha).1; exact ny a' h
  · exact List.Pairwise.filter _ sx
  · exact List.Pairwise.filter _ sy

end

section
variable [Arith K] [ExactArith K]

theorem build_lift_cons₂ {p q : K × K} {r} (h : p.1 < q.1) :
    build ((p :: q :: r).map lift) =
      ⟨.fin p.1, .fin p.2, .fin ((q.2 - p.2) / (q.1 - p.1))⟩ :: build ((q :: r).map lift) := by
  have : q.1 - p.1 ≠ 0 := sub_ne_zero.2 h.ne'
  simp [lift, D.div_fin _ _ this]

theorem interpolate_fin (t v d s : K) :
    (⟨.fin t, .fin v, .fin d⟩ : Sample K).interpolate (.fin s) = .fin (v + d * (s - t)) := by
  simp [Sample.interpolate]

theorem line_eq (p q : K × K) (t : K) :
    line p q t = p.2 + (q.2 - p.2) / (q.1 - p.1) * (t - p.1) := by
  simp only [line]; ring

theorem evalD_ofPts {pts : List (K × K)} (h : Increasing pts) {t : K} (ht : t ∈ dom pts) :
    evalD (ofPts pts).samples (.fin t) = .fin (eval pts t) := by
  induction pts with
  | nil => simp [dom] at ht
  | cons p l ih =>
    cases l with
    | nil =>
      have : t = p.1 := by
        obtain ⟨⟨a, ha, h1⟩, ⟨b, hb, h2⟩⟩ := ht
        simp at ha hb; subst ha; subst hb; exact le_antisymm h2 h1
      subst this
      simp [ofPts, evalD, lift, eval]
    | cons q r =>
      have hpq := (increasing_cons.1 h).1 q (by simp)
      have h' := (increasing_cons.1 h).2
      rw [ofPts, build_lift_cons₂ hpq]
      obtain ⟨d, e⟩ := build_cons (lift q) (r.map lift)
      have hd := (dom_cons h).1 ht
      rcases le_or_gt q.1 t with hle | hlt
      · rw [evalD_cons_of_le _ (List.map_cons ▸ e)]
        · rw [eval_cons_of_le h hle]
          apply ih h'
          obtain ⟨_, b, hb, h2⟩ := hd
          refine (dom_cons h').2 ⟨hle, ?_⟩
          simp only [List.mem_cons] at hb
          rcases hb with rfl | hb
          · exact absurd ((h2.trans_lt hpq).trans_le hle) (lt_irrefl _)
          · exact ⟨b, by simpa using hb, h2⟩
        · simp [lift, hle]
      · rw [List.map_cons, e]
        rw [eval, if_pos hlt.le]
        rcases hd.1.eq_or_lt with heq | hgt
        · subst heq
          rw [evalD, if_neg, if_pos] <;> simp [lift, hpq]
        · rw [evalD_between]
          · rw [interpolate_fin, line_eq]
          · simpa using hgt
          · simpa [lift] using hlt

theorem map_fin_of_mem {M : List (D K)} {S : List K} (h : ∀ t ∈ M, t ∈ S.map D.fin) :
    ∃ ts : List K, M = ts.map D.fin := by
  induction M with
  | nil => exact ⟨[], rfl⟩
  | cons a M ih =>
    obtain ⟨ts, e⟩ := ih (fun t ht => h t (by simp [ht]))
    obtain ⟨b, _, rfl⟩ := List.mem_map.1 (h a (by simp))
    exact ⟨b :: ts, by simp [e]⟩


theorem resample_ofPts {xs : List (K × K)} (h : Increasing xs) {ts : List K}
    (hd : ∀ t ∈ ts, t ∈ dom xs) :
    resample (ofPts xs).samples (ts.map D.fin) = (sampleAt (eval xs) ts).map lift := by
  simp only [resample, sampleAt, List.map_map, Function.comp_def, lift]
  apply List.map_congr_left
  intro t ht
  rw [evalD_ofPts h (hd t ht)]

/-- Finite signals that both have a sample at the common begin time. -/
theorem synchronize_fin {xs ys : List (K × K)} (hx : Increasing xs) (hy : Increasing ys)
    {b : K} (hbx : b ∈ xs.map Prod.fst) (hby : b ∈ ys.map Prod.fst)
    (hb : D.max (ofPts xs).beginTime (ofPts ys).beginTime = .fin b)
    (hbmx : ∀ t, t ∈ dom xs ∧ t ∈ dom ys → b ≤ t) (hbd : b ∈ dom xs ∧ b ∈ dom ys) :
    ∃ ts : List K, ts.Pairwise (· < ·) ∧
      (∀ t, t ∈ ts ↔ (t ∈ xs.map Prod.fst ∨ t ∈ ys.map Prod.fst) ∧ t ∈ dom xs ∧ t ∈ dom ys) ∧
      synchronize (ofPts xs) (ofPts ys) =
        .ok (ofPts (sampleAt (eval xs) ts), ofPts (sampleAt (eval ys) ts)) := by
  obtain ⟨p, hp, rfl⟩ := List.mem_map.1 hbx
  obtain ⟨q, hq, hqb⟩ := List.mem_map.1 hby
  obtain ⟨l, r, rfl⟩ := List.append_of_mem hp
  obtain ⟨l', r', rfl⟩ := List.append_of_mem hq
  obtain ⟨x₁, x₂, d, ex⟩ := ofPts_split (l := l) (r := r) (p := p)
  obtain ⟨y₁, y₂, d', ey⟩ := ofPts_split (l := l') (r := r') (p := q)
  have sx := ofPts_sortedT hx
  have sy := ofPts_sortedT hy
  have key := synchronize_split _ _ x₁ x₂ y₁ y₂ _ _ ex ey sx sy hb.symm (by rw [hb, ← hqb])
    (by rw [hb]; simp)
  rw [hb] at key
  have hmem := mem_syncTimes (.fin p.1) _ _ (ofPts_noNaNT (l ++ p :: r)) (ofPts_noNaNT (l' ++ q :: r'))
    sx sy
  have hfin : ∀ t ∈ syncTimes (.fin p.1) (ofPts (l ++ p :: r)).samples (ofPts (l' ++ q :: r')).samples,
      t ∈ (((l ++ p :: r) ++ (l' ++ q :: r')).map Prod.fst).map D.fin := by
    intro t ht
    have := ((hmem t).1 ht).1
    rw [ofPts_times, ofPts_times] at this
    simpa [Function.comp_def, or_assoc] using this
  obtain ⟨ts, hts⟩ := map_fin_of_mem hfin
  have hdomb : ∀ (pts : List (K × K)) (a : K), Increasing pts → a ∈ dom pts → ∀ t, a ≤ t →
      (∃ s ∈ (ofPts pts).samples, (D.fin t).le s.time = true) → t ∈ dom pts := by
    intro pts a _ ha t hat ⟨s, hs, hs'⟩
    refine ⟨?_, ?_⟩
    · obtain ⟨⟨c, hc, hc'⟩, _⟩ := ha; exact ⟨c, hc, hc'.trans hat⟩
    · have : s.time ∈ (ofPts pts).samples.map Sample.time := List.mem_map.2 ⟨s, hs, rfl⟩
      rw [ofPts_times] at this
      obtain ⟨c, hc, e⟩ := List.mem_map.1 this
      rw [← e] at hs'
      exact ⟨c, hc, by simpa using hs'⟩
  have hdomb' : ∀ (pts : List (K × K)) (t : K), t ∈ dom pts →
      (∃ s ∈ (ofPts pts).samples, (D.fin t).le s.time = true) := by
    rintro pts t ⟨_, c, hc, hc'⟩
    have : (.fin c.1 : D K) ∈ (ofPts pts).samples.map Sample.time := by
      rw [ofPts_times]; exact List.mem_map.2 ⟨c, hc, rfl⟩
    obtain ⟨s, hs, e⟩ := List.mem_map.1 this
    exact ⟨s, hs, by rw [e]; simpa using hc'⟩
  have hmem' : ∀ t, t ∈ ts ↔ (t ∈ (l ++ p :: r).map Prod.fst ∨ t ∈ (l' ++ q :: r').map Prod.fst) ∧
      t ∈ dom (l ++ p :: r) ∧ t ∈ dom (l' ++ q :: r') := by
    intro t
    have h1 : t ∈ ts ↔ (.fin t : D K) ∈ ts.map D.fin := by simp
    rw [h1, ← hts, hmem, ofPts_times, ofPts_times]
    have e : ∀ pts : List (K × K), (.fin t : D K) ∈ pts.map (fun p => D.fin p.1) ↔
        t ∈ pts.map Prod.fst := by intro pts; simp
    rw [e, e, D.le_fin, decide_eq_true_iff]
    constructor
    · rintro ⟨h1, h2, h3, h4⟩
      exact ⟨h1, hdomb _ _ hx hbd.1 t h2 h3, hdomb _ _ hy hbd.2 t h2 h4⟩
    · rintro ⟨h1, h2, h3⟩
      exact ⟨h1, hbmx t ⟨h2, h3⟩, hdomb' _ t h2, hdomb' _ t h3⟩
  refine ⟨ts, ?_, hmem', ?_⟩
  · have : SortedD (syncTimes (.fin p.1) (ofPts (l ++ p :: r)).samples
        (ofPts (l' ++ q :: r')).samples) := by
      apply sorted_mergeT
      · intro a ha
        obtain ⟨a', h, rfl⟩ := List.mem_map.1 (List.mem_filter.1 ha).1; exact ofPts_noNaNT _ a' h
      · intro a ha
        obtain ⟨a', h, rfl⟩ := List.mem_map.1 (List.mem_filter.1 ha).1; exact ofPts_noNaNT _ a' h
      · exact List.Pairwise.filter _ sx
      · exact List.Pairwise.filter _ sy
    rw [hts, SortedD, List.pairwise_map] at this
    simpa using this
  · rw [key, hts, resample_ofPts hx (fun t ht => ((hmem' t).1 ht).2.1),
      resample_ofPts hy (fun t ht => ((hmem' t).1 ht).2.2)]
    rfl

/-- Facts about the common timestamps. -/
theorem syncTimes_facts {xs ys : List (K × K)} (hx : Increasing xs) (hy : Increasing ys)
    {b : K} (hbx : b ∈ xs.map Prod.fst) (hbmx : ∀ t, t ∈ dom xs ∧ t ∈ dom ys → b ≤ t)
    (hbd : b ∈ dom xs ∧ b ∈ dom ys) {ts : List K} (hs : ts.Pairwise (· < ·))
    (hm : ∀ t, t ∈ ts ↔ (t ∈ xs.map Prod.fst ∨ t ∈ ys.map Prod.fst) ∧ t ∈ dom xs ∧ t ∈ dom ys)
    (f : K → K) :
    b ∈ ts ∧ (∀ t, t ∈ dom (sampleAt f ts) ↔ t ∈ dom xs ∧ t ∈ dom ys) ∧
    (∀ t, t ∈ dom xs ∧ t ∈ dom ys → eval (sampleAt (eval xs) ts) t = eval xs t) ∧
    (∀ t, t ∈ dom xs ∧ t ∈ dom ys → eval (sampleAt (eval ys) ts) t = eval ys t) := by
  have hbts : b ∈ ts := (hm b).2 ⟨.inl hbx, hbd⟩
  have hdom : ∀ t, t ∈ dom (sampleAt f ts) ↔ t ∈ dom xs ∧ t ∈ dom ys := by
    intro t
    rw [mem_dom_sampleAt]
    constructor
    · rintro ⟨⟨a, ha, hat⟩, ⟨c, hc, htc⟩⟩
      have ha' := (hm a).1 ha; have hc' := (hm c).1 hc
      obtain ⟨⟨p, hp, h1⟩, _⟩ := ha'.2.1
      obtain ⟨⟨q, hq, h2⟩, _⟩ := ha'.2.2
      obtain ⟨_, ⟨p', hp', h1'⟩⟩ := hc'.2.1
      obtain ⟨_, ⟨q', hq', h2'⟩⟩ := hc'.2.2
      exact ⟨⟨⟨p, hp, h1.trans hat⟩, ⟨p', hp', htc.trans h1'⟩⟩,
        ⟨⟨q, hq, h2.trans hat⟩, ⟨q', hq', htc.trans h2'⟩⟩⟩
    · rintro ⟨h1, h2⟩
      have hbt := hbmx t ⟨h1, h2⟩
      refine ⟨⟨b, hbts, hbt⟩, ?_⟩
      obtain ⟨_, ⟨p, hp, htp⟩⟩ := h1
      obtain ⟨_, ⟨q, hq, htq⟩⟩ := h2
      rcases le_total p.1 q.1 with h | h
      · refine ⟨p.1, (hm p.1).2 ⟨.inl (List.mem_map.2 ⟨p, hp, rfl⟩), ⟨⟨p, hp, le_rfl⟩, ⟨p, hp, le_rfl⟩⟩, ?_⟩, htp⟩
        obtain ⟨⟨c, hc, h3⟩, _⟩ := hbd.2
        exact ⟨⟨c, hc, h3.trans (hbt.trans htp)⟩, ⟨q, hq, h⟩⟩
      · refine ⟨q.1, (hm q.1).2 ⟨.inr (List.mem_map.2 ⟨q, hq, rfl⟩), ?_, ⟨⟨q, hq, le_rfl⟩, ⟨q, hq, le_rfl⟩⟩⟩, htq⟩
        obtain ⟨⟨c, hc, h3⟩, _⟩ := hbd.1
        exact ⟨⟨c, hc, h3.trans (hbt.trans htq)⟩, ⟨p, hp, h⟩⟩
  have hdom' : ∀ (g : K → K) t, t ∈ dom (sampleAt g ts) ↔ t ∈ dom xs ∧ t ∈ dom ys := by
    intro g t; rw [← hdom t, mem_dom_sampleAt, mem_dom_sampleAt]
  refine ⟨hbts, hdom, ?_, ?_⟩
  · intro t ht
    apply eval_sampleAt hx hs (fun a ha => ((hm a).1 ha).2.1)
    · intro p hp hpd
      exact (hm p.1).2 ⟨.inl (List.mem_map.2 ⟨p, hp, rfl⟩), (hdom' _ _).1 hpd⟩
    · exact (hdom' _ _).2 ht
  · intro t ht
    apply eval_sampleAt hy hs (fun a ha => ((hm a).1 ha).2.2)
    · intro p hp hpd
      exact (hm p.1).2 ⟨.inr (List.mem_map.2 ⟨p, hp, rfl⟩), (hdom' _ _).1 hpd⟩
    · exact (hdom' _ _).2 ht

end
end Verif
