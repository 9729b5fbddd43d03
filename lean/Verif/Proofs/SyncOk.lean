import Verif.Proofs.SyncFin

/-! # When `synchronize` succeeds, and what it returns on finite signals -/

set_option linter.unusedSectionVars false

namespace Verif
open Spec

section any
variable {K : Type} [Field K] [LinearOrder K] [Arith K]

theorem synchronize_nil_left (y : Signal K) : synchronize ⟨[]⟩ y = .ub .derefEnd := by
  simp [synchronize, lowerBound, isPartitioned, lowerBoundLoop, syncHead]

theorem synchronize_nil_right (x : Signal K) : ∀ r, synchronize x ⟨[]⟩ ≠ .ok r := by
  intro r h
  unfold synchronize at h
  simp only [Outcome.bind_eq_ok] at h
  obtain ⟨i, hi, xv, hx, j, hj, yv, hy, -⟩ := h
  simp [syncHead] at hy

theorem synchronize_ok_ne {x y : Signal K} {r} (h : synchronize x y = .ok r) :
    x.samples ≠ [] ∧ y.samples ≠ [] := by
  constructor
  · intro hx
    obtain ⟨x⟩ := x
    simp only at hx; subst hx
    rw [synchronize_nil_left] at h; simp at h
  · intro hy
    obtain ⟨y⟩ := y
    simp only at hy; subst hy
    exact synchronize_nil_right x r h

theorem synchronize_ok_iff (x y : Signal K) (sx : SortedT x.samples) (sy : SortedT y.samples)
    (nx : NoNaNT x.samples) (ny : NoNaNT y.samples) (hx : x.samples ≠ []) (hy : y.samples ≠ []) :
    (∃ r, synchronize x y = .ok r) ↔
      (∃ a ∈ x.samples, a.time = D.max x.beginTime y.beginTime) ∧
      (∃ a ∈ y.samples, a.time = D.max x.beginTime y.beginTime) := by
  obtain ⟨hn, hc⟩ := synchronize_cases x y sx sy nx ny hx hy
  rcases hc with hd | ⟨x₁, i, is, y₁, j, js, ex, ey, hi, hj⟩ |
    ⟨x₁, p, i, is, j, js, ex, ey, hj, h1, h2⟩ | ⟨y₁, p, j, js, i, is, ey, ex, hi, h1, h2⟩
  · rw [synchronize_disjoint x y sx sy nx ny hn hd]
    constructor
    · rintro ⟨r, hr⟩; simp at hr
    · rintro ⟨⟨a, ha, ea⟩, ⟨c, hc, ec⟩⟩
      rcases hd with hd | hd
      · have := hd a ha; rw [ea, D.lt_irrefl] at this; simp at this
      · have := hd c hc; rw [ec, D.lt_irrefl] at this; simp at this
  · constructor
    · intro _; exact ⟨⟨i, by rw [ex]; simp, hi⟩, ⟨j, by rw [ey]; simp, hj⟩⟩
    · intro _; exact ⟨_, synchronize_split x y x₁ is y₁ js i j ex ey sx sy hi hj hn⟩
  · rw [synchronize_x_earlier x y x₁ is js p i j ex ey sx sy h1 h2]
    constructor
    · rintro ⟨r, hr⟩; simp at hr
    · rintro ⟨⟨a, ha, ea⟩, -⟩
      exfalso
      rw [← hj] at ea
      have hnj : j.time ≠ .nan := ny j (by rw [ey]; simp)
      rw [ex] at ha sx
      obtain ⟨-, s2, s3⟩ := sortedT_append.1 sx
      have s4 := sortedT_cons.1 s2
      have s5 := sortedT_cons.1 s4.2
      rcases List.mem_append.1 ha with ha | ha
      · have := D.lt_trans (s3 a ha p (by simp)) h1
        rw [ea, D.lt_irrefl] at this; simp at this
      · rcases List.mem_cons.1 ha with rfl | ha
        · rw [ea, D.lt_irrefl] at h1; simp at h1
        · rcases List.mem_cons.1 ha with rfl | ha
          · rw [ea, D.lt_irrefl] at h2; simp at h2
          · have := D.lt_trans h2 (s5.1 a ha)
            rw [ea, D.lt_irrefl] at this; simp at this
  · rw [synchronize_y_earlier x y y₁ is js p i j ey ex sx sy h1 h2]
    constructor
    · rintro ⟨r, hr⟩; simp at hr
    · rintro ⟨-, ⟨a, ha, ea⟩⟩
      exfalso
      rw [← hi] at ea
      rw [ey] at ha sy
      obtain ⟨-, s2, s3⟩ := sortedT_append.1 sy
      have s4 := sortedT_cons.1 s2
      have s5 := sortedT_cons.1 s4.2
      rcases List.mem_append.1 ha with ha | ha
      · have := D.lt_trans (s3 a ha p (by simp)) h1
        rw [ea, D.lt_irrefl] at this; simp at this
      · rcases List.mem_cons.1 ha with rfl | ha
        · rw [ea, D.lt_irrefl] at h1; simp at h1
        · rcases List.mem_cons.1 ha with rfl | ha
          · rw [ea, D.lt_irrefl] at h2; simp at h2
          · have := D.lt_trans h2 (s5.1 a ha)
            rw [ea, D.lt_irrefl] at this; simp at this

/-- What a successful synchronisation returns, for any rounding. -/
theorem synchronize_ok_eq {x y : Signal K} (sx : SortedT x.samples) (sy : SortedT y.samples)
    (nx : NoNaNT x.samples) (ny : NoNaNT y.samples) {r} (h : synchronize x y = .ok r) :
    D.max x.beginTime y.beginTime ≠ .nan ∧
    r = (⟨build (resample x.samples (syncTimes (D.max x.beginTime y.beginTime) x.samples y.samples))⟩,
      ⟨build (resample y.samples (syncTimes (D.max x.beginTime y.beginTime) x.samples y.samples))⟩) := by
  obtain ⟨hx, hy⟩ := synchronize_ok_ne h
  obtain ⟨hn, hc⟩ := synchronize_cases x y sx sy nx ny hx hy
  refine ⟨hn, ?_⟩
  rcases hc with hd | ⟨x₁, i, is, y₁, j, js, ex, ey, hi, hj⟩ |
    ⟨x₁, p, i, is, j, js, ex, ey, hj, h1, h2⟩ | ⟨y₁, p, j, js, i, is, ey, ex, hi, h1, h2⟩
  · rw [synchronize_disjoint x y sx sy nx ny hn hd] at h; simp at h
  · rw [synchronize_split x y x₁ is y₁ js i j ex ey sx sy hi hj hn] at h
    simp only [Outcome.ok.injEq] at h; exact h.symm
  · rw [synchronize_x_earlier x y x₁ is js p i j ex ey sx sy h1 h2] at h; simp at h
  · rw [synchronize_y_earlier x y y₁ is js p i j ey ex sx sy h1 h2] at h; simp at h

end any

section exact
variable {K : Type} [Field K] [LinearOrder K] [IsStrictOrderedRing K] [Arith K] [ExactArith K]

theorem sorted_ext {l l' : List K} (h : l.Pairwise (· < ·)) (h' : l'.Pairwise (· < ·))
    (e : ∀ t, t ∈ l ↔ t ∈ l') : l = l' := by
  induction l generalizing l' with
  | nil =>
    cases l' with
    | nil => rfl
    | cons a l' => exact absurd ((e a).2 (by simp)) (by simp)
  | cons a l ih =>
    cases l' with
    | nil => exact absurd ((e a).1 (by simp)) (by simp)
    | cons b l' =>
      rw [List.pairwise_cons] at h h'
      have hab : a = b := by
        rcases List.mem_cons.1 ((e a).1 (by simp)) with h1 | h1
        · exact h1
        · rcases List.mem_cons.1 ((e b).2 (by simp)) with h2 | h2
          · exact h2.symm
          · exact absurd (h.1 b h2) (not_lt.2 (h'.1 a h1).le)
      subst hab
      congr 1
      refine ih h.2 h'.2 fun t => ?_
      have := e t
      simp only [List.mem_cons] at this
      constructor
      · intro ht
        rcases this.1 (.inr ht) with rfl | h3
        · exact absurd (h.1 t ht) (lt_irrefl t)
        · exact h3
      · intro ht
        rcases this.2 (.inr ht) with rfl | h3
        · exact absurd (h'.1 t ht) (lt_irrefl t)
        · exact h3

theorem mem_dom_head {p : K × K} {l : List (K × K)} : p.1 ∈ dom (p :: l) :=
  ⟨⟨p, by simp, le_refl _⟩, ⟨p, by simp, le_refl _⟩⟩

theorem mem_dom_of_mem {l : List (K × K)} {t : K} (h : t ∈ l.map Prod.fst) : t ∈ dom l := by
  obtain ⟨p, hp, rfl⟩ := List.mem_map.1 h
  exact ⟨⟨p, hp, le_refl _⟩, ⟨p, hp, le_refl _⟩⟩

/-- Everything about the success of `synchronize` on finite signals. -/
theorem sync_fin_iff {xs ys : List (K × K)} (hx : Increasing xs) (hy : Increasing ys)
    (b : K) (hbx : b ∈ xs.map Prod.fst) (hby : b ∈ ys.map Prod.fst)
    (hmx : ∀ t, t ∈ dom xs ∧ t ∈ dom ys → b ≤ t) :
    ∃ ts : List K, ts.Pairwise (· < ·) ∧
      (∀ t, t ∈ ts ↔ (t ∈ xs.map Prod.fst ∨ t ∈ ys.map Prod.fst) ∧ t ∈ dom xs ∧ t ∈ dom ys) ∧
      synchronize (ofPts xs) (ofPts ys) =
        .ok (ofPts (sampleAt (eval xs) ts), ofPts (sampleAt (eval ys) ts)) ∧
      b ∈ ts ∧ (∀ (f : K → K) t, t ∈ dom (sampleAt f ts) ↔ t ∈ dom xs ∧ t ∈ dom ys) ∧
      (∀ t, t ∈ dom xs ∧ t ∈ dom ys → eval (sampleAt (eval xs) ts) t = eval xs t) ∧
      (∀ t, t ∈ dom xs ∧ t ∈ dom ys → eval (sampleAt (eval ys) ts) t = eval ys t) := by
  have hbd : b ∈ dom xs ∧ b ∈ dom ys := ⟨mem_dom_of_mem hbx, mem_dom_of_mem hby⟩
  have hb : D.max (ofPts xs).beginTime (ofPts ys).beginTime = .fin b := by
    cases xs with
    | nil => simp at hbx
    | cons p xs =>
      cases ys with
      | nil => simp at hby
      | cons q ys =>
        rw [ofPts_beginTime, ofPts_beginTime, D.max_fin]
        congr 1
        have h1 : p.1 ≤ b := ((dom_cons hx).1 hbd.1).1
        have h2 : q.1 ≤ b := ((dom_cons hy).1 hbd.2).1
        apply le_antisymm (max_le h1 h2)
        apply hmx
        obtain ⟨-, u, hu, hu'⟩ := (dom_cons hx).1 hbd.1
        obtain ⟨-, v, hv, hv'⟩ := (dom_cons hy).1 hbd.2
        exact ⟨(dom_cons hx).2 ⟨le_max_left _ _, u, hu, (max_le h1 h2).trans hu'⟩,
          (dom_cons hy).2 ⟨le_max_right _ _, v, hv, (max_le h1 h2).trans hv'⟩⟩
  obtain ⟨ts, h1, h2, h3⟩ := synchronize_fin hx hy hbx hby hb hmx hbd
  have f := fun f => syncTimes_facts hx hy hbx hmx hbd h1 h2 f
  exact ⟨ts, h1, h2, h3, (f id).1, fun g => (f g).2.1, (f id).2.2.1, (f id).2.2.2⟩

/-- A successful synchronisation of finite signals: both have a sample at the begin of the overlap. -/
theorem sync_fin_ok {xs ys : List (K × K)} (hx : Increasing xs) (hy : Increasing ys) {r}
    (h : synchronize (ofPts xs) (ofPts ys) = .ok r) :
    ∃ b, b ∈ xs.map Prod.fst ∧ b ∈ ys.map Prod.fst ∧ (∀ t, t ∈ dom xs ∧ t ∈ dom ys → b ≤ t) := by
  have hne := synchronize_ok_ne h
  obtain ⟨⟨a, ha, ea⟩, ⟨c, hc, ec⟩⟩ := (synchronize_ok_iff _ _ (ofPts_sortedT hx) (ofPts_sortedT hy)
    (ofPts_noNaNT xs) (ofPts_noNaNT ys) hne.1 hne.2).1 ⟨r, h⟩
  cases xs with
  | nil => simp [ofPts] at hne
  | cons p xs =>
    cases ys with
    | nil => simp [ofPts] at hne
    | cons q ys =>
      rw [ofPts_beginTime, ofPts_beginTime, D.max_fin] at ea ec
      refine ⟨max p.1 q.1, ?_, ?_, ?_⟩
      · have : a.time ∈ (ofPts (p :: xs)).samples.map Sample.time := List.mem_map_of_mem ha
        rw [ofPts_times, ea] at this
        obtain ⟨u, hu, hu'⟩ := List.mem_map.1 this
        simp only [D.fin.injEq] at hu'
        exact List.mem_map.2 ⟨u, hu, hu'⟩
      · have : c.time ∈ (ofPts (q :: ys)).samples.map Sample.time := List.mem_map_of_mem hc
        rw [ofPts_times, ec] at this
        obtain ⟨u, hu, hu'⟩ := List.mem_map.1 this
        simp only [D.fin.injEq] at hu'
        exact List.mem_map.2 ⟨u, hu, hu'⟩
      · rintro t ⟨h1, h2⟩
        exact max_le ((dom_cons hx).1 h1).1 ((dom_cons hy).1 h2).1

end exact
end Verif
