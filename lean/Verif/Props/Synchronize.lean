import Verif.Proofs.SyncOk
import Verif.Props.SignalOps

/-!
# synchronize: C16 - C19
-/

set_option linter.unusedSectionVars false

namespace Verif
open Spec

/-! ## C16: when does synchronize succeed? -/

section any
variable {K : Type} [Field K] [LinearOrder K] [Arith K]

/-- Full statement of **C16**. -/
def C16_statement (K : Type) [Field K] [LinearOrder K] [Arith K] : Prop :=
  ∀ (x y : Signal K) (xs ys : List (K × K)), Represents x xs → Represents y ys →
    (∃ t, t ∈ dom xs ∧ t ∈ dom ys) → ∃ r, synchronize x y = .ok r

/-- **C16** is false: a signal on [0, 2] and one on [1, 2] cannot be synchronized (an exception), and in
the other order the behaviour is undefined. -/
theorem C16_refuted : ¬ C16_statement ℚ ∧
    synchronize (ofPts [(0, 0), (2, 2)]) (ofPts [(1, 0), (2, 2)] : Signal ℚ) = .throw .invalidArgument ∧
    synchronize (ofPts [(1, 0), (2, 2)]) (ofPts [(0, 0), (2, 2)] : Signal ℚ) = .ub .prevBegin := by
  have h1 : synchronize (ofPts [(0, 0), (2, 2)]) (ofPts [(1, 0), (2, 2)] : Signal ℚ) =
    .throw .invalidArgument := by decide +kernel
  refine ⟨?_, h1, by decide +kernel⟩
  intro h
  obtain ⟨r, hr⟩ := h (ofPts [(0, 0), (2, 2)]) (ofPts [(1, 0), (2, 2)]) _ _
    ((represents_iff _ _).2 ⟨by unfold Increasing; decide +kernel, rfl⟩)
    ((represents_iff _ _).2 ⟨by unfold Increasing; decide +kernel, rfl⟩)
    ⟨1, ⟨⟨(0, 0), by decide +kernel, by decide +kernel⟩, ⟨(2, 2), by decide +kernel, by decide +kernel⟩⟩,
      ⟨⟨(1, 0), by decide +kernel, by decide +kernel⟩, ⟨(2, 2), by decide +kernel, by decide +kernel⟩⟩⟩
  rw [h1] at hr; simp at hr

/-- What holds of **C16**, as an exact characterisation for all signals and any rounding: `synchronize`
succeeds iff both signals have a sample at the begin of the overlap. -/
theorem C16_synchronize_partial (x y : Signal K) (hx : StrictTimes x) (hy : StrictTimes y)
    (nx : x.samples ≠ []) (ny : y.samples ≠ []) :
    (∃ r, synchronize x y = .ok r) ↔
      (∃ a ∈ x.samples, a.time = D.max x.beginTime y.beginTime) ∧
      (∃ a ∈ y.samples, a.time = D.max x.beginTime y.beginTime) :=
  synchronize_ok_iff x y hx.sorted hy.sorted hx.1 hy.1 nx ny

/-- In particular it succeeds when both signals start at the same time. -/
theorem C16_synchronize_aligned_partial (x y : Signal K) (hx : StrictTimes x) (hy : StrictTimes y)
    (nx : x.samples ≠ []) (ny : y.samples ≠ []) (h : x.beginTime = y.beginTime) :
    ∃ r, synchronize x y = .ok r := by
  rw [C16_synchronize_partial x y hx hy nx ny, ← h]
  have hm : D.max x.beginTime x.beginTime = x.beginTime := by simp [D.max, D.lt_irrefl]
  rw [hm]
  constructor
  · cases hs : x.samples with
    | nil => exact absurd hs nx
    | cons a l => exact ⟨a, by simp, by simp [Signal.beginTime, hs]⟩
  · cases hs : y.samples with
    | nil => exact absurd hs ny
    | cons a l => exact ⟨a, by simp, by rw [h]; simp [Signal.beginTime, hs]⟩

/-- The failures: undefined behaviour if the domains do not overlap; an exception if it is `x` that has
no sample at the begin of the overlap; undefined behaviour if it is `y`. -/
theorem C16_synchronize_failures (x y : Signal K) (hx : StrictTimes x) (hy : StrictTimes y)
    (nx : x.samples ≠ []) (ny : y.samples ≠ []) :
    ((x.endTime.lt y.beginTime = true ∨ y.endTime.lt x.beginTime = true) →
      synchronize x y = .ub .derefEnd) ∧
    ((∃ a ∈ x.samples, y.beginTime.lt a.time = true) → x.beginTime.lt y.beginTime = true →
      (¬ ∃ a ∈ x.samples, a.time = y.beginTime) → synchronize x y = .throw .invalidArgument) ∧
    ((∃ a ∈ y.samples, x.beginTime.lt a.time = true) → y.beginTime.lt x.beginTime = true →
      (¬ ∃ a ∈ y.samples, a.time = x.beginTime) → synchronize x y = .ub .prevBegin) := by
  have lastLt : ∀ (z : Signal K), StrictTimes z → z.samples ≠ [] → ∀ t, z.endTime.lt t = true →
      ∀ a ∈ z.samples, a.time.lt t = true := by
    intro z hz hne t hlt a ha
    have hso := hz.sorted
    rcases List.eq_nil_or_concat z.samples with h | ⟨l, b, h⟩
    · exact absurd h hne
    · have he : z.endTime = b.time := by simp [Signal.endTime, h]
      rw [he] at hlt
      rw [h, List.concat_eq_append] at ha hso
      rcases List.mem_append.1 ha with ha | ha
      · exact D.lt_trans ((sortedT_append.1 hso).2.2 a ha b (by simp)) hlt
      · simp at ha; subst ha; exact hlt
  have begMem : ∀ (z : Signal K), z.samples ≠ [] → ∃ a l, z.samples = a :: l ∧ z.beginTime = a.time := by
    intro z hne
    cases hs : z.samples with
    | nil => exact absurd hs hne
    | cons a l => exact ⟨a, l, rfl, by simp [Signal.beginTime, hs]⟩
  obtain ⟨hn, hc⟩ := synchronize_cases x y hx.sorted hy.sorted hx.1 hy.1 nx ny
  refine ⟨?_, ?_, ?_⟩
  · intro h
    refine synchronize_disjoint x y hx.sorted hy.sorted hx.1 hy.1 hn ?_
    obtain ⟨xa, xl, ex, hxa⟩ := begMem x nx
    obtain ⟨ya, yl, ey, hya⟩ := begMem y ny
    have nxa : x.beginTime ≠ .nan := by rw [hxa]; exact hx.1 xa (by rw [ex]; simp)
    have nya : y.beginTime ≠ .nan := by rw [hya]; exact hy.1 ya (by rw [ey]; simp)
    rcases h with h | h
    · exact .inl fun a ha => D.lt_of_lt_of_le (lastLt x hx nx _ h a ha) (D.le_max_right nxa nya)
    · exact .inr fun a ha => D.lt_of_lt_of_le (lastLt y hy ny _ h a ha) (D.le_max_left nxa)
  · rintro ⟨a, ha, hlt⟩ hb hno
    have hm : D.max x.beginTime y.beginTime = y.beginTime := by simp [D.max, hb]
    rw [hm] at hc
    obtain ⟨ya, yl, ey, hya⟩ := begMem y ny
    rcases hc with (hd | hd) | ⟨x₁, i, is, y₁, j, js, ex, ey', hi, hj⟩ |
      ⟨x₁, p, i, is, j, js, ex, ey', hj, h1, h2⟩ | ⟨y₁, p, j, js, i, is, ey', ex, hi, h1, h2⟩
    · have := hd a ha; rw [D.lt_asymm this] at hlt; simp at hlt
    · have := hd ya (by rw [ey]; simp); rw [hya, D.lt_irrefl] at this; simp at this
    · exact absurd ⟨i, by rw [ex]; simp, hi⟩ hno
    · exact synchronize_x_earlier x y x₁ is js p i j ex ey' hx.sorted hy.sorted h1 h2
    · exact absurd ⟨i, by rw [ex]; simp, hi⟩ hno
  · rintro ⟨a, ha, hlt⟩ hb hno
    have hm : D.max x.beginTime y.beginTime = x.beginTime := by simp [D.max, D.lt_asymm hb]
    rw [hm] at hc
    obtain ⟨xa, xl, ex0, hxa⟩ := begMem x nx
    rcases hc with (hd | hd) | ⟨x₁, i, is, y₁, j, js, ex, ey', hi, hj⟩ |
      ⟨x₁, p, i, is, j, js, ex, ey', hj, h1, h2⟩ | ⟨y₁, p, j, js, i, is, ey', ex, hi, h1, h2⟩
    · have := hd xa (by rw [ex0]; simp); rw [hxa, D.lt_irrefl] at this; simp at this
    · have := hd a ha; rw [D.lt_asymm this] at hlt; simp at hlt
    · exact absurd ⟨j, by rw [ey']; simp, hj⟩ hno
    · exact absurd ⟨j, by rw [ey']; simp, hj⟩ hno
    · exact synchronize_y_earlier x y y₁ is js p i j ey' ex hx.sorted hy.sorted h1 h2

/-! ## C17: the timestamps -/

variable [IsStrictOrderedRing K]

/-- **C17**: when `synchronize` succeeds both results have the same timestamps, strictly increasing, and
these are precisely the timestamps of `x` or `y` in the overlap.  Any rounding. -/
theorem C17_common_times (x y x' y' : Signal K) (hx : StrictTimes x) (hy : StrictTimes y)
    (h : synchronize x y = .ok (x', y')) :
    x'.samples.map Sample.time = y'.samples.map Sample.time ∧
    (x'.samples.map Sample.time).Pairwise (fun a b => a.lt b = true) ∧
    ∀ t, t ∈ x'.samples.map Sample.time ↔
      (t ∈ x.samples.map Sample.time ∨ t ∈ y.samples.map Sample.time) ∧
      (D.max x.beginTime y.beginTime).le t = true ∧ t.le (D.min x.endTime y.endTime) = true := by
  obtain ⟨nx, ny⟩ := synchronize_ok_ne h
  obtain ⟨hn, e⟩ := synchronize_ok_eq hx.sorted hy.sorted hx.1 hy.1 h
  simp only [Prod.mk.injEq] at e
  obtain ⟨rfl, rfl⟩ := e
  have ht : ∀ (l : List (Sample K)) ts, (build (resample l ts)).map Sample.time = ts := by
    intro l ts
    rw [build_times, resample, List.map_map]
    exact List.map_id'' (fun t => rfl) ts
  refine ⟨by simp only [ht], ?_, ?_⟩
  · simp only [ht, syncTimes]
    refine sorted_mergeT _ _ ?_ ?_ ?_ ?_
    · intro a ha
      obtain ⟨s, hs, rfl⟩ := List.mem_map.1 (List.mem_of_mem_filter ha)
      exact hx.1 s hs
    · intro a ha
      obtain ⟨s, hs, rfl⟩ := List.mem_map.1 (List.mem_of_mem_filter ha)
      exact hy.1 s hs
    · exact List.Pairwise.sublist List.filter_sublist hx.2
    · exact List.Pairwise.sublist List.filter_sublist hy.2
  · intro t
    simp only [ht]
    rw [mem_syncTimes _ _ _ hx.1 hy.1 hx.sorted hy.sorted]
    have hend : ∀ (z : Signal K), StrictTimes z → z.samples ≠ [] →
        (z.endTime ≠ .nan ∧ ((∃ a ∈ z.samples, t.le a.time = true) ↔ t.le z.endTime = true)) := by
      intro z hz hne
      have hso := hz.sorted
      rcases List.eq_nil_or_concat z.samples with h | ⟨l, b, h⟩
      · exact absurd h hne
      rw [List.concat_eq_append] at h
      have he : z.endTime = b.time := by simp [Signal.endTime, h]
      rw [he]
      refine ⟨hz.1 b (by rw [h]; simp), ?_, fun hle => ⟨b, by rw [h]; simp, hle⟩⟩
      rintro ⟨a, ha, hle⟩
      rw [h] at ha hso
      rcases List.mem_append.1 ha with ha | ha
      · exact D.le_trans hle (D.le_of_lt ((sortedT_append.1 hso).2.2 a ha b (by simp)))
      · simp at ha; subst ha; exact hle
    obtain ⟨ne1, e1⟩ := hend x hx nx
    obtain ⟨ne2, e2⟩ := hend y hy ny
    have hmin : t.le (D.min x.endTime y.endTime) = true ↔
        t.le x.endTime = true ∧ t.le y.endTime = true := by
      unfold D.min
      split
      · rename_i hlt
        exact ⟨fun h => ⟨D.le_trans h (D.le_of_lt hlt), h⟩, fun h => h.2⟩
      · rename_i hlt
        rw [Bool.not_eq_true] at hlt
        have : x.endTime.le y.endTime = true := by rw [D.le_eq_not_lt ne1 ne2, hlt]; rfl
        exact ⟨fun h => ⟨h, D.le_trans h this⟩, fun h => h.1⟩
    rw [e1, e2, hmin]

end any

/-! ## C18, C19: the values -/

section exact
variable {K : Type} [Field K] [LinearOrder K] [IsStrictOrderedRing K] [Arith K] [ExactArith K]

/-- **C18**: when `synchronize` succeeds, both results are defined exactly on the overlap, and agree there
with the original signals at every time. -/
theorem C18_synchronize_preserves (x y x' y' : Signal K) (xs ys : List (K × K))
    (hx : Represents x xs) (hy : Represents y ys) (h : synchronize x y = .ok (x', y')) :
    ∃ xs' ys', Represents x' xs' ∧ Represents y' ys' ∧
      (∀ t, t ∈ dom xs' ↔ t ∈ dom xs ∧ t ∈ dom ys) ∧
      (∀ t, t ∈ dom ys' ↔ t ∈ dom xs ∧ t ∈ dom ys) ∧
      ∀ t, t ∈ dom xs ∧ t ∈ dom ys → eval xs' t = eval xs t ∧ eval ys' t = eval ys t := by
  obtain ⟨ix, rfl⟩ := (represents_iff x xs).1 hx
  obtain ⟨iy, rfl⟩ := (represents_iff y ys).1 hy
  obtain ⟨b, b1, b2, b3⟩ := sync_fin_ok ix iy h
  obtain ⟨ts, t1, t2, t3, t4, t5, t6, t7⟩ := sync_fin_iff ix iy b b1 b2 b3
  rw [h] at t3
  simp only [Outcome.ok.injEq, Prod.mk.injEq] at t3
  refine ⟨_, _, (represents_iff _ _).2 ⟨(increasing_sampleAt _ _).2 t1, t3.1⟩,
    (represents_iff _ _).2 ⟨(increasing_sampleAt _ _).2 t1, t3.2⟩, t5 _, t5 _,
    fun t ht => ⟨t6 t ht, t7 t ht⟩⟩

/-- **C19**: `synchronize(y, x)` is the swapped result. -/
theorem C19_synchronize_symmetric (x y x' y' : Signal K) (xs ys : List (K × K))
    (hx : Represents x xs) (hy : Represents y ys) (h : synchronize x y = .ok (x', y')) :
    synchronize y x = .ok (y', x') := by
  obtain ⟨ix, rfl⟩ := (represents_iff x xs).1 hx
  obtain ⟨iy, rfl⟩ := (represents_iff y ys).1 hy
  obtain ⟨b, b1, b2, b3⟩ := sync_fin_ok ix iy h
  obtain ⟨ts, t1, t2, t3, -⟩ := sync_fin_iff ix iy b b1 b2 b3
  obtain ⟨ts', u1, u2, u3, -⟩ := sync_fin_iff iy ix b b2 b1 (fun t ht => b3 t ht.symm)
  have : ts = ts' := by
    refine sorted_ext t1 u1 fun t => ?_
    rw [t2, u2, or_comm, and_comm (a := t ∈ dom xs)]
  subst this
  rw [h] at t3
  simp only [Outcome.ok.injEq, Prod.mk.injEq] at t3
  rw [u3, t3.1, t3.2]

/-- **C19**: synchronizing the results again changes nothing. -/
theorem C19_synchronize_idempotent (x y x' y' : Signal K) (xs ys : List (K × K))
    (hx : Represents x xs) (hy : Represents y ys) (h : synchronize x y = .ok (x', y')) :
    synchronize x' y' = .ok (x', y') := by
  obtain ⟨ix, rfl⟩ := (represents_iff x xs).1 hx
  obtain ⟨iy, rfl⟩ := (represents_iff y ys).1 hy
  obtain ⟨b, b1, b2, b3⟩ := sync_fin_ok ix iy h
  obtain ⟨ts, t1, t2, t3, t4, t5, t6, t7⟩ := sync_fin_iff ix iy b b1 b2 b3
  rw [h] at t3
  simp only [Outcome.ok.injEq, Prod.mk.injEq] at t3
  have jx := (increasing_sampleAt (eval xs) ts).2 t1
  have jy := (increasing_sampleAt (eval ys) ts).2 t1
  have fst_sampleAt : ∀ f : K → K, (sampleAt f ts).map Prod.fst = ts := by
    intro f; rw [sampleAt, List.map_map]; exact List.map_id'' (fun _ => rfl) ts
  obtain ⟨us, u1, u2, u3, -⟩ := sync_fin_iff jx jy b (by rw [fst_sampleAt]; exact t4)
    (by rw [fst_sampleAt]; exact t4) (fun t ht => b3 t ((t5 _ t).1 ht.1))
  have hus : us = ts := by
    refine sorted_ext u1 t1 fun t => ?_
    rw [u2, fst_sampleAt, fst_sampleAt, or_self]
    exact ⟨fun h => h.1, fun h => ⟨h, mem_dom_of_mem (by rw [fst_sampleAt]; exact h),
      mem_dom_of_mem (by rw [fst_sampleAt]; exact h)⟩⟩
  subst hus
  have fix : ∀ f : K → K, sampleAt (eval (sampleAt f us)) us = sampleAt f us := by
    intro f
    refine List.map_congr_left fun t ht => ?_
    have := eval_mem ((increasing_sampleAt f us).2 t1) (p := (t, f t))
      (List.mem_map_of_mem (f := fun t => (t, f t)) ht)
    rw [this]
  rw [t3.1, t3.2, u3, fix, fix]

-- two signals that can be synchronized: different sample times, same begin, different end
example : synchronize (ofPts [(0, 0), (2, 2)]) (ofPts [(0, 3), (1, 0), (3, 2)] : Signal ℚ) =
    .ok (ofPts [(0, 0), (1, 1), (2, 2)], ofPts [(0, 3), (1, 0), (2, 1)]) := by decide +kernel
-- different begins, but both have a sample at the later one
example : synchronize (ofPts [(-1, 1), (0, 0), (2, 2)]) (ofPts [(0, 3), (1, 0)] : Signal ℚ) =
    .ok (ofPts [(0, 0), (1, 1)], ofPts [(0, 3), (1, 0)]) := by decide +kernel
example : StrictTimes (ofPts [(0, 0), (2, 2)] : Signal ℚ) :=
  strictTimes_ofPts (by unfold Increasing; decide +kernel)

end exact
end Verif
