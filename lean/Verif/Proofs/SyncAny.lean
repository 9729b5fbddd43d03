import Verif.Proofs.SyncOk
import Verif.Proofs.SyncFin

/-! # A successful synchronisation of finite signals, for any rounding -/

set_option linter.unusedSectionVars false

namespace Verif
open Spec

variable {K : Type} [Field K] [LinearOrder K] [IsStrictOrderedRing K] [Arith K]

theorem map_fin_mem {M : List (D K)} {S : List K} (h : ∀ t ∈ M, t ∈ S.map D.fin) :
    ∃ ts : List K, M = ts.map D.fin := by
  induction M with
  | nil => exact ⟨[], rfl⟩
  | cons a M ih =>
    obtain ⟨ts, e⟩ := ih (fun t ht => h t (by simp [ht]))
    obtain ⟨b, _, rfl⟩ := List.mem_map.1 (h a (by simp))
    exact ⟨b :: ts, by simp [e]⟩

/-- The common timestamps, and the signals resampled there. -/
theorem synchronize_any {xs ys : List (K × K)} (hx : Increasing xs) (hy : Increasing ys) {r}
    (h : synchronize (ofPts xs) (ofPts ys) = .ok r) :
    ∃ (b : K) (ts : List K), b ∈ xs.map Prod.fst ∧ b ∈ ys.map Prod.fst ∧
      (∀ t, t ∈ dom xs ∧ t ∈ dom ys → b ≤ t) ∧ ts.Pairwise (· < ·) ∧
      (∀ t, t ∈ ts ↔ (t ∈ xs.map Prod.fst ∨ t ∈ ys.map Prod.fst) ∧ t ∈ dom xs ∧ t ∈ dom ys) ∧
      r = (⟨build (resample (ofPts xs).samples (ts.map D.fin))⟩,
        ⟨build (resample (ofPts ys).samples (ts.map D.fin))⟩) := by
  have sx := ofPts_sortedT hx
  have sy := ofPts_sortedT hy
  have hne := synchronize_ok_ne h
  obtain ⟨⟨a, ha, ea⟩, ⟨c, hc, ec⟩⟩ := (synchronize_ok_iff _ _ sx sy
    (ofPts_noNaNT xs) (ofPts_noNaNT ys) hne.1 hne.2).1 ⟨r, h⟩
  obtain ⟨-, hr⟩ := synchronize_ok_eq sx sy (ofPts_noNaNT xs) (ofPts_noNaNT ys) h
  obtain ⟨b, hb, hbx, hby, hbm⟩ : ∃ b : K, D.max (ofPts xs).beginTime (ofPts ys).beginTime = .fin b ∧
      b ∈ xs.map Prod.fst ∧ b ∈ ys.map Prod.fst ∧ ∀ t, t ∈ dom xs ∧ t ∈ dom ys → b ≤ t := by
    cases xs with
    | nil => simp [ofPts] at hne
    | cons p xs =>
      cases ys with
      | nil => simp [ofPts] at hne
      | cons q ys =>
        rw [ofPts_beginTime, ofPts_beginTime, D.max_fin] at ea ec
        refine ⟨max p.1 q.1, by rw [ofPts_beginTime, ofPts_beginTime, D.max_fin], ?_, ?_, ?_⟩
        · have : a.time ∈ (ofPts (p :: xs)).samples.map Sample.time := List.mem_map_of_mem ha
          rw [ofPts_times, ea] at this
          obtain ⟨u, hu, hu'⟩ := List.mem_map.1 this
          simp only [D.fin.injEq] at hu'
          exact List.mem_map.2 ⟨u, hu, hu'⟩
        · have : c.time ∈ (ofPts (q :: ys)).samples.map Sample.time := List.mem_map_of_mem hc
          rw [ofPts_times, ec] at this
          obtain ⟨u, hu, hu'⟩ := List.mem_map.1 this
          simp only [D.fin.injEq] at hu'
          exact List.mem_map.2 ⟨u, hu, hu'⟩
        · rintro t ⟨h1, h2⟩
          exact max_le ((dom_cons hx).1 h1).1 ((dom_cons hy).1 h2).1
  have hbd : b ∈ dom xs ∧ b ∈ dom ys := by
    obtain ⟨p, hp, rfl⟩ := List.mem_map.1 hbx
    obtain ⟨q, hq, e⟩ := List.mem_map.1 hby
    exact ⟨⟨⟨p, hp, le_rfl⟩, p, hp, le_rfl⟩, ⟨q, hq, e.le⟩, q, hq, e.ge⟩
  rw [hb] at hr
  have hmem := mem_syncTimes (.fin b) _ _ (ofPts_noNaNT xs) (ofPts_noNaNT ys) sx sy
  have hfin : ∀ t ∈ syncTimes (.fin b) (ofPts xs).samples (ofPts ys).samples,
      t ∈ ((xs ++ ys).map Prod.fst).map D.fin := by
    intro t ht
    have := ((hmem t).1 ht).1
    rw [ofPts_times, ofPts_times] at this
    simpa [Function.comp_def, or_assoc] using this
  obtain ⟨ts, hts⟩ := map_fin_mem hfin
  have hdomb : ∀ (pts : List (K × K)) (a : K), a ∈ dom pts → ∀ t, a ≤ t →
      (∃ s ∈ (ofPts pts).samples, (D.fin t).le s.time = true) → t ∈ dom pts := by
    intro pts a ha t hat ⟨s, hs, hs'⟩
    refine ⟨?_, ?_⟩
    · obtain ⟨⟨c, hc, hc'⟩, _⟩ := ha; exact ⟨c, hc, hc'.trans hat⟩
    · have : s.time ∈ (ofPts pts).samples.map Sample.time := List.mem_map.2 ⟨s, hs, rfl⟩
      rw [ofPts_times] at this
      obtain ⟨c, hc, e⟩ := List.mem_map.1 this
      rw [← e] at hs'
      exact ⟨c, hc, by simpa using hs'⟩
  have hdomb' : ∀ (pts : List (K × K)) (t : K), t ∈ dom pts →
      (∃ s ∈ (ofPts pts).samples, (D.fin t).le s.time = true) := by
    rintro pts t ⟨_, c, hc, hc'⟩
    have : (.fin c.1 : D K) ∈ (ofPts pts).samples.map Sample.time := by
      rw [ofPts_times]; exact List.mem_map.2 ⟨c, hc, rfl⟩
    obtain ⟨s, hs, e⟩ := List.mem_map.1 this
    exact ⟨s, hs, by rw [e]; simpa using hc'⟩
  refine ⟨b, ts, hbx, hby, hbm, ?_, fun t => ?_, by rw [← hts]; exact hr⟩
  · have : SortedD (syncTimes (.fin b) (ofPts xs).samples (ofPts ys).samples) := by
      apply sorted_mergeT
      · intro a ha
        obtain ⟨a', h, rfl⟩ := List.mem_map.1 (List.mem_filter.1 ha).1; exact ofPts_noNaNT _ a' h
      · intro a ha
        obtain ⟨a', h, rfl⟩ := List.mem_map.1 (List.mem_filter.1 ha).1; exact ofPts_noNaNT _ a' h
      · exact List.Pairwise.filter _ sx
      · exact List.Pairwise.filter _ sy
    rw [hts, SortedD, List.pairwise_map] at this
    simpa using this
  · have h1 : t ∈ ts ↔ (.fin t : D K) ∈ ts.map D.fin := by simp
    rw [h1, ← hts, hmem, ofPts_times, ofPts_times]
    have e : ∀ pts : List (K × K), (.fin t : D K) ∈ pts.map (fun p => D.fin p.1) ↔
        t ∈ pts.map Prod.fst := by intro pts; simp
    rw [e, e, D.le_fin, decide_eq_true_iff]
    constructor
    · rintro ⟨h1, h2, h3, h4⟩
      exact ⟨h1, hdomb _ _ hbd.1 t h2 h3, hdomb _ _ hbd.2 t h2 h4⟩
    · rintro ⟨h1, h2, h3⟩
      exact ⟨h1, hbm t ⟨h2, h3⟩, hdomb' _ t h2, hdomb' _ t h3⟩

end Verif
