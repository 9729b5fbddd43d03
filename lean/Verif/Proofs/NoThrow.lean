import Verif.Proofs.SyncAcc

/-! # Conditions under which `compute_minmax_pair` does not throw in binary64 -/

set_option linter.unusedSectionVars false

namespace Verif
open Spec Classical
namespace B64

variable {ka kb kg kc : ℤ}

/-- The computed crossing is not after the segment if the lines are apart at its end. -/
theorem late_spec (B : Budget ka kb kg kc) (sd : Side ℚ) {t0 t1 s0 s1 p0 p1 V R : ℚ} (h : t0 < t1)
    (m0 : Fx (-ka) kb t0) (m1 : Fx (-ka) kb t1)
    (ns0 : Fx (-kg) kc s0) (ns1 : Fx (-kg) kc s1) (np0 : Fx (-kg) kc p0) (np1 : Fx (-kg) kc p1)
    (vs0 : |s0| ≤ V) (vs1 : |s1| ≤ V) (vp0 : |p0| ≤ V) (vp1 : |p1| ≤ V) (g0 : sd.r s0 p0)
    (g1 : sd.r p1 s1) (hR : |t0| * V ≤ R * (t1 - t0)) (hm : 1 / 2 ^ 53 * (27 * V + 20 * R) < |s1 - p1|) :
    D.lt (fq t1) ((smp t0 t1 s0 s1).timeIntersect (smp t0 t1 p0 p1)) = false := by
  obtain ⟨ds, dp, N, M, hti, c, hq⟩ := cross_core B h m0 m1 ns0 ns1 np0 np1 vs0 vs1 vp0 vp1 hR
  rw [hti]
  by_cases hM : M = 0
  · exfalso
    subst hM
    rcases sd.sign with hs | hs
    · rw [abs_of_nonpos (by linarith [(hs _ _).1 g1])] at hm
      exact absurd (c.flat' (by linarith [(hs _ _).1 g0]) le_rfl) (not_le.2 hm)
    · rw [abs_of_nonneg (by linarith [(hs _ _).1 g1])] at hm
      have := c.neg.flat' (by linarith [(hs _ _).1 g0]) (by simp)
      linarith
  · obtain ⟨q, f1, f2, f3⟩ := hq hM
    rw [f1]
    refine ltF (le_of_not_gt fun hgt => ?_)
    rcases sd.sign with hs | hs
    · rw [abs_of_nonpos (by linarith [(hs _ _).1 g1])] at hm
      exact absurd (c.after (by linarith [(hs _ _).1 g0]) hM f2 (by linarith)) (not_le.2 hm)
    · rw [abs_of_nonneg (by linarith [(hs _ _).1 g1])] at hm
      have := c.neg.after (by linarith [(hs _ _).1 g0]) (neg_ne_zero.2 hM) (by rwa [neg_div_neg_eq])
        (by linarith : t0 + (t1 - t0) ≤ q)
      linarith

/-- No crossing is late if the operands are apart at all timestamps but the first one. -/
theorem noLate (B : Budget ka kb kg kc) (sd : Side ℚ) {V H d : ℚ} (hd : 0 < d) : ∀ (xs ys : List (ℚ × ℚ)),
    TameFx ka kb kg kc V H d xs → TameFx ka kb kg kc V H d ys → xs.map Prod.fst = ys.map Prod.fst →
    (∀ p ∈ xs.tail, ∀ q ∈ ys.tail, p.1 = q.1 → bound V H d < |p.2 - q.2|) →
    NoLateCrossing (scomp sd) (build (xs.map lq)) (build (ys.map lq))
  | [], _, _, _, _, _ => by simp [NoLateCrossing]
  | [_], _, _, _, _, _ => by simp [NoLateCrossing]
  | _ :: _ :: _, [], _, _, ht, _ => by simp at ht
  | _ :: _ :: _, [_], _, _, ht, _ => by simp at ht
  | (t0, a0) :: (t1, a1) :: xs, (t0', b0) :: (t1', b1) :: ys, tx, ty, ht, hm => by
    simp only [List.map_cons, List.cons.injEq] at ht
    obtain ⟨rfl, rfl, ht⟩ := ht
    obtain ⟨cx, tx'⟩ := tameFx_cons tx
    obtain ⟨_, ty'⟩ := tameFx_cons ty
    simp only at cx
    have ih := noLate B sd hd ((t1, a1) :: xs) ((t1, b1) :: ys) tx' ty' (by simp [ht])
      (fun p hp q hq => hm p (by simp at hp ⊢; exact .inr hp) q (by simp at hq ⊢; exact .inr hq))
    obtain ⟨f0, ha0, hH, va0⟩ := tx.1 (t0, a0) (by simp)
    obtain ⟨f1, ha1, _, va1⟩ := tx.1 (t1, a1) (by simp)
    obtain ⟨_, hb0, _, vb0⟩ := ty.1 (t0, b0) (by simp)
    obtain ⟨_, hb1, _, vb1⟩ := ty.1 (t1, b1) (by simp)
    simp only at f0 ha0 hH va0 f1 ha1 va1 hb0 vb0 hb1 vb1
    have hlt : t0 < t1 := by linarith
    have V0 : 0 ≤ V := (abs_nonneg _).trans va0
    have H0 : 0 ≤ H := (abs_nonneg _).trans hH
    have hR : |t0| * V ≤ (V * (H / d)) * (t1 - t0) := by
      have e : (V * (H / d)) * d = H * V := by field_simp
      have h1 : |t0| * V ≤ H * V := mul_le_mul_of_nonneg_right hH V0
      have h2 : (V * (H / d)) * d ≤ (V * (H / d)) * (t1 - t0) :=
        mul_le_mul_of_nonneg_left (by linarith) (by positivity)
      linarith
    have R0 : 0 ≤ V * (H / d) := by positivity
    have hb : 1 / 2 ^ 53 * (27 * V + 20 * (V * (H / d))) ≤ bound V H d := by
      unfold bound; linarith
    have hm1 := hb.trans_lt (hm (t1, a1) (by simp) (t1, b1) (by simp) rfl)
    obtain ⟨dx, ex⟩ := build_cons (lq (t1, a1)) (xs.map lq)
    obtain ⟨dy, ey⟩ := build_cons (lq (t1, b1)) (ys.map lq)
    have ex' : build (((t1, a1) :: xs).map lq) = ⟨fq t1, fq a1, dx⟩ :: build (xs.map lq) := ex
    have ey' : build (((t1, b1) :: ys).map lq) = ⟨fq t1, fq b1, dy⟩ :: build (ys.map lq) := ey
    rw [build_smp, build_smp, ex', ey']
    rw [ex', ey'] at ih
    refine ⟨fun h1 h2 => ?_, fun h1 h2 => ?_, ih⟩
    · have g0 : sd.r a0 b0 := by
        by_contra hc
        exact absurd h1 (by rw [show scomp sd (smp t0 t1 a0 a1) (smp t0 t1 b0 b1) = false from compF sd hc]; simp)
      have g1 : sd.r b1 a1 := by
        by_contra hc
        exact absurd h2 (by rw [compT sd (not_not.1 fun hn => hc (sd.total hn))]; simp)
      exact late_spec B sd hlt f0 f1 ha0 ha1 hb0 hb1 va0 va1 vb0 vb1 g0 g1 hR hm1
    · have g0 : sd.r b0 a0 := by
        refine sd.total fun hc => ?_
        exact absurd h1 (by rw [show scomp sd (smp t0 t1 a0 a1) (smp t0 t1 b0 b1) = true from compT sd hc]; simp)
      have g1 : sd.r a1 b1 := by
        by_contra hc
        exact absurd h2 (by rw [compF sd hc]; simp)
      exact late_spec B sd hlt f0 f1 hb0 hb1 ha0 ha1 vb0 vb1 va0 va1 g0 g1 hR (by rwa [abs_sub_comm])

/-- The timestamps of the samples. -/
theorem times_lq {x : Signal B64} {xs : List (ℚ × ℚ)} (h : Represents (K := B64) x xs) :
    x.samples.map Sample.time = (xs.map Prod.fst).map fq := by
  obtain ⟨_, e⟩ := represents_lq.1 h
  have htv : x.samples.map tv = xs.map lq := by rw [e]; exact build_map_tv _
  have := congrArg (List.map Prod.fst) htv
  simpa [List.map_map, Function.comp_def, tv, lq] using this

theorem noNaN_lq {x : Signal B64} {xs : List (ℚ × ℚ)} (h : Represents (K := B64) x xs) : NoNaNT x.samples := by
  intro a ha e
  have : a.time ∈ x.samples.map Sample.time := List.mem_map_of_mem ha
  rw [times_lq h] at this
  obtain ⟨q, _, hq⟩ := List.mem_map.1 this
  rw [e] at hq; cases hq

/-- `compute_minmax_pair` on signals with the same timestamps. -/
theorem pair_ok (B : Budget ka kb kg kc) (sd : Side ℚ) (nd sy : Bool) {x y : Signal B64} {xs ys : List (ℚ × ℚ)}
    {V H d : ℚ} (hd : 0 < d) (rx : Represents (K := B64) x xs) (ry : Represents (K := B64) y ys)
    (ht : xs.map Prod.fst = ys.map Prod.fst) (tx : TameFx ka kb kg kc V H d xs)
    (ty : TameFx ka kb kg kc V H d ys) (hne : xs ≠ [])
    (hm : ∀ p ∈ xs.tail, ∀ q ∈ ys.tail, p.1 = q.1 → bound V H d < |p.2 - q.2|) :
    ∃ z, minmaxPair nd (scomp sd) x y sy = .ok z := by
  have hxy : x.samples.map Sample.time = y.samples.map Sample.time := by rw [times_lq rx, times_lq ry, ht]
  refine (minmaxPair_late nd (scomp sd) sy rx.1 ry.1 (noNaN_lq rx) hxy).1 ?_ ?_
  · have h := noLate B sd hd xs ys tx ty ht hm
    rw [(represents_lq.1 rx).2, (represents_lq.1 ry).2]
    exact h
  · intro h
    have := times_lq rx
    rw [h] at this
    exact hne (List.map_eq_nil_iff.1 (List.map_eq_nil_iff.1 this.symm))

/-- `synchronize` succeeds if the later one of the two begin times is a timestamp of both signals. -/
theorem synchronize_starts {x y : Signal B64} {xs ys : List (ℚ × ℚ)} (rx : Represents (K := B64) x xs)
    (ry : Represents (K := B64) y ys) {b : ℚ} (hbx : b ∈ xs.map Prod.fst) (hby : b ∈ ys.map Prod.fst)
    (hb : (∀ t ∈ xs.map Prod.fst, b ≤ t) ∨ ∀ t ∈ ys.map Prod.fst, b ≤ t) :
    ∃ r, synchronize x y = .ok r := by
  obtain ⟨ix, ex⟩ := represents_lq.1 rx
  obtain ⟨iy, ey⟩ := represents_lq.1 ry
  have ix' : Increasing (K := B64) xs := ix
  have iy' : Increasing (K := B64) ys := iy
  have sx : SortedT x.samples := by
    have : x = ofPts (K := B64) xs := ex
    rw [this]; exact ofPts_sortedT ix'
  have sy : SortedT y.samples := by
    have : y = ofPts (K := B64) ys := ey
    rw [this]; exact ofPts_sortedT iy'
  have mem : ∀ {s : Signal B64} {pts : List (ℚ × ℚ)}, Represents (K := B64) s pts → b ∈ pts.map Prod.fst →
      ∃ a ∈ s.samples, a.time = fq b := by
    intro s pts h hb
    have : fq b ∈ s.samples.map Sample.time := by rw [times_lq h]; exact List.mem_map_of_mem hb
    obtain ⟨a, ha, e⟩ := List.mem_map.1 this
    exact ⟨a, ha, e⟩
  have hmax : D.max x.beginTime y.beginTime = fq b := by
    cases xs with
    | nil => simp at hbx
    | cons p xs =>
    cases ys with
    | nil => simp at hby
    | cons q ys =>
    have bx : x.beginTime = fq p.1 := by
      obtain ⟨dx, e⟩ := build_cons (lq p) (xs.map lq)
      have e' : build ((p :: xs).map lq) = _ := e
      rw [ex, Signal.beginTime]
      simp only
      rw [e']; rfl
    have by' : y.beginTime = fq q.1 := by
      obtain ⟨dx, e⟩ := build_cons (lq q) (ys.map lq)
      have e' : build ((q :: ys).map lq) = _ := e
      rw [ey, Signal.beginTime]
      simp only
      rw [e']; rfl
    have e1 : D.max (fq p.1) (fq q.1) = fq (max p.1 q.1) := by
      have : ∀ a b : B64, D.max (.fin a) (.fin b) = (.fin (max a b) : D B64) := fun a b => D.max_fin a b
      exact this p.1 q.1
    have lx : p.1 ≤ b := by
      have hd := mem_dom_of_mem hbx
      exact ((dom_cons (K := ℚ) ix).1 hd).1
    have ly : q.1 ≤ b := by
      have hd := mem_dom_of_mem hby
      exact ((dom_cons (K := ℚ) iy).1 hd).1
    rw [bx, by', e1]
    congr 1
    refine le_antisymm (max_le lx ly) ?_
    rcases hb with h | h
    · exact (h p.1 (by simp)).trans (le_max_left _ _)
    · exact (h q.1 (by simp)).trans (le_max_right _ _)
  obtain ⟨a, ha, ea⟩ := mem rx hbx
  obtain ⟨c, hc, ec⟩ := mem ry hby
  refine (synchronize_ok_iff x y sx sy (noNaN_lq rx) (noNaN_lq ry) (List.ne_nil_of_mem ha) (List.ne_nil_of_mem hc)).2 ?_
  rw [hmax]
  exact ⟨⟨a, ha, ea⟩, c, hc, ec⟩

/-- The margin that is left after the interpolation. -/
theorem margin_left {u v u' v' V H d : ℚ} (V0 : 0 ≤ V) (H0 : 0 ≤ H) (hd : 0 < d)
    (h : 1 / 2 ^ 46 * V * (1 + H / d) < |u - v|) (h1 : |u' - u| ≤ 1 / 2 ^ 53 * (15 * V))
    (h2 : |v' - v| ≤ 1 / 2 ^ 53 * (15 * V)) : bound (101 / 100 * V) H d < |u' - v'| := by
  have h3 : |u - v| ≤ |u' - v'| + |u' - u| + |v' - v| := by
    have e : u - v = (u' - v') - (u' - u) + (v' - v) := by ring
    rw [e]
    refine (abs_add_le _ _).trans (add_le_add_left ?_ _)
    exact abs_sub _ _
  have hVH : 0 ≤ V * (H / d) := mul_nonneg V0 (by positivity)
  have e1 : bound (101 / 100 * V) H d = 101 / 100 * (1 / 2 ^ 47) * (V + V * (H / d)) := by unfold bound; ring
  have e2 : 1 / 2 ^ 46 * V * (1 + H / d) = 2 * (1 / 2 ^ 47) * (V + V * (H / d)) := by ring
  rw [e1]
  rw [e2] at h
  linarith

/-- `compute_minmax_pair` on any two signals. -/
theorem sync_ok (B : SyncBudget ka kb kg kc) (sd : Side ℚ) (nd : Bool) {x y : Signal B64} {xs ys : List (ℚ × ℚ)}
    {V H d b : ℚ} (hd : 0 < d) (rx : Represents (K := B64) x xs) (ry : Represents (K := B64) y ys)
    (tx : ∀ p ∈ xs, Fx (-ka) kb p.1 ∧ Fx (-kg) kc p.2 ∧ |p.1| ≤ H ∧ |p.2| ≤ V)
    (ty : ∀ p ∈ ys, Fx (-ka) kb p.1 ∧ Fx (-kg) kc p.2 ∧ |p.1| ≤ H ∧ |p.2| ≤ V)
    (hsep : ∀ s ∈ xs.map Prod.fst ++ ys.map Prod.fst, ∀ t ∈ xs.map Prod.fst ++ ys.map Prod.fst, s < t → s + d ≤ t)
    (hbx : b ∈ xs.map Prod.fst) (hby : b ∈ ys.map Prod.fst)
    (hb : (∀ t ∈ xs.map Prod.fst, b ≤ t) ∨ ∀ t ∈ ys.map Prod.fst, b ≤ t)
    (hm : ∀ t ∈ xs.map Prod.fst ++ ys.map Prod.fst, t ∈ dom xs → t ∈ dom ys → b < t →
      1 / 2 ^ 46 * V * (1 + H / d) < |eval xs t - eval ys t|) :
    ∃ z, minmaxPair nd (scomp sd) x y false = .ok z := by
  obtain ⟨r, hr⟩ := synchronize_starts rx ry hbx hby hb
  have hz : minmaxPair nd (scomp sd) x y false = minmaxPair nd (scomp sd) r.1 r.2 true := by
    unfold minmaxPair
    simp [hr]
  rw [hz]
  obtain ⟨ix, ex⟩ := represents_lq.1 rx
  obtain ⟨iy, ey⟩ := represents_lq.1 ry
  have ox : x = ofPts (K := B64) xs := ex
  have oy : y = ofPts (K := B64) ys := ey
  rw [ox, oy] at hr
  have ix' : Increasing (K := B64) xs := ix
  have iy' : Increasing (K := B64) ys := iy
  obtain ⟨b', ts, hbx', hby', hbm, hs, hmem, er⟩ := synchronize_any (K := B64) ix' iy' hr
  subst er
  have hbd : b ∈ dom xs ∧ b ∈ dom ys := ⟨mem_dom_of_mem hbx, mem_dom_of_mem hby⟩
  have hbt : b ∈ ts := (hmem b).2 ⟨.inl hbx, hbd⟩
  have hble : ∀ t ∈ ts, b ≤ t := by
    intro t ht
    obtain ⟨_, hx, hy⟩ := (hmem t).1 ht
    rcases hb with h | h
    · obtain ⟨⟨p, hp, hpt⟩, _⟩ := hx
      exact (h p.1 (List.mem_map_of_mem hp)).trans hpt
    · obtain ⟨⟨p, hp, hpt⟩, _⟩ := hy
      exact (h p.1 (List.mem_map_of_mem hp)).trans hpt
  have hmt : ∀ t ∈ ts, Fx (-ka) kb t ∧ |t| ≤ H := by
    intro t ht
    rcases ((hmem t).1 ht).1 with h | h
    · obtain ⟨p, hp, rfl⟩ := List.mem_map.1 h
      exact ⟨(tx p hp).1, (tx p hp).2.2.1⟩
    · obtain ⟨p, hp, rfl⟩ := List.mem_map.1 h
      exact ⟨(ty p hp).1, (ty p hp).2.2.1⟩
  have hall : ∀ t ∈ ts, t ∈ xs.map Prod.fst ++ ys.map Prod.fst := fun t ht => List.mem_append.2 ((hmem t).1 ht).1
  have hch : ts.IsChain fun s t => s + d ≤ t := by
    refine List.Pairwise.isChain ?_
    refine List.Pairwise.imp_of_mem (fun {s t} hs ht h => hsep s (hall s hs) t (hall t ht) h) hs
  obtain ⟨f, f1, f2, f3⟩ := resample_acc (V := V) (H := H) B ix (fun p hp => ⟨(tx p hp).1, (tx p hp).2.1, (tx p hp).2.2.2⟩)
    (fun t ht => ⟨((hmem t).1 ht).2.1, hmt t ht⟩) hch
  obtain ⟨g, g1, g2, g3⟩ := resample_acc (V := V) (H := H) B iy (fun p hp => ⟨(ty p hp).1, (ty p hp).2.1, (ty p hp).2.2.2⟩)
    (fun t ht => ⟨((hmem t).1 ht).2.2, hmt t ht⟩) hch
  have rf : Represents (K := B64) ⟨build (resample (ofPts (K := B64) xs).samples (ts.map D.fin))⟩ (sampleAt f ts) :=
    represents_lq.2 ⟨(increasing_sampleAt f ts).2 hs, congrArg Signal.mk f1⟩
  have rg : Represents (K := B64) ⟨build (resample (ofPts (K := B64) ys).samples (ts.map D.fin))⟩ (sampleAt g ts) :=
    represents_lq.2 ⟨(increasing_sampleAt g ts).2 hs, congrArg Signal.mk g1⟩
  have hne : sampleAt f ts ≠ [] := by
    intro h
    exact List.ne_nil_of_mem hbt (List.map_eq_nil_iff.1 h)
  obtain ⟨p0, hp0, _⟩ := List.mem_map.1 hbx
  have V0 : 0 ≤ V := (abs_nonneg _).trans (tx p0 hp0).2.2.2
  have H0 : 0 ≤ H := (abs_nonneg _).trans (tx p0 hp0).2.2.1
  refine pair_ok B.second sd nd true hd rf rg (same_fst f g ts) f3 g3 hne ?_
  intro p hp q hq hpq
  cases ts with
  | nil => exact absurd rfl hne
  | cons t0 ts =>
  have hp' : p ∈ ts.map fun t : ℚ => (t, f t) := hp
  have hq' : q ∈ ts.map fun t : ℚ => (t, g t) := hq
  obtain ⟨t, ht, rfl⟩ := List.mem_map.1 hp'
  obtain ⟨t', ht', rfl⟩ := List.mem_map.1 hq'
  simp only at hpq
  subst hpq
  have hlt : b < t := by
    have h1 : t0 < t := (List.pairwise_cons.1 hs).1 t ht
    have h2 : b ≤ t0 := hble t0 (by simp)
    exact h2.trans_lt h1
  have htm : t ∈ t0 :: ts := List.mem_cons_of_mem _ ht
  exact margin_left V0 H0 hd (hm t (hall t htm) ((hmem t).1 htm).2.1 ((hmem t).1 htm).2.2 hlt) (f2 t htm) (g2 t htm)

end B64
end Verif
