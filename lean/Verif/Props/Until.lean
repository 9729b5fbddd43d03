import Verif.Proofs.Until
import Verif.Props.Temporal

/-!
# Until: C32, C33
-/

set_option linter.unusedSectionVars false

namespace Verif
open Spec

variable {K : Type} [Field K] [LinearOrder K] [IsStrictOrderedRing K] [Arith K] [ExactArith K]

/-- The values of which the robustness of Until at time `t` is the supremum: `min(psi(s), m)` for a time
`s >= t` of the common domain, where `m` is the least value of `phi` on `[t, s]`. -/
def untilSet (xs ys : List (K × K)) (t : K) : Set K :=
  {w | ∃ s, s ∈ dom xs ∧ s ∈ dom ys ∧ t ≤ s ∧ ∃ m,
    IsLeast {v | ∃ u, t ≤ u ∧ u ≤ s ∧ v = eval xs u} m ∧ w = min (eval ys s) m}

/-- The statement of C32. -/
def UntilRight (K : Type) [Field K] [LinearOrder K] [Arith K] : Prop :=
  ∀ (phi psi : Expr K) (trace : Trace K) (x y z : Signal K) (xs ys zs : List (K × K)),
    computeRobustness false 0 phi trace false = .ok x → Represents x xs →
    computeRobustness false 0 psi trace false = .ok y → Represents y ys →
    computeRobustness false 0 (.Until phi psi) trace false = .ok z → Represents z zs →
    ∀ p ∈ zs, IsLUB (untilSet xs ys p.1) p.2

/-- **C32 is false.** `phi` is 1 and `psi` is -1 at the times 0 and 1: the computed robustness is 1, the
right one is -1. -/
theorem C32_refuted : ¬ UntilRight ℚ := by
  intro H
  have hx : Increasing [((0 : ℚ), (1 : ℚ)), (1, 1)] := by unfold Increasing; decide +kernel
  have hy : Increasing [((0 : ℚ), (-1 : ℚ)), (1, -1)] := by unfold Increasing; decide +kernel
  have h := H (.pred "x" .GE 0) (.pred "y" .GE 0)
    [("x", ofPts [(0, 1), (1, 1)]), ("y", ofPts [(0, -1), (1, -1)])]
    (ofPts [(0, 1), (1, 1)]) (ofPts [(0, -1), (1, -1)]) (ofPts [(0, 1), (1, 1)]) _ _ _
    (by decide +kernel) (represents_ofPts hx) (by decide +kernel) (represents_ofPts hy)
    (by decide +kernel) (represents_ofPts hx) (1, 1) (by simp)
  have hle : (1 : ℚ) ≤ -1 := by
    apply h.2
    rintro w ⟨s, -, -, -, m, -, rfl⟩
    refine (min_le_left _ _).trans ?_
    simp only [eval, line]
    split <;> norm_num
  norm_num at hle

theorem compute_until_ok {nd : Bool} {fuel : Nat} {phi psi : Expr K} {trace : Trace K} {sy : Bool}
    {x y : Signal K} (h1 : computeRobustness nd fuel phi trace sy = .ok x)
    (h2 : computeRobustness nd fuel psi trace sy = .ok y) (i : Interval K) :
    computeRobustness nd fuel (.untl phi psi i) trace sy = computeUntil nd x y := by
  unfold computeRobustness at h1 h2 ⊢
  simp only at h1 h2 ⊢
  rw [compute_untl, h1, Outcome.bind_ok, h2, Outcome.bind_ok]
  exact untilOp_eq _ _ _ _

/-- **C32, what holds (1).** At each sample the computed robustness is an upper bound of the values of
which the STL robustness is the supremum.  So a negative computed value at a sample time means that Until
is violated there.  (Missing: it is the least upper bound, which is false.) -/
theorem C32_upper_bound_partial (nd : Bool) (fuel : Nat) (phi psi : Expr K) (trace : Trace K) (sy : Bool)
    (x y z : Signal K) (xs ys : List (K × K))
    (h1 : computeRobustness nd fuel phi trace sy = .ok x) (hx : Represents x xs)
    (h2 : computeRobustness nd fuel psi trace sy = .ok y) (hy : Represents y ys) (i : Interval K)
    (h3 : computeRobustness nd fuel (.untl phi psi i) trace sy = .ok z) :
    ∃ zs, Represents z zs ∧ dom zs = dom xs ∩ dom ys ∧ (zs ≠ []) ∧
      ∀ p ∈ zs, ∀ w ∈ untilSet xs ys p.1, w ≤ p.2 := by
  rw [compute_until_ok h1 h2] at h3
  obtain ⟨ix, rfl⟩ := (represents_iff _ _).1 hx
  obtain ⟨iy, rfl⟩ := (represents_iff _ _).1 hy
  obtain ⟨b, hb1, hb2, hb3⟩ := computeUntil_ok_common ix iy h3
  obtain ⟨ts, t1, t2, t3, t4, t5, t6, t7⟩ := computeUntil_pts nd ix iy b hb1 hb2 hb3
  rw [t4] at h3
  simp only [Outcome.ok.injEq] at h3; subst h3
  have hfst : (untilPts (sample2 (eval xs) (eval ys) ts)).map Prod.fst = ts := by
    rw [untilPts_fst]; simp [sample2, Function.comp_def]
  have hi : Increasing (untilPts (sample2 (eval xs) (eval ys) ts)) := by
    unfold Increasing; rw [hfst]; exact t1
  refine ⟨_, represents_ofPts hi, ?_, ?_, ?_⟩
  · ext t
    rw [dom_of_fst (zs := sampleAt (eval xs) ts) (by rw [hfst]; simp [sampleAt, Function.comp_def])]
    exact t5 _ t
  · intro h
    rw [h] at hfst
    rw [← hfst] at t2
    simp at t2
  · rintro p hp w ⟨s, hs1, hs2, hts, m, hm, rfl⟩
    obtain ⟨l, t, r, rfl, rfl⟩ := mem_untilPts hp
    simp only at hts hm ⊢
    have htr : (t :: r).Pairwise (· < ·) := (List.pairwise_append.1 t1).2.1
    have hd : ∀ (f : K → K) u, t ≤ u → u ≤ s → u ∈ dom (sampleAt f (t :: r)) := by
      intro f u hu1 hu2
      have hsd := (t5 f s).2 ⟨hs1, hs2⟩
      rw [mem_dom_sampleAt] at hsd ⊢
      refine ⟨⟨t, by simp, hu1⟩, ?_⟩
      obtain ⟨a, ha, hsa⟩ := hsd.2
      rcases List.mem_append.1 ha with ha | ha
      · exact ⟨t, by simp, hu2.trans (hsa.trans ((List.pairwise_append.1 t1).2.2 a ha t (by simp)).le)⟩
      · exact ⟨a, ha, hu2.trans hsa⟩
    have hev : ∀ (f : K → K) u, t ≤ u → u ≤ s →
        eval (sampleAt f (t :: r)) u = eval (sampleAt f (l ++ t :: r)) u := by
      intro f u hu1 hu2
      have hinc := (increasing_sampleAt f _).2 t1
      simp only [sampleAt, List.map_append, List.map_cons] at hinc ⊢
      rw [eval_append_of_le _ (t, f t) _ hinc hu1]
    have hcom : ∀ u, t ≤ u → u ≤ s → u ∈ dom xs ∧ u ∈ dom ys := by
      intro u hu1 hu2
      rw [← t5 (eval xs) u, mem_dom_sampleAt]
      have := (t5 (eval xs) s).2 ⟨hs1, hs2⟩
      rw [mem_dom_sampleAt] at this
      obtain ⟨-, a, ha, hsa⟩ := this
      exact ⟨⟨t, by simp, hu1⟩, ⟨a, ha, hu2.trans hsa⟩⟩
    have := uVal_bound (eval xs) (eval ys) r t htr s (hd _ s hts le_rfl) m (by
      intro u hu1 hu2
      rw [hev _ u hu1 hu2, t6 u (hcom u hu1 hu2)]
      exact hm.2 ⟨u, hu1, hu2, rfl⟩)
    rwa [hev _ s hts le_rfl, t7 s (hcom s hts le_rfl)] at this

/-- **C32, what holds (2): the error is not small.**  If `psi` is negative at all times (so that Until is
violated at all times), every sample of the computed robustness is positive (Until is reported as
satisfied), whatever `phi` is. -/
theorem C32_violation_reported_as_satisfied_partial (nd : Bool) (fuel : Nat) (phi psi : Expr K)
    (trace : Trace K) (sy : Bool) (x y z : Signal K) (xs ys : List (K × K))
    (h1 : computeRobustness nd fuel phi trace sy = .ok x) (hx : Represents x xs)
    (h2 : computeRobustness nd fuel psi trace sy = .ok y) (hy : Represents y ys)
    (hneg : ∀ t ∈ dom ys, eval ys t < 0) (i : Interval K)
    (h3 : computeRobustness nd fuel (.untl phi psi i) trace sy = .ok z) :
    z.samples ≠ [] ∧ ∀ a ∈ z.samples, ∃ v : K, a.value = .fin v ∧ 0 < v := by
  rw [compute_until_ok h1 h2] at h3
  obtain ⟨ix, rfl⟩ := (represents_iff _ _).1 hx
  obtain ⟨iy, rfl⟩ := (represents_iff _ _).1 hy
  obtain ⟨b, hb1, hb2, hb3⟩ := computeUntil_ok_common ix iy h3
  obtain ⟨ts, t1, t2, t3, t4, t5, t6, t7⟩ := computeUntil_pts nd ix iy b hb1 hb2 hb3
  rw [t4] at h3
  simp only [Outcome.ok.injEq] at h3; subst h3
  have hfst : (untilPts (sample2 (eval xs) (eval ys) ts)).map Prod.fst = ts := by
    rw [untilPts_fst]; simp [sample2, Function.comp_def]
  constructor
  · intro h
    simp only [ofPts, build_eq_nil, List.map_eq_nil_iff] at h
    rw [h] at hfst
    rw [← hfst] at t2
    simp at t2
  · intro a ha
    have : tv a ∈ (ofPts (untilPts (sample2 (eval xs) (eval ys) ts))).samples.map tv :=
      List.mem_map_of_mem ha
    simp only [ofPts, build_map_tv] at this
    obtain ⟨p, hp, e⟩ := List.mem_map.1 this
    obtain ⟨l, t, r, rfl, rfl⟩ := mem_untilPts hp
    refine ⟨_, (congrArg Prod.snd e).symm, ?_⟩
    have hm := uVal_max_lt (c := 0) (sample2 (eval xs) (eval ys) r) (t, eval xs t, eval ys t) (by
      intro q hq
      have : ∃ u ∈ t :: r, q.2.2 = eval ys u := by
        simp only [sample2, List.mem_cons, List.mem_map] at hq
        rcases hq with rfl | ⟨u, hu, rfl⟩
        · exact ⟨t, by simp, rfl⟩
        · exact ⟨u, by simp [hu], rfl⟩
      obtain ⟨u, hu, e⟩ := this
      rw [e]
      exact hneg u ((t3 u).1 (List.mem_append_right _ hu)).2.2)
    have := (uVal_ge (t, eval xs t, eval ys t) (sample2 (eval xs) (eval ys) r)).2
    show (0 : K) < (uVal (t, eval xs t, eval ys t) (sample2 (eval xs) (eval ys) r)).1
    linarith

/-- What the code computes instead of Until, on a set `T` of sample times: `phi` weak until (`psi`, or from then
on never `psi`), i.e. `(phi U (psi or G not psi)) or G phi`. -/
def weakUntilSet (xs ys : List (K × K)) (T : Set K) (t : K) : Set K :=
  {w | (∃ s ∈ T, t ≤ s ∧ ∃ m, IsGreatest {v | ∃ u ∈ T, s ≤ u ∧ v = eval ys u} m ∧
      IsLeast {v | v = max (eval ys s) (-m) ∨ ∃ u ∈ T, t ≤ u ∧ u < s ∧ v = eval xs u} w) ∨
    IsLeast {v | ∃ u ∈ T, t ≤ u ∧ v = eval xs u} w}

/-- **C32, what the code computes:** at the samples (the sample times of both operands in the common domain)
the result is exactly the robustness of `(phi U (psi or G not psi)) or G phi` over the samples. -/
theorem C32_exact_partial (nd : Bool) (fuel : Nat) (phi psi : Expr K) (trace : Trace K) (sy : Bool)
    (x y z : Signal K) (xs ys : List (K × K))
    (h1 : computeRobustness nd fuel phi trace sy = .ok x) (hx : Represents x xs)
    (h2 : computeRobustness nd fuel psi trace sy = .ok y) (hy : Represents y ys) (i : Interval K)
    (h3 : computeRobustness nd fuel (.untl phi psi i) trace sy = .ok z) :
    ∃ zs, Represents z zs ∧
      (∀ t, t ∈ zs.map Prod.fst ↔ (t ∈ xs.map Prod.fst ∨ t ∈ ys.map Prod.fst) ∧ t ∈ dom xs ∧ t ∈ dom ys) ∧
      ∀ p ∈ zs, IsGreatest (weakUntilSet xs ys {t | t ∈ zs.map Prod.fst} p.1) p.2 := by
  rw [compute_until_ok h1 h2] at h3
  obtain ⟨ix, rfl⟩ := (represents_iff _ _).1 hx
  obtain ⟨iy, rfl⟩ := (represents_iff _ _).1 hy
  obtain ⟨b, hb1, hb2, hb3⟩ := computeUntil_ok_common ix iy h3
  obtain ⟨ts, t1, t2, t3, t4, t5, t6, t7⟩ := computeUntil_pts nd ix iy b hb1 hb2 hb3
  rw [t4] at h3
  simp only [Outcome.ok.injEq] at h3; subst h3
  have hfst : (untilPts (sample2 (eval xs) (eval ys) ts)).map Prod.fst = ts := by
    rw [untilPts_fst]; simp [sample2, Function.comp_def]
  have hi : Increasing (untilPts (sample2 (eval xs) (eval ys) ts)) := by
    unfold Increasing; rw [hfst]; exact t1
  refine ⟨_, represents_ofPts hi, by rw [hfst]; exact t3, ?_⟩
  intro p hp
  rw [hfst]
  obtain ⟨l, t, r, rfl, rfl⟩ := mem_untilPts hp
  simp only
  set f := eval xs
  set g := eval ys
  -- the samples from `s` on
  have after : ∀ l' s r', l ++ t :: r = l' ++ s :: r' → ∀ u, (u ∈ l ++ t :: r ∧ s ≤ u) ↔ u ∈ s :: r' := by
    intro l' s r' e u
    rw [e] at t1 ⊢
    have hp := List.pairwise_append.1 t1
    constructor
    · rintro ⟨hu, hsu⟩
      rcases List.mem_append.1 hu with hu | hu
      · exact absurd hsu (not_le.2 (hp.2.2 u hu s (by simp)))
      · exact hu
    · intro hu
      refine ⟨List.mem_append_right _ hu, ?_⟩
      rcases List.mem_cons.1 hu with rfl | hu
      · exact le_refl _
      · exact ((List.pairwise_cons.1 hp.2.1).1 u hu).le
  have filt : ∀ l' s r', l ++ t :: r = l' ++ s :: r' → (l ++ t :: r).filter (fun u => decide (s < u)) = r' := by
    intro l' s r' e
    rw [e] at t1 ⊢
    have hp := List.pairwise_append.1 t1
    rw [List.filter_append, List.filter_cons, List.filter_eq_nil_iff.2, List.filter_eq_self.2]
    · simp
    · intro u hu; simpa using (List.pairwise_cons.1 hp.2.1).1 u hu
    · intro u hu; simpa using (hp.2.2 u hu s (by simp)).le
  let M : K → K := fun s => (uVal (s, f s, g s) (sample2 f g ((l ++ t :: r).filter fun u => decide (s < u)))).2
  have hM : ∀ s ∈ t :: r, IsGreatest {v | ∃ u ∈ {t' | t' ∈ l ++ t :: r}, s ≤ u ∧ v = g u} (M s) := by
    intro s hs
    obtain ⟨l', r', e⟩ := List.append_of_mem hs
    have e' : l ++ t :: r = (l ++ l') ++ s :: r' := by rw [e]; simp
    have : {v | ∃ u ∈ {t' | t' ∈ l ++ t :: r}, s ≤ u ∧ v = g u} = {v | ∃ u ∈ s :: r', v = g u} := by
      ext v
      constructor
      · rintro ⟨u, hu, hsu, rfl⟩; exact ⟨u, (after _ _ _ e' u).1 ⟨hu, hsu⟩, rfl⟩
      · rintro ⟨u, hu, rfl⟩
        have := (after _ _ _ e' u).2 hu
        exact ⟨u, this.1, this.2, rfl⟩
    rw [this]
    simp only [M]
    rw [filt _ _ _ e']
    exact uVal_isGreatest f g r' s
  have hw := uVal_weak f g (fun s => max (g s) (-(M s))) r t (List.pairwise_append.1 t1).2.1 (by
    intro l' s r' e
    have e' : l ++ t :: r = (l ++ l') ++ s :: r' := by rw [e]; simp
    simp only [M]
    rw [filt _ _ _ e'])
  have hT : ∀ u, (u ∈ {t' | t' ∈ l ++ t :: r} ∧ t ≤ u) ↔ u ∈ t :: r := after l t r rfl
  have hS : weakUntilSet xs ys {t' | t' ∈ l ++ t :: r} t = weakSet f (fun s => max (g s) (-(M s))) (t :: r) := by
    have hset : ∀ s m, {v | v = max (g s) (-m) ∨ ∃ u ∈ {t' | t' ∈ l ++ t :: r}, t ≤ u ∧ u < s ∧ v = f u} =
        {v | v = max (g s) (-m) ∨ ∃ u ∈ t :: r, u < s ∧ v = f u} := by
      intro s m
      ext v
      refine or_congr Iff.rfl ⟨?_, ?_⟩
      · rintro ⟨u, hu, htu, h⟩; exact ⟨u, (hT u).1 ⟨hu, htu⟩, h⟩
      · rintro ⟨u, hu, h⟩; exact ⟨u, ((hT u).2 hu).1, ((hT u).2 hu).2, h⟩
    have hset2 : {v | ∃ u ∈ {t' | t' ∈ l ++ t :: r}, t ≤ u ∧ v = f u} = {v | ∃ u ∈ t :: r, v = f u} := by
      ext v
      constructor
      · rintro ⟨u, hu, htu, h⟩; exact ⟨u, (hT u).1 ⟨hu, htu⟩, h⟩
      · rintro ⟨u, hu, h⟩; exact ⟨u, ((hT u).2 hu).1, ((hT u).2 hu).2, h⟩
    ext w
    refine or_congr ⟨?_, ?_⟩ (by rw [hset2])
    · rintro ⟨s, hs, hts, m, hm, hw⟩
      have hs' := (hT s).1 ⟨hs, hts⟩
      have := hm.unique (hM s hs')
      subst this
      exact ⟨s, hs', by rw [← hset]; exact hw⟩
    · rintro ⟨s, hs, hw⟩
      exact ⟨s, ((hT s).2 hs).1, ((hT s).2 hs).2, M s, hM s hs, by rw [hset]; exact hw⟩
  rw [hS]
  exact hw

/-- **C32, the verdict that is computed:** the result is positive at a sample if and only if `phi` is positive at
the samples until `psi` is positive or is negative from then on, or `phi` is positive at all later samples. -/
theorem C32_verdict_partial (nd : Bool) (fuel : Nat) (phi psi : Expr K) (trace : Trace K) (sy : Bool)
    (x y z : Signal K) (xs ys : List (K × K))
    (h1 : computeRobustness nd fuel phi trace sy = .ok x) (hx : Represents x xs)
    (h2 : computeRobustness nd fuel psi trace sy = .ok y) (hy : Represents y ys) (i : Interval K)
    (h3 : computeRobustness nd fuel (.untl phi psi i) trace sy = .ok z) :
    ∃ zs, Represents z zs ∧ ∀ p ∈ zs, (0 < p.2 ↔
      (∃ s ∈ zs.map Prod.fst, p.1 ≤ s ∧ (0 < eval ys s ∨ ∀ u ∈ zs.map Prod.fst, s ≤ u → eval ys u < 0) ∧
        ∀ u ∈ zs.map Prod.fst, p.1 ≤ u → u < s → 0 < eval xs u) ∨
      ∀ u ∈ zs.map Prod.fst, p.1 ≤ u → 0 < eval xs u) := by
  obtain ⟨zs, hz, -, hw⟩ := C32_exact_partial nd fuel phi psi trace sy x y z xs ys h1 hx h2 hy i h3
  refine ⟨zs, hz, fun p hp => ?_⟩
  obtain ⟨hm, hub⟩ := hw p hp
  have hfin : ∀ (P : K → Prop) (h : K → K), {v | ∃ u ∈ {t | t ∈ zs.map Prod.fst}, P u ∧ v = h u}.Finite := by
    intro P h
    refine (List.finite_toSet ((zs.map Prod.fst).map h)).subset ?_
    rintro v ⟨u, hu, -, rfl⟩
    exact List.mem_map_of_mem hu
  constructor
  · intro hpos
    rcases hm with ⟨s, hs, hps, m, hm, hl⟩ | hl
    · refine .inl ⟨s, hs, hps, ?_, ?_⟩
      · have := hpos.trans_le (hl.2 (.inl rfl))
        rcases lt_max_iff.1 this with h | h
        · exact .inl h
        · exact .inr fun u hu hsu => (hm.2 ⟨u, hu, hsu, rfl⟩).trans_lt (by linarith)
      · intro u hu h1 h2
        exact hpos.trans_le (hl.2 (.inr ⟨u, hu, h1, h2, rfl⟩))
    · exact .inr fun u hu h1 => hpos.trans_le (hl.2 ⟨u, hu, h1, rfl⟩)
  · have hpT : p.1 ∈ zs.map Prod.fst := List.mem_map_of_mem hp
    rintro (⟨s, hs, hps, hy, hxu⟩ | hxu)
    · obtain ⟨m, hm⟩ : ∃ m, IsGreatest {v | ∃ u ∈ {t | t ∈ zs.map Prod.fst}, s ≤ u ∧ v = eval ys u} m := by
        obtain ⟨m, hm, h⟩ := (hfin (s ≤ ·) (eval ys)).exists_maximalFor id _ ⟨eval ys s, s, hs, le_refl s, rfl⟩
        exact ⟨m, hm, fun v hv => (le_total v m).elim id fun h' => h hv h'⟩
      obtain ⟨w, hl⟩ := exists_isLeast (S := {v | v = max (eval ys s) (-m) ∨
          ∃ u ∈ {t | t ∈ zs.map Prod.fst}, p.1 ≤ u ∧ u < s ∧ v = eval xs u}) (by
        refine ((hfin (fun u => p.1 ≤ u ∧ u < s) (eval xs)).insert (max (eval ys s) (-m))).subset ?_
        rintro v (rfl | ⟨u, hu, h1, h2, rfl⟩)
        · exact Set.mem_insert _ _
        · exact Set.mem_insert_of_mem _ ⟨u, hu, ⟨h1, h2⟩, rfl⟩) ⟨_, .inl rfl⟩
      have hw := hub (.inl ⟨s, hs, hps, m, hm, hl⟩)
      refine lt_of_lt_of_le ?_ hw
      rcases hl.1 with h | ⟨u, hu, h1, h2, h⟩
      · rw [h]
        rcases hy with hy | hy
        · exact lt_max_of_lt_left hy
        · obtain ⟨u, hu, hsu, e⟩ := hm.1
          have := hy u hu hsu
          exact lt_max_of_lt_right (by rw [e]; linarith)
      · rw [h]; exact hxu u hu h1 h2
    · obtain ⟨w, hl⟩ := exists_isLeast (hfin (p.1 ≤ ·) (eval xs)) ⟨eval xs p.1, p.1, hpT, le_refl _, rfl⟩
      refine lt_of_lt_of_le ?_ (hub (.inr hl))
      obtain ⟨u, hu, h1, h⟩ := hl.1
      rw [h]; exact hxu u hu h1

example : computeRobustness false 0 (.Until (.pred "x" .GE (.fin 1)) (.pred "y" .GE (.fin 4))) exTrace false =
    .ok (ofPts [(0, 1), (2, 2), (3, 2), (4, 2)]) := by decide +kernel

/-! ## C33: bounded Until -/

/-- The statement of C33. -/
def BoundedUntilNotImplemented (K : Type) [Field K] [LinearOrder K] [Arith K] : Prop :=
  ∀ (phi psi : Expr K) (trace : Trace K) (a b : K) (i : Interval K) (x y : Signal K),
    Interval.ofDouble (.fin a) (.fin b) = .ok i →
    computeRobustness false 0 phi trace false = .ok x →
    computeRobustness false 0 psi trace false = .ok y →
    computeRobustness false 0 (.UntilI phi psi i) trace false = .throw .notImplemented

/-- **C33 is false**: Until over [1, 2] returns a signal. -/
theorem C33_refuted : ¬ BoundedUntilNotImplemented ℚ := by
  intro H
  have := H (.pred "x" .GE 0) (.pred "y" .GE 0)
    [("x", ofPts [(0, 1), (1, 1)]), ("y", ofPts [(0, -1), (1, -1)])] 1 2 ⟨.dbl (.fin 1), .dbl (.fin 2)⟩
    (ofPts [(0, 1), (1, 1)]) (ofPts [(0, -1), (1, -1)])
    (by decide +kernel) (by decide +kernel) (by decide +kernel)
  rw [show computeRobustness false 0 (.UntilI (.pred "x" .GE 0) (.pred "y" .GE 0)
      ⟨.dbl (.fin 1), .dbl (.fin 2)⟩)
    ([("x", ofPts [(0, 1), (1, 1)]), ("y", ofPts [(0, -1), (1, -1)])] : Trace ℚ) false =
    .ok (ofPts [(0, 1), (1, 1)]) by decide +kernel] at this
  cases this

/-- **C33, what the code does:** every interval is ignored, the outcome is that of the unbounded Until;
for all formulas, traces and intervals.  (Missing: an error for bounded intervals, which is false.) -/
theorem C33_interval_ignored_partial (nd : Bool) (fuel : Nat) (phi psi : Expr K) (trace : Trace K)
    (sy : Bool) (i : Interval K) :
    computeRobustness nd fuel (.UntilI phi psi i) trace sy =
      computeRobustness nd fuel (.Until phi psi) trace sy := by
  unfold computeRobustness Expr.UntilI Expr.Until
  simp only [compute_untl, untilOp_eq]

end Verif
