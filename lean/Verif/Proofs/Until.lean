import Verif.Proofs.Temporal
import Mathlib.Data.Set.Finite.Basic
import Mathlib.Order.Preorder.Finite

/-! # The algorithm of Until -/

set_option linter.unusedSectionVars false

namespace Verif
open Spec

section any
variable {K : Type} [Field K] [LinearOrder K]

/-- One step of the loop, from the right: the new value and the new running maximum. -/
def uStep (p acc : D K × D K) : D K × D K :=
  (D.max (D.max p.2 (D.min p.1 acc.1)) (-(D.max acc.2 p.2)), D.max acc.2 p.2)

theorem untilLoop_tv (is : List (Sample K)) : ∀ (js : List (Sample K)) (v : D K × D K),
    is.length = js.length →
    (untilLoop v.1 v.2 is js).reverse.map tv =
      (suf uStep v ((List.zipWith (fun i j : Sample K => (i.time, (i.value, j.value))) is js).reverse)).map
        fun p => (p.1, p.2.1) := by
  induction is with
  | nil => intro js v h; cases js <;> simp [untilLoop, suf]
  | cons i is ih =>
    intro js v h
    cases js with
    | nil => simp at h
    | cons j js =>
      simp only [List.length_cons, Nat.add_right_cancel_iff] at h
      rw [untilLoop]
      simp only [List.zipWith_cons_cons, List.reverse_cons, List.map_append, suf_snoc]
      have := ih js (uStep (i.value, j.value) v) h
      rw [← this]
      rfl

end any

section fin
variable {K : Type} [Field K] [LinearOrder K] [IsStrictOrderedRing K]

/-- The value and the running maximum at the first of the points `p :: r` (time, left, right operand). -/
def uVal : K × K × K → List (K × K × K) → K × K
  | p, [] => (max (max p.2.2 p.2.1) (-p.2.2), p.2.2)
  | p, q :: r => (max (max p.2.2 (min p.2.1 (uVal q r).1)) (-(max (uVal q r).2 p.2.2)),
      max (uVal q r).2 p.2.2)

/-- The points of the result. -/
def untilPts : List (K × K × K) → List (K × K)
  | [] => []
  | p :: r => (p.1, (uVal p r).1) :: untilPts r

def lift3 (p : K × K × K) : D K × (D K × D K) := (.fin p.1, .fin p.2.1, .fin p.2.2)

theorem foldr_uStep (r : List (K × K × K)) : ∀ p : K × K × K,
    ((p :: r).map lift3).foldr (fun q w => uStep q.2 w) (.pinf, .ninf) =
      (.fin (uVal p r).1, .fin (uVal p r).2) := by
  induction r with
  | nil =>
    intro p
    simp only [List.map_cons, List.map_nil, List.foldr_cons, List.foldr_nil, uStep, lift3, uVal]
    have h1 : D.max (.ninf : D K) (.fin p.2.2) = .fin p.2.2 := rfl
    have h2 : D.min (.fin p.2.1 : D K) .pinf = .fin p.2.1 := rfl
    simp only [h1, h2, D.max_fin, D.neg_fin]
  | cons q r ih =>
    intro p
    have := ih q
    rw [List.map_cons, List.foldr_cons, this]
    simp only [uStep, lift3, uVal, D.max_fin, D.min_fin, D.neg_fin]

theorem suf_uStep : ∀ l : List (K × K × K),
    (suf uStep (.pinf, .ninf) (l.map lift3)).map (fun p => (p.1, p.2.1)) = (untilPts l).map lift := by
  intro l
  induction l with
  | nil => rfl
  | cons p r ih =>
    rw [List.map_cons, suf, ← List.map_cons (f := lift3), List.map_cons, ih, foldr_uStep, untilPts,
      List.map_cons]
    rfl

theorem untilPts_fst (l : List (K × K × K)) : (untilPts l).map Prod.fst = l.map Prod.fst := by
  induction l with
  | nil => rfl
  | cons p r ih => simp [untilPts, ih]

/-- Two functions sampled at the same times. -/
def sample2 (f g : K → K) (ts : List K) : List (K × K × K) := ts.map fun t => (t, f t, g t)

variable [Arith K]

theorem untilLoop_fin (f g : K → K) (ts : List K) (h : ts.Pairwise (· < ·)) :
    Signal.ofSamples (untilLoop .pinf .ninf (ofPts (sampleAt f ts)).samples.reverse
      (ofPts (sampleAt g ts)).samples.reverse).reverse = .ok (ofPts (untilPts (sample2 f g ts))) := by
  have hl : (ofPts (sampleAt f ts)).samples.reverse.length = (ofPts (sampleAt g ts)).samples.reverse.length := by
    simp [ofPts, sampleAt]
  have h1 := untilLoop_tv (ofPts (sampleAt f ts)).samples.reverse (ofPts (sampleAt g ts)).samples.reverse
    (.pinf, .ninf) hl
  have hz : List.zipWith (fun i j : Sample K => (i.time, (i.value, j.value)))
      (ofPts (sampleAt f ts)).samples.reverse (ofPts (sampleAt g ts)).samples.reverse =
      ((sample2 f g ts).map lift3).reverse := by
    have e : ∀ a b : List (Sample K),
        List.zipWith (fun i j : Sample K => (i.time, (i.value, j.value))) a b =
        List.zipWith (fun i j : D K × D K => (i.1, (i.2, j.2))) (a.map tv) (b.map tv) := by
      intro a b; simp [List.zipWith_map, tv]
    rw [e]
    simp only [List.map_reverse, ofPts, build_map_tv]
    rw [← List.reverse_zipWith (by simp [sampleAt])]
    congr 1
    simp [sampleAt, sample2, List.zipWith_map, lift, lift3]
  rw [hz, List.reverse_reverse, suf_uStep] at h1
  have hi : Increasing (untilPts (sample2 f g ts)) := by
    unfold Increasing; rw [untilPts_fst]
    simpa [sample2, Function.comp_def] using h
  rw [ofSamples_eq, h1, if_pos ((incr_lift _).2 hi)]
  rfl

variable [ExactArith K]

/-- The result of Until for operands with a common sample at the begin of the overlap. -/
theorem computeUntil_pts (nd : Bool) {xs ys : List (K × K)} (hx : Increasing xs) (hy : Increasing ys)
    (b : K) (hbx : b ∈ xs.map Prod.fst) (hby : b ∈ ys.map Prod.fst)
    (hmx : ∀ t, t ∈ dom xs ∧ t ∈ dom ys → b ≤ t) :
    ∃ ts : List K, ts.Pairwise (· < ·) ∧ b ∈ ts ∧
      (∀ t, t ∈ ts ↔ (t ∈ xs.map Prod.fst ∨ t ∈ ys.map Prod.fst) ∧ t ∈ dom xs ∧ t ∈ dom ys) ∧
      computeUntil nd (ofPts xs) (ofPts ys) = .ok (ofPts (untilPts (sample2 (eval xs) (eval ys) ts))) ∧
      (∀ (f : K → K) t, t ∈ dom (sampleAt f ts) ↔ t ∈ dom xs ∧ t ∈ dom ys) ∧
      (∀ t, t ∈ dom xs ∧ t ∈ dom ys → eval (sampleAt (eval xs) ts) t = eval xs t) ∧
      (∀ t, t ∈ dom xs ∧ t ∈ dom ys → eval (sampleAt (eval ys) ts) t = eval ys t) := by
  obtain ⟨ts, h1, h2, h3, h4, h5, h6, h7⟩ := sync_fin_iff hx hy b hbx hby hmx
  refine ⟨ts, h1, h4, h2, ?_, h5, h6, h7⟩
  rw [computeUntil_finT nd (finT_ofPts hx) (finT_ofPts hy), h3]
  exact untilLoop_fin _ _ _ h1

theorem untilOp_eq (r : RobustnessOp K) (x y : Signal K) (i : Interval K) :
    r.untilOp x y i = computeUntil r.ndebug x y := by
  unfold RobustnessOp.untilOp
  by_cases hv : i.hasValue = true
  · simp only [hv, Bool.not_true, Bool.false_eq_true, if_false]
    simp only [Interval.hasValue, Interval.isZeroToInf, Bool.and_eq_true] at hv
    obtain ⟨h1, h2⟩ := hv
    have ha : i.asDouble.1.eq 0 = true := by
      unfold Interval.asDouble
      cases hl : i.low with
      | ull n =>
        rw [hl] at h1
        simp only [Interval.numIsZero, beq_iff_eq] at h1
        simp [Interval.numAsDouble, h1, ExactArith.rnd_eq, D.zero_def]
      | dbl d => rw [hl] at h1; exact h1
    have hb : i.asDouble.2.isinf = true := h2
    simp [ha, hb]
  · simp [hv]

theorem computeUntil_ok_common {nd : Bool} {xs ys : List (K × K)} (hx : Increasing xs)
    (hy : Increasing ys) {z : Signal K} (h : computeUntil nd (ofPts xs) (ofPts ys) = .ok z) :
    ∃ b, b ∈ xs.map Prod.fst ∧ b ∈ ys.map Prod.fst ∧ (∀ t, t ∈ dom xs ∧ t ∈ dom ys → b ≤ t) := by
  rw [computeUntil_finT nd (finT_ofPts hx) (finT_ofPts hy)] at h
  simp only [Outcome.bind_eq_ok] at h
  obtain ⟨r, h1, -⟩ := h
  exact sync_fin_ok hx hy h1

end fin

section bound
variable {K : Type} [Field K] [LinearOrder K] [IsStrictOrderedRing K]

theorem uVal_ge (p : K × K × K) (r : List (K × K × K)) : p.2.2 ≤ (uVal p r).1 ∧
    -(uVal p r).2 ≤ (uVal p r).1 := by
  cases r with
  | nil => exact ⟨(le_max_left _ _).trans (le_max_left _ _), le_max_right _ _⟩
  | cons q r => exact ⟨(le_max_left _ _).trans (le_max_left _ _), le_max_right _ _⟩

theorem uVal_max_lt {c : K} : ∀ (r : List (K × K × K)) (p : K × K × K),
    (∀ q ∈ p :: r, q.2.2 < c) → (uVal p r).2 < c := by
  intro r
  induction r with
  | nil => intro p h; exact h p (by simp)
  | cons q r ih =>
    intro p h
    exact max_lt (ih q fun q' h' => h q' (List.mem_cons_of_mem _ h')) (h p (by simp))

/-- The computed value is an upper bound of the robustness of Until at the first sample. -/
theorem uVal_bound (f g : K → K) : ∀ (ts : List K) (t0 : K), (t0 :: ts).Pairwise (· < ·) →
    ∀ s ∈ dom (sampleAt g (t0 :: ts)), ∀ m,
      (∀ u, t0 ≤ u → u ≤ s → m ≤ eval (sampleAt f (t0 :: ts)) u) →
      min (eval (sampleAt g (t0 :: ts)) s) m ≤ (uVal (t0, f t0, g t0) (sample2 f g ts)).1 := by
  intro ts
  induction ts with
  | nil =>
    intro t0 _ s hs m hm
    exact (min_le_left _ _).trans (uVal_ge (t0, f t0, g t0) _).1
  | cons t1 ts ih =>
    intro t0 hp s hs m hm
    have h01 : t0 < t1 := (List.pairwise_cons.1 hp).1 t1 (by simp)
    have hp1 := (List.pairwise_cons.1 hp).2
    have hIf := (increasing_sampleAt f _).2 hp
    have hIg := (increasing_sampleAt g _).2 hp
    have hIg1 := (increasing_sampleAt g _).2 hp1
    have hs0 : t0 ≤ s := ((dom_cons hIg).1 hs).1
    have hm0 : m ≤ f t0 := by
      have := hm t0 le_rfl hs0
      rwa [show eval (sampleAt f (t0 :: t1 :: ts)) t0 = f t0 from
        eval_head (t0, f t0) (sampleAt f (t1 :: ts)) hIf] at this
    have hc : (uVal (t0, f t0, g t0) (sample2 f g (t1 :: ts))).1 =
        max (max (g t0) (min (f t0) (uVal (t1, f t1, g t1) (sample2 f g ts)).1))
          (-(max (uVal (t1, f t1, g t1) (sample2 f g ts)).2 (g t0))) := rfl
    rw [hc]
    have key : min (eval (sampleAt g (t0 :: t1 :: ts)) s) m ≤ g t0 ∨
        min (eval (sampleAt g (t0 :: t1 :: ts)) s) m ≤ (uVal (t1, f t1, g t1) (sample2 f g ts)).1 := by
      rcases le_total s t1 with h | h
      · have e : eval (sampleAt g (t0 :: t1 :: ts)) s = line (t0, g t0) (t1, g t1) s :=
          eval_seg [] (t0, g t0) (t1, g t1) (sampleAt g ts) hIg hs0 h
        rw [e]
        have hl := line_le_max (p := (t0, g t0)) (q := (t1, g t1)) h01 hs0 h
        rcases le_max_iff.1 hl with h' | h'
        · exact .inl ((min_le_left _ _).trans h')
        · exact .inr (((min_le_left _ _).trans h').trans (uVal_ge (t1, f t1, g t1) _).1)
      · right
        have e : eval (sampleAt g (t0 :: t1 :: ts)) s = eval (sampleAt g (t1 :: ts)) s :=
          eval_cons_of_le hIg h
        rw [e]
        have hsd : s ∈ dom (sampleAt g (t1 :: ts)) := by
          have hIg1' : Increasing ((t1, g t1) :: sampleAt g ts) := hIg1
          show s ∈ dom ((t1, g t1) :: sampleAt g ts)
          rw [dom_cons hIg1']
          refine ⟨h, ?_⟩
          obtain ⟨q, hq, h'⟩ := hs.2
          simp only [sampleAt, List.map_cons, List.mem_cons] at hq
          rcases hq with rfl | hq
          · exact ⟨(t1, g t1), by simp, h'.trans h01.le⟩
          · exact ⟨q, by simpa [sampleAt] using hq, h'⟩
        apply ih t1 hp1 s hsd m
        intro u hu1 hu2
        have := hm u (h01.le.trans hu1) hu2
        rwa [show eval (sampleAt f (t0 :: t1 :: ts)) u = eval (sampleAt f (t1 :: ts)) u from
          eval_cons_of_le hIf hu1] at this
    refine le_max_of_le_left ?_
    rcases key with h | h
    · exact le_max_of_le_left h
    · exact le_max_of_le_right (le_min ((min_le_right _ _).trans hm0) h)

/-- Decompose a sample of the result. -/
theorem mem_untilPts {f g : K → K} {ts : List K} {z : K × K} (h : z ∈ untilPts (sample2 f g ts)) :
    ∃ l t r, ts = l ++ t :: r ∧ z = (t, (uVal (t, f t, g t) (sample2 f g r)).1) := by
  induction ts with
  | nil => simp [sample2, untilPts] at h
  | cons t ts ih =>
    simp only [sample2, List.map_cons, untilPts, List.mem_cons] at h
    rcases h with rfl | h
    · exact ⟨[], t, ts, rfl, rfl⟩
    · obtain ⟨l, t', r, rfl, e⟩ := ih h
      exact ⟨t :: l, t', r, rfl, e⟩

/-! ### The computed value in closed form -/

theorem uVal_isGreatest (f g : K → K) : ∀ (r : List K) (t : K),
    IsGreatest {v | ∃ u ∈ t :: r, v = g u} (uVal (t, f t, g t) (sample2 f g r)).2 := by
  intro r
  induction r with
  | nil =>
    intro t
    refine ⟨⟨t, by simp, rfl⟩, ?_⟩
    rintro v ⟨u, hu, rfl⟩
    simp only [List.mem_singleton] at hu; subst hu; exact le_refl _
  | cons q r ih =>
    intro t
    have e : {v | ∃ u ∈ t :: q :: r, v = g u} = insert (g t) {v | ∃ u ∈ q :: r, v = g u} := by
      ext v
      simp only [List.mem_cons (a := _) (b := t), exists_eq_or_imp, Set.mem_insert_iff, Set.mem_ofPred_eq]
    rw [e]
    have := (ih q).insert (g t)
    rw [max_comm] at this
    exact this

/-- The candidates at the first of the samples `L`: hold `f` until `c`, or hold `f` to the end. -/
def weakSet (f c : K → K) (L : List K) : Set K :=
  {w | (∃ s ∈ L, IsLeast {v | v = c s ∨ ∃ u ∈ L, u < s ∧ v = f u} w) ∨ IsLeast {v | ∃ u ∈ L, v = f u} w}

theorem exists_isLeast {S : Set K} (hf : S.Finite) (hne : S.Nonempty) : ∃ m, IsLeast S m := by
  obtain ⟨m, hm, h⟩ := hf.exists_minimalFor id S hne
  refine ⟨m, hm, fun v hv => ?_⟩
  rcases le_total m v with h1 | h1
  · exact h1
  · exact h hv h1

theorem uVal_weak (f g c : K → K) : ∀ (r : List K) (t : K), (t :: r).Pairwise (· < ·) →
    (∀ l s r', t :: r = l ++ s :: r' → c s = max (g s) (-(uVal (s, f s, g s) (sample2 f g r')).2)) →
    IsGreatest (weakSet f c (t :: r)) (uVal (t, f t, g t) (sample2 f g r)).1 := by
  intro r
  induction r with
  | nil =>
    intro t _ hc
    have hct := hc [] t [] rfl
    have e : (uVal (t, f t, g t) (sample2 f g [])).1 = max (c t) (f t) := by
      rw [hct]; simp only [sample2, List.map_nil, uVal]
      rw [max_right_comm]
    rw [e]
    have h1 : {v | v = c t ∨ ∃ u ∈ [t], u < t ∧ v = f u} = {c t} := by ext v; simp
    have h2 : {v | ∃ u ∈ [t], v = f u} = {f t} := by ext v; simp
    constructor
    · rcases le_total (f t) (c t) with h | h
      · rw [max_eq_left h]
        exact .inl ⟨t, by simp, by rw [h1]; exact isLeast_singleton⟩
      · rw [max_eq_right h]
        exact .inr (by rw [h2]; exact isLeast_singleton)
    · rintro w (⟨s, hs, hw⟩ | hw)
      · simp only [List.mem_singleton] at hs; subst hs
        rw [h1] at hw
        rw [Set.mem_singleton_iff.1 hw.1]; exact le_max_left _ _
      · rw [h2] at hw
        rw [Set.mem_singleton_iff.1 hw.1]; exact le_max_right _ _
  | cons q r ih =>
    intro t hp hc
    have hct := hc [] t (q :: r) rfl
    have hlt := (List.pairwise_cons.1 hp).1
    obtain ⟨ih1, ih2⟩ := ih q (List.pairwise_cons.1 hp).2 (fun l s r' e => hc (t :: l) s r' (by rw [e]; rfl))
    set v' := (uVal (q, f q, g q) (sample2 f g r)).1 with hv'
    have e : (uVal (t, f t, g t) (sample2 f g (q :: r))).1 = max (c t) (min (f t) v') := by
      rw [hct]
      simp only [sample2, List.map_cons, uVal]
      rw [max_right_comm]
      rfl
    rw [e]
    have h1 : {v | v = c t ∨ ∃ u ∈ t :: q :: r, u < t ∧ v = f u} = {c t} := by
      ext v
      simp only [Set.mem_ofPred_eq, Set.mem_singleton_iff, or_iff_left_iff_imp]
      rintro ⟨u, hu, hut, -⟩
      rcases List.mem_cons.1 hu with rfl | hu
      · exact absurd hut (lt_irrefl _)
      · exact absurd hut (lt_asymm (hlt u hu))
    have h2 : {v | ∃ u ∈ t :: q :: r, v = f u} = insert (f t) {v | ∃ u ∈ q :: r, v = f u} := by
      ext v
      simp only [List.mem_cons (a := _) (b := t), exists_eq_or_imp, Set.mem_insert_iff, Set.mem_ofPred_eq]
    have h3 : ∀ s ∈ q :: r, {v | v = c s ∨ ∃ u ∈ t :: q :: r, u < s ∧ v = f u} =
        insert (f t) {v | v = c s ∨ ∃ u ∈ q :: r, u < s ∧ v = f u} := by
      intro s hs
      ext v
      simp only [List.mem_cons (a := _) (b := t), exists_eq_or_imp, Set.mem_insert_iff, Set.mem_ofPred_eq,
        hlt s hs, true_and]
      tauto
    constructor
    · rcases le_total (min (f t) v') (c t) with h | h
      · rw [max_eq_left h]
        exact .inl ⟨t, by simp, by rw [h1]; exact isLeast_singleton⟩
      · rw [max_eq_right h]
        rcases ih1 with ⟨s, hs, hw⟩ | hw
        · exact .inl ⟨s, List.mem_cons_of_mem _ hs, by rw [h3 s hs]; exact hw.insert _⟩
        · exact .inr (by rw [h2]; exact hw.insert _)
    · have key : ∀ S : Set K, S.Finite → S.Nonempty → (∀ m, IsLeast S m → m ∈ weakSet f c (q :: r)) →
          ∀ w, IsLeast (insert (f t) S) w → w ≤ max (c t) (min (f t) v') := by
        intro S hf hne hm w hw
        obtain ⟨m, hmS⟩ := exists_isLeast hf hne
        refine le_max_of_le_right (le_min (hw.2 (by simp)) ?_)
        exact (hw.2 (Set.mem_insert_of_mem _ hmS.1)).trans (ih2 (hm m hmS))
      have hfin : ∀ L : List K, {v | ∃ u ∈ L, v = f u}.Finite := by
        intro L
        have : {v | ∃ u ∈ L, v = f u} = {v | v ∈ L.map f} := by
          ext v; simp [eq_comm]
        rw [this]; exact List.finite_toSet _
      rintro w (⟨s, hs, hw⟩ | hw)
      · rcases List.mem_cons.1 hs with rfl | hs
        · rw [h1] at hw
          rw [Set.mem_singleton_iff.1 hw.1]; exact le_max_left _ _
        · rw [h3 s hs] at hw
          refine key _ ?_ ⟨c s, .inl rfl⟩ (fun m hm => .inl ⟨s, hs, hm⟩) w hw
          refine ((hfin (q :: r)).insert (c s)).subset ?_
          rintro v (rfl | ⟨u, hu, -, rfl⟩)
          · exact Set.mem_insert _ _
          · exact Set.mem_insert_of_mem _ ⟨u, hu, rfl⟩
      · rw [h2] at hw
        exact key _ (hfin _) ⟨f q, q, by simp, rfl⟩ (fun m hm => .inr hm) w hw

end bound

end Verif
