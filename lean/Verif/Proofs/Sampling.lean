import Verif.Proofs.PairFin
import Verif.Proofs.Start
import Verif.Spec.Depth
import Mathlib.Data.List.Chain

/-!
# How far the interpolation of a running extremum is off
-/

set_option linter.unusedSectionVars false

namespace Verif
open Spec

section keeps
variable {K : Type} [Field K] [LinearOrder K] [IsStrictOrderedRing K] [Arith K]

theorem insertCrossing_keeps {out z : Signal K} {a b : Option (Sample K)} {t : D K}
    (h : insertCrossing out a b t = .ok z) : ∀ s ∈ out.samples.map Sample.time, s ∈ z.samples.map Sample.time := by
  intro s hs
  unfold insertCrossing at h
  simp only [Outcome.bind_eq_ok] at h
  obtain ⟨p, -, q, -, h⟩ := h
  split at h
  · rw [pushBack_times h]; exact List.mem_append.2 (.inl hs)
  · simp only [Outcome.pure_eq_ok, Outcome.ok.injEq] at h; subst h; exact hs

theorem minmaxPairLoop_keeps (comp : Cmp K) : ∀ (is js : List (Sample K)) (pi pj : Option (Sample K))
    (out z : Signal K) (c : Chosen), is.map Sample.time = js.map Sample.time →
    minmaxPairLoop comp out c pi pj is js = .ok z →
    ∀ s, s ∈ out.samples.map Sample.time ∨ s ∈ is.map Sample.time → s ∈ z.samples.map Sample.time := by
  intro is
  induction is with
  | nil =>
    intro js pi pj out z c _ e s hs
    simp only [minmaxPairLoop, Outcome.ok.injEq] at e; subst e
    simpa using hs
  | cons i is ih =>
    intro js pi pj out z c ht e s hs
    cases js with
    | nil => simp at ht
    | cons j js =>
      simp only [List.map_cons, List.cons.injEq] at ht
      have hk : ∀ (o1 o2 : Signal K) (k : Sample K), k.time = i.time →
          (∀ s ∈ out.samples.map Sample.time, s ∈ o1.samples.map Sample.time) → o1.pushBack k = .ok o2 →
          s ∈ o2.samples.map Sample.time ∨ s ∈ is.map Sample.time := by
        intro o1 o2 k hk h1 h2
        rw [pushBack_times h2]
        rcases hs with hs | hs
        · exact .inl (List.mem_append.2 (.inl (h1 s hs)))
        · rw [List.map_cons, List.mem_cons] at hs
          rcases hs with rfl | hs
          · exact .inl (List.mem_append.2 (.inr (by simp [hk])))
          · exact .inr hs
      rw [minmaxPairLoop_cons] at e
      split at e
      · simp only [Outcome.bind_eq_ok] at e
        obtain ⟨o1, e1, o2, e2, e3⟩ := e
        refine ih js _ _ o2 z _ ht.2 e3 s (hk o1 o2 i rfl ?_ e2)
        split at e1
        · exact insertCrossing_keeps e1
        · simp only [Outcome.ok.injEq] at e1; subst e1; exact fun _ h => h
      · simp only [Outcome.bind_eq_ok] at e
        obtain ⟨o1, e1, o2, e2, e3⟩ := e
        refine ih js _ _ o2 z _ ht.2 e3 s (hk o1 o2 j ht.1.symm ?_ e2)
        split at e1
        · exact insertCrossing_keeps e1
        · simp only [Outcome.ok.injEq] at e1; subst e1; exact fun _ h => h

variable [ExactArith K]

theorem minmaxPair_keeps {nd : Bool} {comp : Cmp K} {xs ys zs : List (K × K)} (hx : Increasing xs)
    (hy : Increasing ys) (h : minmaxPair nd comp (ofPts xs) (ofPts ys) false = .ok (ofPts zs)) {t : K}
    (ht : t ∈ xs.map Prod.fst ∨ t ∈ ys.map Prod.fst) (h1 : t ∈ dom xs) (h2 : t ∈ dom ys) :
    t ∈ zs.map Prod.fst := by
  obtain ⟨b, hb1, hb2, hb3⟩ := minmaxPair_ok_common hx hy h
  obtain ⟨ts, -, hm, hs, -⟩ := sync_fin_iff hx hy b hb1 hb2 hb3
  rw [minmaxPair_finT nd _ (finT_ofPts hx) (finT_ofPts hy), hs, Outcome.bind_ok] at h
  have := minmaxPairLoop_keeps comp _ _ _ _ _ _ _ (by simp [ofPts_times, sampleAt]) h (.fin t)
    (.inr (by
      rw [ofPts_times]
      have := (hm t).2 ⟨ht, h1, h2⟩
      simpa [sampleAt] using this))
  rw [ofPts_times] at this
  simpa using this

theorem minmaxFold_keeps {nd : Bool} {comp : Cmp K} {op : K → K → K} (hop : PairOp nd comp op) (t0 : K)
    (S : Set K) : ∀ (ls : List (List (K × K))) (xs zs : List (K × K)),
      Increasing xs → StartsAt t0 xs → dom xs = S → (∀ l ∈ ls, Increasing l ∧ StartsAt t0 l ∧ dom l = S) →
      minmaxFold nd comp false (ofPts xs) (ls.map ofPts) = .ok (ofPts zs) →
      ∀ l ∈ xs :: ls, ∀ t ∈ l.map Prod.fst, t ∈ zs.map Prod.fst := by
  intro ls
  induction ls with
  | nil =>
    intro xs zs hx _ _ _ e l hl t ht
    simp only [List.map_nil, minmaxFold, Outcome.ok.injEq] at e
    rw [List.mem_singleton] at hl
    subst l
    have h2 : (D.fin t : D K) ∈ (ofPts xs).samples.map Sample.time := by
      rw [ofPts_times]; simpa using ht
    rw [e, ofPts_times] at h2
    simpa using h2
  | cons y ls ih =>
    intro xs zs hx hs hd hl e l hl' t ht
    obtain ⟨hy1, hy2, hy3⟩ := hl y (by simp)
    obtain ⟨ys, e1, hy, hdy, -⟩ := hop hx hy1 t0 hs.mem hy2.mem (fun t ht => hs.le hx ht.1)
    have hdS : dom ys = S := by
      ext t; rw [hdy, hd, hy3]; simp
    have hsy : StartsAt t0 ys := startsAt_of_dom hy
      ((hdy t0).2 ⟨mem_dom_of_mem hs.mem, mem_dom_of_mem hy2.mem⟩)
      (fun t ht => hs.le hx ((hdy t).1 ht).1)
    rw [List.map_cons, minmaxFold, e1] at e
    have key := ih ys zs hy hsy hdS (fun l h => hl l (by simp [h])) e
    have htd : t ∈ S := by
      simp only [List.mem_cons] at hl'
      rcases hl' with rfl | rfl | hl'
      · rw [← hd]; exact mem_dom_of_mem ht
      · rw [← hy3]; exact mem_dom_of_mem ht
      · rw [← (hl l (by simp [hl'])).2.2]; exact mem_dom_of_mem ht
    simp only [List.mem_cons] at hl'
    rcases hl' with rfl | rfl | hl'
    · exact key ys (by simp) t (minmaxPair_keeps hx hy1 e1 (.inl ht) (hd ▸ htd) (hy3 ▸ htd))
    · exact key ys (by simp) t (minmaxPair_keeps hx hy1 e1 (.inr ht) (hd ▸ htd) (hy3 ▸ htd))
    · exact key l (by simp [hl']) t ht

theorem minmaxVec_keeps {nd : Bool} {comp : Cmp K} {op : K → K → K} (hop : PairOp nd comp op) (t0 : K)
    (S : Set K) (ls : List (List (K × K))) (xs zs : List (K × K))
    (hl : ∀ l ∈ xs :: ls, Increasing l ∧ StartsAt t0 l ∧ dom l = S)
    (e : minmaxVec nd comp ((xs :: ls).map ofPts) false = .ok (ofPts zs)) :
    ∀ l ∈ xs :: ls, ∀ t ∈ l.map Prod.fst, t ∈ zs.map Prod.fst := by
  obtain ⟨hx, hs, hd⟩ := hl xs (by simp)
  refine minmaxFold_keeps hop t0 S ls xs zs hx hs hd (fun l h => hl l (by simp [h])) ?_
  rw [← e]
  cases ls with
  | nil => rfl
  | cons l1 ls =>
    cases ls with
    | nil =>
      simp only [List.map_cons, List.map_nil, minmaxVec, minmaxFold]
      cases minmaxPair nd comp (ofPts xs) (ofPts l1) false <;> rfl
    | cons l2 ls => rfl

end keeps

/-! ### Neighbouring samples -/

section step
variable {K : Type} [Field K] [LinearOrder K] [IsStrictOrderedRing K] [Arith K] [ExactArith K]

theorem isChain_of_adjacent {α : Type} {R : α → α → Prop} : ∀ {xs : List α},
    (∀ l p q r, xs = l ++ p :: q :: r → R p q) → xs.IsChain R
  | [], _ => .nil
  | [_], _ => .singleton _
  | p :: q :: r, h => List.isChain_cons_cons.2 ⟨h [] p q r rfl,
      isChain_of_adjacent fun l a b c e => h (p :: l) a b c (by rw [e]; rfl)⟩

theorem step_adjacent {δ : K} {l r : List (K × K)} {p q : K × K} (h : StepAtMost δ (l ++ p :: q :: r)) :
    |q.2 - p.2| ≤ δ := by
  unfold StepAtMost at h
  have := List.isChain_split.1 h
  exact (List.isChain_cons_cons.1 this.2).1

theorem stepAtMost_negPts {δ : K} {xs : List (K × K)} (h : StepAtMost δ xs) : StepAtMost δ (negPts xs) := by
  unfold StepAtMost negPts at *
  rw [List.isChain_map]
  refine h.imp fun p q hpq => ?_
  rw [show -q.2 - -p.2 = -(q.2 - p.2) by ring, abs_neg]; exact hpq

/-- Between two times with no sample in between the signal changes by at most `δ`. -/
theorem step_cell {δ : K} (hδ : 0 ≤ δ) : ∀ {xs : List (K × K)}, Increasing xs → StepAtMost δ xs →
    ∀ {s t : K}, s ∈ dom xs → t ∈ dom xs → s ≤ t → (∀ p ∈ xs, p.1 ≤ s ∨ t ≤ p.1) →
    |eval xs t - eval xs s| ≤ δ
  | [], _, _, s, t, hs, _, _, _ => by simp [dom] at hs
  | [p], _, _, s, t, hs, ht, _, _ => by simp [eval]; exact hδ
  | p :: q :: r, hi, hst, s, t, hs, ht, hle, hno => by
    have hpq : p.1 < q.1 := (increasing_cons.1 hi).1 q (by simp)
    have hi' := (increasing_cons.1 hi).2
    rcases le_or_gt t q.1 with h | h
    · have hps := ((dom_cons hi).1 hs).1
      have e1 : eval (p :: q :: r) t = line p q t := by rw [eval, if_pos h]
      have e2 : eval (p :: q :: r) s = line p q s := by rw [eval, if_pos (hle.trans h)]
      have hd : 0 < q.1 - p.1 := sub_pos.2 hpq
      have h3 : line p q t - line p q s = (q.2 - p.2) * ((t - s) / (q.1 - p.1)) := by
        simp only [line]; field_simp; ring
      have h4 := (List.isChain_cons_cons.1 hst).1
      have h5 : 0 ≤ (t - s) / (q.1 - p.1) := div_nonneg (by linarith) hd.le
      have h6 : (t - s) / (q.1 - p.1) ≤ 1 := by rw [div_le_one hd]; linarith
      rw [e1, e2, h3, abs_mul, abs_of_nonneg h5]
      calc |q.2 - p.2| * ((t - s) / (q.1 - p.1)) ≤ |q.2 - p.2| * 1 :=
            mul_le_mul_of_nonneg_left h6 (abs_nonneg _)
        _ ≤ δ := by rw [mul_one]; exact h4
    · have hqs : q.1 ≤ s := by
        rcases hno q (by simp) with h' | h'
        · exact h'
        · exact absurd h' (not_le.2 h)
      rw [eval_cons_of_le hi h.le, eval_cons_of_le hi hqs]
      refine step_cell hδ hi' (List.isChain_cons_cons.1 hst).2 ?_ ?_ hle fun a ha => hno a (by simp [ha])
      · obtain ⟨-, a, ha, hsa⟩ := (dom_cons hi).1 hs
        rw [dom_cons hi']
        refine ⟨hqs, ?_⟩
        rcases List.mem_cons.1 ha with rfl | ha
        · exact ⟨q, by simp, hsa.trans hpq.le⟩
        · exact ⟨a, ha, hsa⟩
      · obtain ⟨-, a, ha, hsa⟩ := (dom_cons hi).1 ht
        rw [dom_cons hi']
        refine ⟨h.le, ?_⟩
        rcases List.mem_cons.1 ha with rfl | ha
        · exact ⟨q, by simp, hsa.trans hpq.le⟩
        · exact ⟨a, ha, hsa⟩

/-- The neighbours in a signal have no sample between them. -/
theorem increasing_adjacent {l r : List (K × K)} {p q : K × K} (h : Increasing (l ++ p :: q :: r)) :
    ∀ a ∈ l ++ p :: q :: r, a.1 ≤ p.1 ∨ q.1 ≤ a.1 := by
  intro a ha
  obtain ⟨-, h2, h3⟩ := increasing_append.1 h
  simp only [List.mem_append, List.mem_cons] at ha
  rcases ha with ha | rfl | rfl | ha
  · exact .inl (h3 a ha p (by simp)).le
  · exact .inl le_rfl
  · exact .inr le_rfl
  · exact .inr ((increasing_cons.1 (increasing_cons.1 h2).2).1 a ha).le

/-- Pointwise minima of signals, sampled wherever one of them is. -/
theorem step_of_cells {δ : K} {ι : Type} {I : Set ι} {f : ι → List (K × K)} {zs : List (K × K)}
    (hδ : 0 ≤ δ) (hz : Increasing zs) (hi : ∀ i ∈ I, Increasing (f i) ∧ StepAtMost δ (f i) ∧ dom (f i) = dom zs)
    (hk : ∀ i ∈ I, ∀ t ∈ (f i).map Prod.fst, t ∈ zs.map Prod.fst)
    (hv : (∀ t ∈ dom zs, IsLeast {v | ∃ i ∈ I, v = eval (f i) t} (eval zs t)) ∨
      ∀ t ∈ dom zs, IsGreatest {v | ∃ i ∈ I, v = eval (f i) t} (eval zs t)) : StepAtMost δ zs := by
  refine isChain_of_adjacent fun l p q r e => ?_
  subst e
  have hp : p.1 ∈ dom (l ++ p :: q :: r) := mem_dom_of_mem' (by simp)
  have hq : q.1 ∈ dom (l ++ p :: q :: r) := mem_dom_of_mem' (by simp)
  have hpq : p.1 < q.1 := (increasing_cons.1 (increasing_append.1 hz).2.1).1 q (by simp)
  have hc : ∀ i ∈ I, |eval (f i) q.1 - eval (f i) p.1| ≤ δ := by
    intro i hI
    obtain ⟨h1, h2, h3⟩ := hi i hI
    refine step_cell hδ h1 h2 (h3 ▸ hp) (h3 ▸ hq) hpq.le fun a ha => ?_
    obtain ⟨b, hb, e⟩ := List.mem_map.1 (hk i hI a.1 (List.mem_map_of_mem ha))
    rw [← e]
    exact increasing_adjacent hz b hb
  rw [← eval_mem hz (p := q) (by simp), ← eval_mem hz (p := p) (by simp), abs_le]
  rcases hv with hv | hv
  · obtain ⟨i, hI, ei⟩ := (hv _ hp).1
    obtain ⟨j, hJ, ej⟩ := (hv _ hq).1
    have h1 := (hv _ hq).2 ⟨i, hI, rfl⟩
    have h2 := (hv _ hp).2 ⟨j, hJ, rfl⟩
    have h3 := abs_le.1 (hc i hI)
    have h4 := abs_le.1 (hc j hJ)
    constructor <;> linarith
  · obtain ⟨i, hI, ei⟩ := (hv _ hp).1
    obtain ⟨j, hJ, ej⟩ := (hv _ hq).1
    have h1 := (hv _ hq).2 ⟨i, hI, rfl⟩
    have h2 := (hv _ hp).2 ⟨j, hJ, rfl⟩
    have h3 := abs_le.1 (hc i hI)
    have h4 := abs_le.1 (hc j hJ)
    constructor <;> linarith

theorem step_sufPts_max {δ : K} : ∀ {xs : List (K × K)}, StepAtMost δ xs → StepAtMost δ (sufPts max xs)
  | [], _ => .nil
  | [p], _ => by rw [sufPts_max_cons]; exact .singleton _
  | p :: q :: r, h => by
    have h1 := List.isChain_cons_cons.1 h
    have ih := step_sufPts_max h1.2
    rw [sufPts_max_cons, sufPts_max_cons, sufMax_cons]
    rw [sufPts_max_cons] at ih
    refine List.isChain_cons_cons.2 ⟨?_, ih⟩
    have hq : q.2 ≤ sufMax (q :: r) := sufMax_ge (by simp)
    have := abs_le.1 h1.1
    have h0 : 0 ≤ δ := (abs_nonneg _).trans h1.1
    rw [abs_le]
    rcases le_total p.2 (sufMax (q :: r)) with h | h
    · simp only [max_eq_right h]; constructor <;> linarith
    · simp only [max_eq_left h]; constructor <;> linarith

theorem step_sufPts_min {δ : K} {xs : List (K × K)} (h : StepAtMost δ xs) : StepAtMost δ (sufPts min xs) := by
  rw [sufPts_min]
  exact stepAtMost_negPts (step_sufPts_max (stepAtMost_negPts h))

/-- The interpolation of the running maximum exceeds a later value by at most a quarter of the largest step. -/
theorem sufPts_max_quarter {δ : K} (hδ : 0 ≤ δ) {xs : List (K × K)} (hi : Increasing xs) (h : StepAtMost δ xs)
    {t : K} (ht : t ∈ dom xs) :
    ∃ s ∈ dom xs, t ≤ s ∧ eval (sufPts max xs) t ≤ eval xs s + δ / 4 := by
  rcases dom_cases hi ht with ⟨p, rfl, rfl⟩ | ⟨l, p, q, r, rfl, h1, h2⟩
  · refine ⟨p.1, ht, le_rfl, ?_⟩
    have : sufPts max [p] = [p] := by rw [sufPts_max_cons]; simp [sufMax, sufPts]
    rw [this]; linarith [div_nonneg hδ (by norm_num : (0:K) ≤ 4)]
  · by_cases hbad : q.2 < sufMax (q :: r) ∧ sufMax (q :: r) < p.2
    · obtain ⟨hb1, hb2⟩ := hbad
      obtain ⟨l', hl', hlt⟩ := sufPts_max_append l (p :: q :: r) (by simp)
      have hz : Increasing (l' ++ sufPts max (p :: q :: r)) := by rw [← hl']; exact increasing_sufPts.2 hi
      have hpq : p.1 < q.1 := (increasing_cons.1 (increasing_append.1 hi).2.1).1 q (by simp)
      set V := sufMax (q :: r) with hV
      have hzc : sufPts max (p :: q :: r) = (p.1, p.2) :: (q.1, V) :: sufPts max r := by
        rw [sufPts_max_cons, sufPts_max_cons, sufMax_cons, ← hV, max_eq_left hb2.le]
      rw [hzc] at hz
      have hez : eval (sufPts max (l ++ p :: q :: r)) t = line (p.1, p.2) (q.1, V) t := by
        rw [hl', hzc, eval_seg _ _ _ _ hz h1 h2]
      have hex : eval (l ++ p :: q :: r) t = line p q t := eval_seg _ _ _ _ hi h1 h2
      have hVatt : ∃ s ∈ dom (l ++ p :: q :: r), q.1 ≤ s ∧ V = eval (l ++ p :: q :: r) s := by
        obtain ⟨u, hu, e⟩ := sufMax_mem (pts := q :: r) (by simp)
        have hm : u ∈ l ++ p :: q :: r := by simp at hu ⊢; tauto
        refine ⟨u.1, mem_dom_of_mem' hm, ?_, ?_⟩
        · rcases List.mem_cons.1 hu with rfl | hu
          · exact le_rfl
          · exact ((increasing_cons.1 (increasing_cons.1 (increasing_append.1 hi).2.1).2).1 u hu).le
        · rw [eval_mem hi hm]; exact e
      have hs := abs_le.1 (step_adjacent h)
      set w := (t - p.1) / (q.1 - p.1) with hw
      have hd : 0 < q.1 - p.1 := sub_pos.2 hpq
      have w0 : 0 ≤ w := div_nonneg (by linarith) hd.le
      have w1 : w ≤ 1 := by rw [hw, div_le_one hd]; linarith
      rcases le_or_gt (line (p.1, p.2) (q.1, V) t) (V + δ / 4) with hc | hc
      · obtain ⟨s, hs1, hs2, hs3⟩ := hVatt
        exact ⟨s, hs1, h2.trans hs2, by rw [hez, ← hs3]; exact hc⟩
      · refine ⟨t, ht, le_rfl, ?_⟩
        rw [hez, hex]
        by_contra hne
        rw [not_le] at hne
        simp only [line, ← hw] at hc hne
        -- A (1 - w) > δ/4 and w B > δ/4 with A + B ≤ δ
        have hA : δ / 4 < (p.2 - V) * (1 - w) := by linarith
        have hB : δ / 4 < w * (V - q.2) := by linarith
        have w0' : 0 < w := by
          rcases eq_or_lt_of_le w0 with h | h
          · rw [← h] at hB; linarith [div_nonneg hδ (by norm_num : (0:K) ≤ 4)]
          · exact h
        have w1' : 0 < 1 - w := by
          rcases eq_or_lt_of_le w1 with h | h
          · rw [h] at hA; linarith [div_nonneg hδ (by norm_num : (0:K) ≤ 4)]
          · linarith
        have k1 := mul_lt_mul_of_pos_left hA w0'
        have k2 := mul_lt_mul_of_pos_left hB w1'
        have k3 : δ / 4 < w * (1 - w) * (p.2 - q.2) := by nlinarith
        have k4 : w * (1 - w) * (p.2 - q.2) ≤ w * (1 - w) * δ :=
          mul_le_mul_of_nonneg_left (by linarith) (mul_pos w0' w1').le
        nlinarith [sq_nonneg (2 * w - 1), mul_nonneg hδ (sq_nonneg (2 * w - 1))]
    · obtain ⟨s, hs, hts, e⟩ := ((sufPts_max_exact_seg hi).2 hbad t h1 h2).1
      exact ⟨s, hs, hts, by rw [e]; linarith [div_nonneg hδ (by norm_num : (0:K) ≤ 4)]⟩

end step

/-! ### Comparison with functions -/

/-- The number `v` differs from `w` by at most `ε`. -/
def Near (ε v : ℝ) (w : EReal) : Prop := ((v - ε : ℝ) : EReal) ≤ w ∧ w ≤ ((v + ε : ℝ) : EReal)

theorem Near.neg {ε v : ℝ} {w : EReal} (h : Near ε v w) : Near ε (-v) (-w) := by
  constructor
  · rw [EReal.le_neg, ← EReal.coe_neg]; convert h.2 using 2; ring
  · rw [EReal.neg_le, ← EReal.coe_neg]; convert h.1 using 2; ring

theorem Near.mono {ε ε' v : ℝ} {w : EReal} (h : Near ε v w) (hε : ε ≤ ε') : Near ε' v w :=
  ⟨(EReal.coe_le_coe_iff.2 (by linarith)).trans h.1, h.2.trans (EReal.coe_le_coe_iff.2 (by linarith))⟩

theorem near_sup {ε δ t0 T : ℝ} (hδ : 0 ≤ δ) {xs : List (ℝ × ℝ)} {f : ℝ → EReal} (hi : Increasing xs)
    (hs : StepAtMost δ xs) (hd : dom xs = Set.Icc t0 T) (h : ∀ t ∈ Set.Icc t0 T, Near ε (eval xs t) (f t)) :
    (∀ t ∈ Set.Icc t0 T, Near (ε + δ / 4) (eval (sufPts max xs) t) (⨆ t' ∈ Set.Icc t T, f t')) ∧
    ∀ p ∈ sufPts max xs, Near ε p.2 (⨆ t' ∈ Set.Icc p.1 T, f t') := by
  have hup : ∀ t ∈ Set.Icc t0 T, (⨆ t' ∈ Set.Icc t T, f t') ≤ ((eval (sufPts max xs) t + ε : ℝ) : EReal) := by
    intro t ht
    refine iSup₂_le fun t' ht' => ?_
    have hm : t' ∈ Set.Icc t0 T := ⟨ht.1.trans ht'.1, ht'.2⟩
    refine (h t' hm).2.trans (EReal.coe_le_coe_iff.2 ?_)
    have := sufPts_max_bound hi (hd ▸ ht) (hd ▸ hm) ht'.1
    linarith
  have hlo : ∀ t ∈ Set.Icc t0 T, ∀ s ∈ dom xs, t ≤ s →
      ((eval xs s - ε : ℝ) : EReal) ≤ ⨆ t' ∈ Set.Icc t T, f t' := by
    intro t ht s hs' hts
    rw [hd] at hs'
    exact (h s hs').1.trans (le_iSup₂ (f := fun t' _ => f t') s ⟨hts, hs'.2⟩)
  constructor
  · intro t ht
    obtain ⟨s, hs1, hs2, hs3⟩ := sufPts_max_quarter hδ hi hs (hd ▸ ht)
    refine ⟨?_, (hup t ht).trans (EReal.coe_le_coe_iff.2 (by linarith))⟩
    exact (EReal.coe_le_coe_iff.2 (by linarith)).trans (hlo t ht s hs1 hs2)
  · intro p hp
    have hpd : p.1 ∈ Set.Icc t0 T := by rw [← hd, ← dom_sufPts max]; exact mem_dom_of_mem' hp
    have he := eval_mem (increasing_sufPts.2 hi) hp
    obtain ⟨s, hs1, hs2, hs3⟩ := (sufPts_max_isGreatest hi hp).1
    refine ⟨?_, he ▸ hup p.1 hpd⟩
    rw [hs3]
    exact hlo p.1 hpd s hs1 hs2

theorem near_inf {ε δ t0 T : ℝ} (hδ : 0 ≤ δ) {xs : List (ℝ × ℝ)} {f : ℝ → EReal} (hi : Increasing xs)
    (hs : StepAtMost δ xs) (hd : dom xs = Set.Icc t0 T) (h : ∀ t ∈ Set.Icc t0 T, Near ε (eval xs t) (f t)) :
    (∀ t ∈ Set.Icc t0 T, Near (ε + δ / 4) (eval (sufPts min xs) t) (⨅ t' ∈ Set.Icc t T, f t')) ∧
    ∀ p ∈ sufPts min xs, Near ε p.2 (⨅ t' ∈ Set.Icc p.1 T, f t') := by
  obtain ⟨h1, h2⟩ := near_sup (f := fun t => - f t) hδ (increasing_negPts.2 hi) (stepAtMost_negPts hs)
    (by rwa [dom_negPts]) (fun t ht => by rw [eval_negPts]; exact (h t ht).neg)
  have hneg : ∀ t, (⨅ t' ∈ Set.Icc t T, f t') = - ⨆ t' ∈ Set.Icc t T, - f t' := by
    intro t; rw [neg_iSup₂]; simp only [neg_neg]
  constructor
  · intro t ht
    have := (h1 t ht).neg
    rw [sufPts_min, eval_negPts, hneg]
    exact this
  · intro p hp
    rw [sufPts_min] at hp
    obtain ⟨q, hq, rfl⟩ := List.mem_map.1 hp
    rw [hneg]
    exact (h2 q hq).neg

end Verif
