import Verif.Proofs.SyncFin
import Verif.Model.MinMax

/-! # `compute_minmax_pair` on finite signals in exact arithmetic -/

set_option linter.unusedSectionVars false

namespace Verif
open Spec

variable {K : Type} [Field K] [LinearOrder K] [IsStrictOrderedRing K] [Arith K]

theorem pushBack_ofPts (l : List (K × K)) (p : K × K) (t v : K) (d : D K) (h : p.1 < t) :
    (ofPts (l ++ [p])).pushBack ⟨.fin t, .fin v, d⟩ = .ok (ofPts (l ++ [p, (t, v)])) := by
  rw [ofPts, pushBack_build, if_pos]
  · simp [ofPts, lift, tv]
  · intro q hq
    simp at hq; subst hq
    simpa [lift] using h

variable [ExactArith K]

theorem timeIntersect_fin (t0 a0 b0 da db : K) (h : da ≠ db) :
    (⟨.fin t0, .fin a0, .fin da⟩ : Sample K).timeIntersect ⟨.fin t0, .fin b0, .fin db⟩ =
      .fin (t0 + (b0 - a0) / (da - db)) := by
  have h1 : db - da ≠ 0 := sub_ne_zero.2 h.symm
  have h2 : da - db ≠ 0 := sub_ne_zero.2 h
  simp only [Sample.timeIntersect, D.sub_fin, D.mul_fin, D.add_fin, D.div_fin _ _ h1]
  congr 1
  have : db - da = -(da - db) := by ring
  rw [this]; field_simp; ring

/-- The crossing of two lines and the minimum along it.  `a` is the signal that was the smaller one
at `t0`, `b` the smaller one at `t1`. -/
theorem crossing {t0 t1 a0 a1 b0 b1 : K} (ht : t0 < t1) (h0 : a0 ≤ b0) (h1 : b1 ≤ a1)
    (hne : a0 < b0 ∨ b1 < a1) (l : List (K × K)) :
    ∃ c : List (K × K),
      insertCrossing (ofPts (l ++ [(t0, a0)]))
        (some ⟨.fin t0, .fin a0, .fin ((a1 - a0) / (t1 - t0))⟩)
        (some ⟨.fin t0, .fin b0, .fin ((b1 - b0) / (t1 - t0))⟩) (.fin t1) =
        .ok (ofPts (l ++ (t0, a0) :: c)) ∧
      Increasing ((t0, a0) :: (c ++ [(t1, b1)])) ∧
      ∀ t, t0 ≤ t → t ≤ t1 → eval ((t0, a0) :: (c ++ [(t1, b1)])) t =
        min (line (t0, a0) (t1, a1) t) (line (t0, b0) (t1, b1) t) := by
  have hd : 0 < t1 - t0 := sub_pos.2 ht
  have hd' : t1 - t0 ≠ 0 := hd.ne'
  have hsum : 0 < (b0 - a0) + (a1 - b1) := by rcases hne with h | h <;> linarith
  have hslope : (b1 - b0) / (t1 - t0) < (a1 - a0) / (t1 - t0) := by
    rw [div_lt_div_iff_of_pos_right hd]; linarith
  have hti := timeIntersect_fin t0 a0 b0 _ _ hslope.ne'
  set s := t0 + (b0 - a0) / ((a1 - a0) / (t1 - t0) - (b1 - b0) / (t1 - t0)) with hs
  have hs' : s = t0 + (t1 - t0) * ((b0 - a0) / ((b0 - a0) + (a1 - b1))) := by
    have hx := hsum.ne'
    have : (a1 - a0) / (t1 - t0) - (b1 - b0) / (t1 - t0) =
        ((b0 - a0) + (a1 - b1)) / (t1 - t0) := by rw [← sub_div]; congr 1; ring
    rw [hs, this]; field_simp
  have hr1 : (b0 - a0) / ((b0 - a0) + (a1 - b1)) ≤ 1 := by
    rw [div_le_one hsum]; linarith
  have hr0 : 0 ≤ (b0 - a0) / ((b0 - a0) + (a1 - b1)) := div_nonneg (by linarith) hsum.le
  have hcross : line (t0, a0) (t1, a1) s = line (t0, b0) (t1, b1) s := by
    have hx := hsum.ne'
    rw [hs']; simp only [line]; field_simp; ring
  simp only [insertCrossing, derefPrev, Outcome.bind_ok, hti, ofPts_endTime, D.lt_fin, D.eq_fin]
  by_cases hins : t0 < s ∧ s ≠ t1
  · have hst1 : s < t1 := by
      refine lt_of_le_of_ne ?_ hins.2
      rw [hs']; nlinarith
    refine ⟨[(s, line (t0, a0) (t1, a1) s)], ?_, ?_, ?_⟩
    · rw [if_pos (by simp [hins.1, hins.2]), interpolate_fin, Sample.mk2,
        pushBack_ofPts l (t0, a0) s _ _ hins.1]
      rw [line_eq]
    · rw [increasing_cons]
      simp [Increasing, hins.1, hst1, ht]
    · intro t h2 h3
      have ea : ∀ t, line (t0, a0) (t1, a1) t =
          line (s, line (t0, a0) (t1, a1) s) (t1, a1) t := by
        intro t
        have := line_sub (p := (t0, a0)) (q := (t1, a1)) ht (a := s) (b := t1) (s := t) hst1
        rw [line_right (p := (t0, a0)) (q := (t1, a1)) ht] at this; exact this.symm
      have eb : ∀ t, line (t0, b0) (t1, b1) t =
          line (s, line (t0, b0) (t1, b1) s) (t1, b1) t := by
        intro t
        have := line_sub (p := (t0, b0)) (q := (t1, b1)) ht (a := s) (b := t1) (s := t) hst1
        rw [line_right (p := (t0, b0)) (q := (t1, b1)) ht] at this; exact this.symm
      have ea0 : ∀ t, line (t0, a0) (t1, a1) t =
          line (t0, a0) (s, line (t0, a0) (t1, a1) s) t := by
        intro t
        have := line_sub (p := (t0, a0)) (q := (t1, a1)) ht (a := t0) (b := s) (s := t) hins.1
        rw [line_left (t0, a0) (t1, a1)] at this; exact this.symm
      have eb0 : ∀ t, line (t0, b0) (t1, b1) t =
          line (t0, b0) (s, line (t0, b0) (t1, b1) s) t := by
        intro t
        have := line_sub (p := (t0, b0)) (q := (t1, b1)) ht (a := t0) (b := s) (s := t) hins.1
        rw [line_left (t0, b0) (t1, b1)] at this; exact this.symm
      rw [List.cons_append, List.nil_append, eval]
      by_cases h4 : t ≤ s
      · simp only [h4, if_true]
        rw [← ea0, min_eq_left]
        rw [ea0 t, eb0 t, ← hcross]
        exact line_mono hins.1 h0 le_rfl h2 h4
      · rw [not_le] at h4
        simp only [not_le.2 h4, if_false]
        rw [eval, if_pos h3]
        rw [hcross, ← eb, min_eq_right]
        rw [ea t, eb t, hcross]
        exact line_mono hst1 le_rfl h1 h4.le h3
  · refine ⟨[], ?_, ?_, ?_⟩
    · refine (if_neg ?_).trans rfl
      intro hc
      simp only [Bool.and_eq_true, decide_eq_true_eq, Bool.not_eq_true', decide_eq_false_iff_not] at hc
      exact hins hc
    · simp [Increasing, ht]
    · intro t h2 h3
      rw [List.nil_append, eval, if_pos h3]
      rcases not_and_or.1 hins with h | h
      · -- s = t0: equal at t0
        have h00 : a0 = b0 := by
          rw [not_lt, hs'] at h
          by_contra hc
          have hlt : 0 < b0 - a0 := by
            have := lt_of_le_of_ne h0 hc; linarith
          have : 0 < (b0 - a0) / ((b0 - a0) + (a1 - b1)) := div_pos hlt hsum
          nlinarith
        subst h00
        rw [min_eq_right]
        exact line_mono ht le_rfl h1 h2 h3
      · simp only [not_not] at h
        have h11 : a1 = b1 := by
          have e1 := line_right (p := (t0, a0)) (q := (t1, a1)) ht
          have e2 := line_right (p := (t0, b0)) (q := (t1, b1)) ht
          simp only at e1 e2
          rw [h] at hcross; rw [← e1, ← e2]; exact hcross
        subst h11
        rw [min_eq_left]
        exact line_mono ht h0 le_rfl h2 h3

/-- The winner at a point. -/
def winner (x y : K) : Chosen := if x ≤ y then .X else .Y

theorem sampleAt_cons (f : K → K) (t : K) (ts : List K) :
    sampleAt f (t :: ts) = (t, f t) :: sampleAt f ts := rfl

theorem minmaxPairLoop_fin (f g : K → K) : ∀ (rest : List K) (t0 : K) (l : List (K × K)) (p q : Sample K),
    (t0 :: rest).Pairwise (· < ·) →
    (ofPts (sampleAt f (t0 :: rest))).samples = p :: (ofPts (sampleAt f rest)).samples →
    (ofPts (sampleAt g (t0 :: rest))).samples = q :: (ofPts (sampleAt g rest)).samples →
    ∃ w, minmaxPairLoop Sample.le (ofPts (l ++ [(t0, min (f t0) (g t0))])) (winner (f t0) (g t0))
        (some p) (some q) (ofPts (sampleAt f rest)).samples (ofPts (sampleAt g rest)).samples =
        .ok (ofPts (l ++ (t0, min (f t0) (g t0)) :: w)) ∧
      Increasing ((t0, min (f t0) (g t0)) :: w) ∧
      (∀ t, t ∈ dom ((t0, min (f t0) (g t0)) :: w) ↔ t ∈ dom (sampleAt f (t0 :: rest))) ∧
      ∀ t ∈ dom (sampleAt f (t0 :: rest)), eval ((t0, min (f t0) (g t0)) :: w) t =
        min (eval (sampleAt f (t0 :: rest)) t) (eval (sampleAt g (t0 :: rest)) t) := by
  intro rest
  induction rest with
  | nil =>
    intro t0 l p q hs hp hq
    refine ⟨[], ?_, increasing_single _, ?_, ?_⟩
    · rfl
    · intro t; simp [dom, sampleAt]
    · intro t ht; simp [eval, sampleAt]
  | cons t1 rest ih =>
    intro t0 l p q hs hp hq
    have ht : t0 < t1 := (List.pairwise_cons.1 hs).1 t1 (by simp)
    have hs' := (List.pairwise_cons.1 hs).2
    -- the samples at the front
    have hpv : p = ⟨.fin t0, .fin (f t0), .fin ((f t1 - f t0) / (t1 - t0))⟩ := by
      have := build_lift_cons₂ (p := (t0, f t0)) (q := (t1, f t1)) (r := sampleAt f rest) ht
      simp only [sampleAt_cons, ofPts] at hp
      rw [this] at hp; simp only [List.cons.injEq] at hp; exact hp.1.symm
    have hqv : q = ⟨.fin t0, .fin (g t0), .fin ((g t1 - g t0) / (t1 - t0))⟩ := by
      have := build_lift_cons₂ (p := (t0, g t0)) (q := (t1, g t1)) (r := sampleAt g rest) ht
      simp only [sampleAt_cons, ofPts] at hq
      rw [this] at hq; simp only [List.cons.injEq] at hq; exact hq.1.symm
    obtain ⟨dx, hi⟩ := build_cons (lift (t1, f t1)) ((sampleAt f rest).map lift)
    obtain ⟨dy, hj⟩ := build_cons (lift (t1, g t1)) ((sampleAt g rest).map lift)
    have hi' : (ofPts (sampleAt f (t1 :: rest))).samples =
        ⟨.fin t1, .fin (f t1), dx⟩ :: (ofPts (sampleAt f rest)).samples := hi
    have hj' : (ofPts (sampleAt g (t1 :: rest))).samples =
        ⟨.fin t1, .fin (g t1), dy⟩ :: (ofPts (sampleAt g rest)).samples := hj
    have hle : Sample.le (⟨.fin t1, .fin (f t1), dx⟩ : Sample K) ⟨.fin t1, .fin (g t1), dy⟩ =
        decide (f t1 ≤ g t1) := by
      simp [Sample.le, Sample.gt, Sample.lt, ← not_lt]
    -- one step
    have step : ∃ c : List (K × K),
        minmaxPairLoop Sample.le (ofPts (l ++ [(t0, min (f t0) (g t0))])) (winner (f t0) (g t0))
          (some p) (some q) (ofPts (sampleAt f (t1 :: rest))).samples
          (ofPts (sampleAt g (t1 :: rest))).samples =
        minmaxPairLoop Sample.le
          (ofPts ((l ++ (t0, min (f t0) (g t0)) :: c) ++ [(t1, min (f t1) (g t1))]))
          (winner (f t1) (g t1)) (some ⟨.fin t1, .fin (f t1), dx⟩) (some ⟨.fin t1, .fin (g t1), dy⟩)
          (ofPts (sampleAt f rest)).samples (ofPts (sampleAt g rest)).samples ∧
        Increasing ((t0, min (f t0) (g t0)) :: (c ++ [(t1, min (f t1) (g t1))])) ∧
        ∀ t, t0 ≤ t → t ≤ t1 → eval ((t0, min (f t0) (g t0)) :: (c ++ [(t1, min (f t1) (g t1))])) t =
          min (line (t0, f t0) (t1, f t1) t) (line (t0, g t0) (t1, g t1) t) := by
      have push : ∀ (c : List (K × K)) (v : K) (d : D K),
          Increasing ((t0, min (f t0) (g t0)) :: (c ++ [(t1, v)])) →
          (ofPts (l ++ (t0, min (f t0) (g t0)) :: c)).pushBack ⟨.fin t1, .fin v, d⟩ =
            .ok (ofPts ((l ++ (t0, min (f t0) (g t0)) :: c) ++ [(t1, v)])) := by
        intro c v d hinc
        rcases List.eq_nil_or_concat c with rfl | ⟨c', e, rfl⟩
        · rw [pushBack_ofPts l _ t1 v d ht]; simp
        · have he : e.1 < t1 := by
            have := (increasing_cons.1 hinc).2
            exact (increasing_append.1 this).2.2 e (by simp) (t1, v) (by simp)
          have := pushBack_ofPts (l ++ (t0, min (f t0) (g t0)) :: c') e t1 v d he
          simpa using this
      rw [hi', hj', minmaxPairLoop, hle]
      rcases le_or_gt (f t0) (g t0) with h0 | h0 <;> rcases le_or_gt (f t1) (g t1) with h1 | h1
      · -- X, X
        refine ⟨[], ?_, by simp [Increasing, ht], ?_⟩
        · have e := push [] (f t1) dx (by simp [Increasing, ht])
          simp only [h1, decide_true, if_true, winner, h0, reduceCtorEq, if_false, Outcome.bind_ok]
          simp only [min_eq_left h0, min_eq_left h1] at e ⊢
          rw [e]; rfl
        · intro t h2 h3
          rw [List.nil_append, eval, if_pos h3, min_eq_left h0, min_eq_left h1, min_eq_left]
          exact line_mono ht h0 h1 h2 h3
      · -- X, Y
        obtain ⟨c, e1, e2, e3⟩ := crossing ht h0 h1.le (.inr h1) l
        refine ⟨c, ?_, ?_, ?_⟩
        · have e := push c (g t1) dy (by rw [min_eq_left h0]; exact e2)
          simp only [not_le.2 h1, decide_false, Bool.false_eq_true, if_false, winner, h0, if_true]
          simp only [min_eq_left h0, min_eq_right h1.le] at e ⊢
          rw [hpv, hqv, e1]
          simp only [Outcome.bind_ok, e]
        · rw [min_eq_left h0, min_eq_right h1.le]; exact e2
        · intro t h2 h3
          rw [min_eq_left h0, min_eq_right h1.le, e3 t h2 h3]
      · -- Y, X
        obtain ⟨c, e1, e2, e3⟩ := crossing ht h0.le h1 (.inl h0) l
        refine ⟨c, ?_, ?_, ?_⟩
        · have e := push c (f t1) dx (by rw [min_eq_right h0.le]; exact e2)
          simp only [h1, decide_true, if_true, winner, not_le.2 h0, if_false]
          simp only [min_eq_right h0.le, min_eq_left h1] at e ⊢
          rw [hpv, hqv, e1]
          simp only [Outcome.bind_ok, e]
        · rw [min_eq_right h0.le, min_eq_left h1]; exact e2
        · intro t h2 h3
          rw [min_eq_right h0.le, min_eq_left h1, e3 t h2 h3, min_comm]
      · -- Y, Y
        refine ⟨[], ?_, by simp [Increasing, ht], ?_⟩
        · have e := push [] (g t1) dy (by simp [Increasing, ht])
          simp only [not_le.2 h1, decide_false, Bool.false_eq_true, winner, not_le.2 h0, reduceCtorEq,
            if_false, Outcome.bind_ok]
          simp only [min_eq_right h0.le, min_eq_right h1.le] at e ⊢
          rw [e]; rfl
        · intro t h2 h3
          rw [List.nil_append, eval, if_pos h3, min_eq_right h0.le, min_eq_right h1.le, min_eq_right]
          exact line_mono ht h0.le h1.le h2 h3
    obtain ⟨c, e1, e2, e3⟩ := step
    obtain ⟨w, w1, w2, w3, w4⟩ := ih t1 (l ++ (t0, min (f t0) (g t0)) :: c) _ _ hs' hi' hj'
    have hinc : Increasing ((t0, min (f t0) (g t0)) :: (c ++ (t1, min (f t1) (g t1)) :: w)) := by
      have ha : (t0, min (f t0) (g t0)) :: (c ++ (t1, min (f t1) (g t1)) :: w) =
          ((t0, min (f t0) (g t0)) :: c) ++ (t1, min (f t1) (g t1)) :: w := by simp
      have hb : (t0, min (f t0) (g t0)) :: (c ++ [(t1, min (f t1) (g t1))]) =
          ((t0, min (f t0) (g t0)) :: c) ++ [(t1, min (f t1) (g t1))] := by simp
      rw [hb] at e2
      rw [ha, increasing_append]
      obtain ⟨i1, i2, i3⟩ := increasing_append.1 e2
      refine ⟨i1, w2, ?_⟩
      intro a ha b hb
      have h5 := i3 a ha _ (List.mem_singleton.2 rfl)
      simp only [List.mem_cons] at hb
      rcases hb with rfl | hb
      · exact h5
      · exact h5.trans ((increasing_cons.1 w2).1 b hb)
    have hx : Increasing ((t0, f t0) :: (t1, f t1) :: sampleAt f rest) :=
      (increasing_sampleAt f (t0 :: t1 :: rest)).2 hs
    have hy : Increasing ((t0, g t0) :: (t1, g t1) :: sampleAt g rest) :=
      (increasing_sampleAt g (t0 :: t1 :: rest)).2 hs
    have hdomeq : ∀ t, t ∈ dom ((t0, min (f t0) (g t0)) :: (c ++ (t1, min (f t1) (g t1)) :: w)) ↔
        t ∈ dom (sampleAt f (t0 :: t1 :: rest)) := by
      intro t
      have hx' : Increasing ((t1, f t1) :: sampleAt f rest) :=
        (increasing_sampleAt f (t1 :: rest)).2 hs'
      rw [dom_cons hinc, sampleAt_cons, sampleAt_cons, dom_cons hx]
      refine and_congr_right (fun h0t => ?_)
      rcases le_total t t1 with h | h
      · constructor
        · intro _; exact ⟨(t1, f t1), by simp [sampleAt], h⟩
        · intro _; exact ⟨(t1, min (f t1) (g t1)), by simp, h⟩
      · have h6 := w3 t
        rw [dom_cons w2, sampleAt_cons, dom_cons hx'] at h6
        simp only [h, true_and] at h6
        constructor
        · rintro ⟨a, ha, hta⟩
          have : ∃ q ∈ (t1, min (f t1) (g t1)) :: w, t ≤ q.1 := by
            simp only [List.mem_cons, List.mem_append] at ha
            rcases ha with rfl | ha | ha | ha
            · exact ⟨(t1, min (f t1) (g t1)), by simp, hta.trans ht.le⟩
            · refine ⟨(t1, min (f t1) (g t1)), by simp, hta.trans ?_⟩
              have := (increasing_append.1 (increasing_cons.1 hinc).2).2.2 a ha
                (t1, min (f t1) (g t1)) (by simp)
              exact this.le
            · exact ⟨a, by simp [ha], hta⟩
            · exact ⟨a, by simp [ha], hta⟩
          obtain ⟨a, ha, hta⟩ := h6.1 this
          refine ⟨a, ?_, hta⟩
          rw [← sampleAt_cons] at ha
          exact List.mem_cons_of_mem _ ha
        · rintro ⟨a, ha, hta⟩
          have : ∃ q ∈ (t1, f t1) :: sampleAt f rest, t ≤ q.1 := by
            simp only [List.mem_cons] at ha
            rcases ha with rfl | ha
            · exact ⟨(t1, f t1), by simp, hta.trans ht.le⟩
            · exact ⟨a, by simpa using ha, hta⟩
          obtain ⟨a, ha, hta⟩ := h6.2 this
          refine ⟨a, ?_, hta⟩
          simp only [List.mem_cons, List.mem_append] at ha ⊢
          tauto
    refine ⟨c ++ (t1, min (f t1) (g t1)) :: w, ?_, hinc, hdomeq, ?_⟩
    · rw [e1, w1]; simp
    · intro t htd
      have htd0 := htd
      rw [sampleAt_cons, sampleAt_cons, dom_cons hx] at htd
      rcases le_total t t1 with h | h
      · have h7 : (t0, min (f t0) (g t0)) :: (c ++ (t1, min (f t1) (g t1)) :: w) =
            ((t0, min (f t0) (g t0)) :: (c ++ [(t1, min (f t1) (g t1))])) ++ w := by simp
        rw [h7, eval_append_left w (by rw [← h7]; exact hinc)
          ((dom_cons e2).2 ⟨htd.1, (t1, min (f t1) (g t1)), by simp, h⟩), e3 t htd.1 h]
        simp only [sampleAt_cons, eval, if_pos h]
      · have h8 := eval_append_of_le ((t0, min (f t0) (g t0)) :: c) (t1, min (f t1) (g t1)) w
          (by simpa using hinc) h
        rw [List.cons_append] at h8
        rw [h8, w4 t]
        · rw [sampleAt_cons f t0, sampleAt_cons f t1, eval_cons_of_le hx h]
          rw [sampleAt_cons g t0, sampleAt_cons g t1, eval_cons_of_le hy h]
        · have h9 := htd.2
          have hx' : Increasing ((t1, f t1) :: sampleAt f rest) :=
        (increasing_sampleAt f (t1 :: rest)).2 hs'
          rw [sampleAt_cons, dom_cons hx']
          refine ⟨h, ?_⟩
          obtain ⟨a, ha, hta⟩ := h9
          simp only [List.mem_cons] at ha
          rcases ha with rfl | ha
          · exact ⟨(t1, f t1), by simp, hta.trans ht.le⟩
          · exact ⟨a, by simpa using ha, hta⟩

/-- The whole pairwise minimum of two synchronized finite signals. -/
theorem minmaxPairLoop_le_fin (f g : K → K) (ts : List K) (hs : ts.Pairwise (· < ·)) :
    ∃ zs, minmaxPairLoop Sample.le Signal.empty .NONE none none (ofPts (sampleAt f ts)).samples
        (ofPts (sampleAt g ts)).samples = .ok (ofPts zs) ∧ Increasing zs ∧
      (∀ t, t ∈ dom zs ↔ t ∈ dom (sampleAt f ts)) ∧
      (∀ t ∈ dom (sampleAt f ts), eval zs t =
        min (eval (sampleAt f ts) t) (eval (sampleAt g ts) t)) := by
  cases ts with
  | nil => exact ⟨[], rfl, increasing_nil, by simp [sampleAt], by simp [sampleAt, dom]⟩
  | cons t0 rest =>
    obtain ⟨dx, hi⟩ := build_cons (lift (t0, f t0)) ((sampleAt f rest).map lift)
    obtain ⟨dy, hj⟩ := build_cons (lift (t0, g t0)) ((sampleAt g rest).map lift)
    have hi' : (ofPts (sampleAt f (t0 :: rest))).samples =
        ⟨.fin t0, .fin (f t0), dx⟩ :: (ofPts (sampleAt f rest)).samples := hi
    have hj' : (ofPts (sampleAt g (t0 :: rest))).samples =
        ⟨.fin t0, .fin (g t0), dy⟩ :: (ofPts (sampleAt g rest)).samples := hj
    obtain ⟨w, w1, w2, w3, w4⟩ := minmaxPairLoop_fin f g rest t0 [] _ _ hs hi' hj'
    refine ⟨_, ?_, w2, w3, w4⟩
    rw [List.nil_append, List.nil_append] at w1
    rw [← w1, hi', hj', minmaxPairLoop]
    have hle : Sample.le (⟨.fin t0, .fin (f t0), dx⟩ : Sample K) ⟨.fin t0, .fin (g t0), dy⟩ =
        decide (f t0 ≤ g t0) := by
      simp [Sample.le, Sample.gt, Sample.lt, ← not_lt]
    rw [hle]
    have pb : ∀ v (d : D K), Signal.empty.pushBack (⟨.fin t0, .fin v, d⟩ : Sample K) =
        .ok (ofPts [(t0, v)]) := by intro v d; rfl
    rcases le_or_gt (f t0) (g t0) with h0 | h0
    · simp [h0, winner, min_eq_left h0, pb]
    · simp [not_le.2 h0, winner, min_eq_right h0.le, pb]

end Verif
