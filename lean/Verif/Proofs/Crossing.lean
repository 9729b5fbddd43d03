import Verif.Proofs.Keep
import Verif.Proofs.PairFin
import Mathlib.Tactic.LinearCombination

/-! # The instants that And and Or add are crossings -/

set_option linter.unusedSectionVars false

namespace Verif
open Spec

section any
variable {K : Type} [Field K] [LinearOrder K] [IsStrictOrderedRing K] [Arith K]

theorem insertCrossing_at {out z : Signal K} {p q : Sample K} {t : D K}
    (h : insertCrossing out (some p) (some q) t = .ok z) :
    z = out ∨ (out.endTime.lt (p.timeIntersect q) = true ∧ times z = times out ++ [p.timeIntersect q]) := by
  unfold insertCrossing at h
  simp only [derefPrev, Outcome.bind_ok] at h
  split at h
  · rename_i hlt
    simp only [Bool.and_eq_true] at hlt
    exact .inr ⟨hlt.1, pushBack_times h⟩
  · simp only [Outcome.pure_eq_ok, Outcome.ok.injEq] at h; exact .inl h.symm

theorem pushBack_after {s z : Signal K} {x : Sample K} (hne : s.samples ≠ []) (h : s.pushBack x = .ok z) :
    x.time.le s.endTime = false := by
  unfold Signal.pushBack at h
  cases hl : s.samples.getLast? with
  | none => simp at hl; exact absurd hl hne
  | some a =>
    rw [hl] at h
    by_contra hc
    simp only [Bool.not_eq_false] at hc
    simp [hc] at h

/-- A property of the instants that are added between two neighbouring samples holds of all instants
of the result. -/
theorem pairLoop_times_of (comp : Cmp K) (P : D K → Prop) (L M : List (Sample K))
    (H : ∀ l p i r m q j s, L = l ++ p :: i :: r → M = m ++ q :: j :: s → l.length = m.length →
      ∀ u, u = p.timeIntersect q ∨ u = q.timeIntersect p → p.time.lt u = true → i.time.le u = false → P u) :
    ∀ (is js l m : List (Sample K)) (p q : Sample K) (out z : Signal K) (c : Chosen),
      L = l ++ p :: is → M = m ++ q :: js → l.length = m.length → out.samples ≠ [] → out.endTime = p.time →
      is.map Sample.time = js.map Sample.time → (∀ t ∈ times out, P t) → (∀ s ∈ is, P s.time) →
      minmaxPairLoop comp out c (some p) (some q) is js = .ok z → ∀ t ∈ times z, P t := by
  intro is
  induction is with
  | nil =>
    intro js l m p q out z c _ _ _ _ _ _ hP _ h
    simp only [minmaxPairLoop, Outcome.ok.injEq] at h; subst h; exact hP
  | cons i is ih =>
    intro js l m p q out z c hL hM hl hne he ht hP hi h
    cases js with
    | nil => simp at ht
    | cons j js =>
      simp only [List.map_cons, List.cons.injEq] at ht
      have fin : ∀ (o1 o2 : Signal K) (w : Sample K) (c' : Chosen) (u : D K), w.time = i.time →
          u = p.timeIntersect q ∨ u = q.timeIntersect p →
          (o1 = out ∨ (out.endTime.lt u = true ∧ times o1 = times out ++ [u])) →
          o1.pushBack w = .ok o2 → minmaxPairLoop comp o2 c' (some i) (some j) is js = .ok z →
          ∀ t ∈ times z, P t := by
        intro o1 o2 w c' u hw hu ho e2 e3
        have hp : times o2 = times o1 ++ [i.time] := by rw [← hw]; exact pushBack_times e2
        refine ih js (l ++ [p]) (m ++ [q]) i j o2 z c' (by simp [hL]) (by simp [hM]) (by simp [hl])
          (pushBack_ne e2) (by rw [endTime_times, hp]; simp) ht.2 ?_ (fun s hs => hi s (by simp [hs])) e3
        have hlast := hi i (by simp)
        rw [hp]
        rcases ho with rfl | ⟨h1, h2⟩
        · intro t ht'
          rcases List.mem_append.1 ht' with h | h
          · exact hP t h
          · rw [List.mem_singleton.1 h]; exact hlast
        · have hne1 : o1.samples ≠ [] := by
            intro e; simp [times, e] at h2
          have h3 := pushBack_after hne1 e2
          rw [hw, endTime_times, h2] at h3
          have hPu := H l p i is m q j js hL hM hl u hu (he ▸ h1) (by simpa using h3)
          intro t ht'
          rw [h2] at ht'
          rcases List.mem_append.1 ht' with h | h
          · rcases List.mem_append.1 h with h | h
            · exact hP t h
            · rw [List.mem_singleton.1 h]; exact hPu
          · rw [List.mem_singleton.1 h]; exact hlast
      rw [minmaxPairLoop_cons] at h
      split at h
      · simp only [Outcome.bind_eq_ok] at h
        obtain ⟨o1, e1, o2, e2, e3⟩ := h
        refine fin o1 o2 i .X (q.timeIntersect p) rfl (.inr rfl) ?_ e2 e3
        split at e1
        · exact insertCrossing_at e1
        · simp only [Outcome.ok.injEq] at e1; subst e1; exact .inl rfl
      · simp only [Outcome.bind_eq_ok] at h
        obtain ⟨o1, e1, o2, e2, e3⟩ := h
        refine fin o1 o2 j .Y (p.timeIntersect q) ht.1.symm (.inl rfl) ?_ e2 e3
        split at e1
        · exact insertCrossing_at e1
        · simp only [Outcome.ok.injEq] at e1; subst e1; exact .inl rfl

/-- The same for the whole loop. -/
theorem pairLoop_all (comp : Cmp K) (P : D K → Prop) (L M : List (Sample K)) (z : Signal K)
    (H : ∀ l p i r m q j s, L = l ++ p :: i :: r → M = m ++ q :: j :: s → l.length = m.length →
      ∀ u, u = p.timeIntersect q ∨ u = q.timeIntersect p → p.time.lt u = true → i.time.le u = false → P u)
    (ht : L.map Sample.time = M.map Sample.time) (hP : ∀ s ∈ L, P s.time)
    (h : minmaxPairLoop comp Signal.empty .NONE none none L M = .ok z) : ∀ t ∈ times z, P t := by
  cases L with
  | nil =>
    simp only [minmaxPairLoop, Outcome.ok.injEq] at h; subst h; simp [times, Signal.empty]
  | cons i L =>
    cases M with
    | nil => simp at ht
    | cons j M =>
      simp only [List.map_cons, List.cons.injEq] at ht
      have one : ∀ (w : Sample K) (o : Signal K) (c : Chosen), w.time = i.time → Signal.empty.pushBack w = .ok o →
          minmaxPairLoop comp o c (some i) (some j) L M = .ok z → ∀ t ∈ times z, P t := by
        intro w o c hw e2 e3
        have hp : times o = [i.time] := by rw [← hw]; simpa [times, Signal.empty] using pushBack_times e2
        refine pairLoop_times_of comp P (i :: L) (j :: M) H L M [] [] i j o z c rfl rfl rfl (pushBack_ne e2)
          (by rw [endTime_times, hp]; simp) ht.2 ?_ (fun s hs => hP s (by simp [hs])) e3
        rw [hp]; intro t ht; rw [List.mem_singleton.1 ht]; exact hP i (by simp)
      rw [minmaxPairLoop_cons] at h
      split at h
      · simp only [Outcome.bind_eq_ok] at h
        obtain ⟨o1, e1, o2, e2, e3⟩ := h
        simp at e1; subst e1
        exact one i o2 _ rfl e2 e3
      · simp only [Outcome.bind_eq_ok] at h
        obtain ⟨o1, e1, o2, e2, e3⟩ := h
        simp at e1; subst e1
        exact one j o2 _ ht.1.symm e2 e3
end any

section exact
variable {K : Type} [Field K] [LinearOrder K] [IsStrictOrderedRing K] [Arith K] [ExactArith K]

theorem slopes_mid : ∀ (l : List (Sample K)) (p i : Sample K) (r : List (Sample K)), Slopes (l ++ p :: i :: r) →
    p.derivative = (i.value - p.value) / (i.time - p.time) := by
  intro l
  induction l with
  | nil => intro p i r h; exact h.1
  | cons a l ih =>
    intro p i r h
    cases l with
    | nil => exact h.2.1
    | cons b l => exact ih p i r h.2

/-- The crossing of two segments. -/
theorem line_cross {t0 t1 a0 a1 b0 b1 : K} (ht : t0 < t1) {u : D K}
    (hu : u = (⟨.fin t0, .fin a0, .fin ((a1 - a0) / (t1 - t0))⟩ : Sample K).timeIntersect
      ⟨.fin t0, .fin b0, .fin ((b1 - b0) / (t1 - t0))⟩)
    (h0 : D.lt (.fin t0) u = true) (h1 : D.le (.fin t1) u = false) :
    ∃ k, u = .fin k ∧ t0 < k ∧ k < t1 ∧ line (t0, a0) (t1, a1) k = line (t0, b0) (t1, b1) k ∧
      ∀ s, s ≠ k → line (t0, a0) (t1, a1) s ≠ line (t0, b0) (t1, b1) s := by
  have hd : t1 - t0 ≠ 0 := (sub_pos.2 ht).ne'
  by_cases he : (a1 - a0) / (t1 - t0) = (b1 - b0) / (t1 - t0)
  · exfalso
    have hz : (b1 - b0) / (t1 - t0) - (a1 - a0) / (t1 - t0) = 0 := by rw [he]; ring
    simp only [Sample.timeIntersect, D.sub_fin, D.mul_fin, D.add_fin, hz] at hu
    have : ∀ a : K, (D.fin a / D.fin 0 : D K) = .nan ∨ (D.fin a / D.fin 0 : D K) = .pinf ∨
        (D.fin a / D.fin 0 : D K) = .ninf := by
      intro a
      show D.div _ _ = _ ∨ D.div _ _ = _ ∨ D.div _ _ = _
      simp only [D.div, if_true]
      split_ifs <;> simp
    rcases this ((a0 - b0 + (b1 - b0) / (t1 - t0) * t0 - (a1 - a0) / (t1 - t0) * t0)) with h | h | h <;>
      rw [h] at hu <;> subst hu <;> simp [D.lt, D.le] at h0 h1
  · rw [timeIntersect_fin t0 a0 b0 _ _ he] at hu
    subst hu
    have he' : (a1 - a0) - (b1 - b0) ≠ 0 := by
      intro h; apply he; rw [sub_eq_zero.1 h]
    have hk : line (t0, a0) (t1, a1) (t0 + (b0 - a0) / ((a1 - a0) / (t1 - t0) - (b1 - b0) / (t1 - t0))) =
        line (t0, b0) (t1, b1) (t0 + (b0 - a0) / ((a1 - a0) / (t1 - t0) - (b1 - b0) / (t1 - t0))) := by
      have hx : (a1 - a0) / (t1 - t0) - (b1 - b0) / (t1 - t0) = ((a1 - a0) - (b1 - b0)) / (t1 - t0) := by
        rw [← sub_div]
      rw [hx]; simp only [line]; field_simp; ring
    refine ⟨_, rfl, by simpa [D.lt] using h0, by simpa using h1, hk, fun s hne hc => ?_⟩
    generalize t0 + (b0 - a0) / ((a1 - a0) / (t1 - t0) - (b1 - b0) / (t1 - t0)) = k at hk hne
    have : ((a1 - a0) - (b1 - b0)) * (s - k) = 0 := by
      simp only [line] at hk hc
      field_simp at hk hc
      linear_combination hc - hk
    rcases mul_eq_zero.1 this with h | h
    · exact he' h
    · exact hne (sub_eq_zero.1 h)

theorem eval_mid {l : List (K × K)} {p i : K × K} {r : List (K × K)} (h : Increasing (l ++ p :: i :: r)) {k : K}
    (h0 : p.1 ≤ k) (h1 : k ≤ i.1) : eval (l ++ p :: i :: r) k = line p i k := by
  rw [eval_append_of_le l p _ h h0, eval, if_pos h1]

/-- The instants of the minimum and of the maximum: those of the operands, and crossings at which the operands
are equal but were different just before. -/
theorem pair_crossings_left {nd : Bool} {comp : Cmp K} {xs ys : List (K × K)} {z : Signal K} (hx : Increasing xs)
    (hy : Increasing ys) (h : minmaxPair nd comp (ofPts xs) (ofPts ys) false = .ok z) :
    ∀ t ∈ times z, ∃ k, t = .fin k ∧
      (k ∈ xs.map Prod.fst ∨ k ∈ ys.map Prod.fst ∨ (eval xs k = eval ys k ∧
        ∃ a, a < k ∧ ∀ s, a ≤ s → s < k → eval xs s ≠ eval ys s)) := by
  obtain ⟨b, hbx, hby, hm⟩ := minmaxPair_ok_common hx hy h
  obtain ⟨ts, h1, h2, h3, -, h5, h6, h7⟩ := sync_fin_iff hx hy b hbx hby hm
  rw [minmaxPair_finT nd _ (finT_ofPts hx) (finT_ofPts hy), h3] at h
  simp only [Outcome.bind_ok] at h
  have i1 := (increasing_sampleAt (eval xs) ts).2 h1
  have i2 := (increasing_sampleAt (eval ys) ts).2 h1
  refine pairLoop_all comp _ _ _ z ?_ ?_ ?_ h
  · intro l p i r m q j s hL hM hl u hu u0 u1
    have r1 := represents_ofPts i1
    have r2 := represents_ofPts i2
    have e1 := r1.2
    have e2 := r2.2
    have d1 := slopes_mid l p i r (hL ▸ r1.1.2)
    have d2 := slopes_mid m q j s (hM ▸ r2.1.2)
    rw [hL] at e1
    rw [hM] at e2
    simp only [List.map_append, List.map_cons, sampleAt, List.map_map] at e1 e2
    obtain ⟨ts1, ts2, e, el0, et⟩ := List.map_eq_append_iff.1 e1.symm
    obtain ⟨t0, ts3, rfl, ep, et⟩ := List.map_eq_cons_iff.1 et
    obtain ⟨t1, ts4, rfl, ei, -⟩ := List.map_eq_cons_iff.1 et
    subst e
    obtain ⟨us1, us2, e, el, et'⟩ := List.map_eq_append_iff.1 e2.symm
    have hl1 : ts1.length = us1.length := by
      have a := congrArg List.length el
      have b : ts1.length = l.length := by
        simpa using congrArg List.length el0
      simp at a; omega
    obtain ⟨rfl, rfl⟩ := List.append_inj e hl1
    simp only [List.map_cons, List.cons.injEq] at et'
    obtain ⟨eq, ej, -⟩ := et'
    simp only [Function.comp_apply, lift, tv, Prod.mk.injEq] at ep ei eq ej
    have ht : t0 < t1 := by
      have := (List.pairwise_append.1 h1).2.1
      exact (List.pairwise_cons.1 this).1 t1 (by simp)
    have hd : t1 - t0 ≠ 0 := (sub_pos.2 ht).ne'
    obtain ⟨pt, pv, pd⟩ := p
    obtain ⟨qt, qv, qd⟩ := q
    obtain ⟨it, iv, id'⟩ := i
    obtain ⟨jt, jv, jd⟩ := j
    simp only at ep ei eq ej d1 d2 u0 u1 hu
    obtain ⟨rfl, rfl⟩ := ep
    obtain ⟨rfl, rfl⟩ := ei
    obtain ⟨rfl, rfl⟩ := eq
    obtain ⟨rfl, rfl⟩ := ej
    rw [D.sub_fin, D.sub_fin, D.div_fin _ _ hd] at d1 d2
    subst d1 d2
    have key : ∃ k, u = .fin k ∧ t0 < k ∧ k < t1 ∧
        line (t0, eval xs t0) (t1, eval xs t1) k = line (t0, eval ys t0) (t1, eval ys t1) k ∧
        ∀ s, s ≠ k → line (t0, eval xs t0) (t1, eval xs t1) s ≠ line (t0, eval ys t0) (t1, eval ys t1) s := by
      rcases hu with hu | hu
      · exact line_cross ht hu u0 u1
      · obtain ⟨k, a, b, c, d, e⟩ := line_cross ht hu u0 u1
        exact ⟨k, a, b, c, d.symm, fun s hs => (e s hs).symm⟩
    obtain ⟨k, hk, k0, k1, hk', hk2⟩ := key
    have on : ∀ s, t0 ≤ s → s ≤ t1 → eval xs s = line (t0, eval xs t0) (t1, eval xs t1) s ∧
        eval ys s = line (t0, eval ys t0) (t1, eval ys t1) s := by
      intro s s0 s1
      have m1 := eval_mid (l := ts1.map fun t => (t, eval xs t)) (p := (t0, eval xs t0))
        (i := (t1, eval xs t1)) (r := ts4.map fun t => (t, eval xs t)) (by simpa [sampleAt] using i1) (k := s) s0 s1
      have m2 := eval_mid (l := ts1.map fun t => (t, eval ys t)) (p := (t0, eval ys t0))
        (i := (t1, eval ys t1)) (r := ts4.map fun t => (t, eval ys t)) (by simpa [sampleAt] using i2) (k := s) s0 s1
      have hdom : s ∈ dom xs ∧ s ∈ dom ys := by
        rw [← h5 (eval xs) s, mem_dom_sampleAt]
        exact ⟨⟨t0, by simp, s0⟩, ⟨t1, by simp, s1⟩⟩
      rw [← m1, ← m2]
      simp only [sampleAt, List.map_append, List.map_cons] at h6 h7
      exact ⟨(h6 s hdom).symm, (h7 s hdom).symm⟩
    refine ⟨k, hk, .inr (.inr ⟨?_, t0, k0, fun s s0 s1 => ?_⟩)⟩
    · rw [(on k k0.le k1.le).1, (on k k0.le k1.le).2, hk']
    · rw [(on s s0 (s1.trans k1).le).1, (on s s0 (s1.trans k1).le).2]
      exact hk2 s s1.ne
  · rw [ofPts_times, ofPts_times]; simp [sampleAt, Function.comp_def]
  · intro s hs
    have : s.time ∈ (ofPts (sampleAt (eval xs) ts)).samples.map Sample.time := List.mem_map_of_mem hs
    rw [ofPts_times] at this
    simp only [sampleAt, List.map_map, List.mem_map, Function.comp_apply] at this
    obtain ⟨k, hk, e⟩ := this
    refine ⟨k, e.symm, ?_⟩
    rcases ((h2 k).1 hk).1 with h | h
    · exact .inl h
    · exact .inr (.inl h)

theorem pair_crossings {nd : Bool} {comp : Cmp K} {xs ys : List (K × K)} {z : Signal K} (hx : Increasing xs)
    (hy : Increasing ys) (h : minmaxPair nd comp (ofPts xs) (ofPts ys) false = .ok z) :
    ∀ t ∈ times z, ∃ k, t = .fin k ∧
      (k ∈ xs.map Prod.fst ∨ k ∈ ys.map Prod.fst ∨ eval xs k = eval ys k) := by
  intro t ht
  obtain ⟨k, e, h⟩ := pair_crossings_left hx hy h t ht
  exact ⟨k, e, h.imp_right (Or.imp_right And.left)⟩
end exact
end Verif
