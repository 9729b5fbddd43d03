import Verif.Proofs.SyncOk
import Verif.Proofs.MinMaxFin
import Verif.Proofs.Pair
import Verif.Proofs.Crossing

/-! Exchanging the operands of `synchronize` and `compute_minmax_pair`. -/

set_option linter.unusedSectionVars false

namespace Verif
open Spec

section any
variable {K : Type} [Field K] [LinearOrder K] [IsStrictOrderedRing K] [Arith K]

/-- The other operand. -/
def Chosen.swap : Chosen → Chosen
  | .X => .Y
  | .Y => .X
  | .NONE => .NONE

/-- The loop with exchanged operands, if no two samples tie. -/
theorem pairLoop_swap (comp : Cmp K) : ∀ (is js : List (Sample K)) (out : Signal K) (last : Chosen)
    (pi pj : Option (Sample K)), (∀ p ∈ is.zip js, comp p.1 p.2 = !comp p.2 p.1) →
    minmaxPairLoop comp out last pi pj is js = minmaxPairLoop comp out last.swap pj pi js is := by
  intro is
  induction is with
  | nil => intro js out last pi pj _; cases js <;> rfl
  | cons i is ih =>
    intro js out last pi pj h
    cases js with
    | nil => rfl
    | cons j js =>
      have h0 := h (i, j) (by simp)
      have ht := fun out last pi pj => ih js out last pi pj (fun p hp => h p (by simp [hp]))
      rw [minmaxPairLoop, minmaxPairLoop]
      simp only at h0
      cases hij : comp i j with
      | true =>
        rw [hij] at h0
        have hji : comp j i = false := by simpa using h0
        simp only [hji, if_true, Bool.false_eq_true, if_false, ht]
        cases last <;> simp [Chosen.swap]
      | false =>
        rw [hij] at h0
        have hji : comp j i = true := by simpa using h0
        simp only [hji, if_true, Bool.false_eq_true, if_false, ht]
        cases last <;> simp [Chosen.swap]

/-- Signals with a common first timestamp are synchronised in either order. -/
theorem sync_swap {x y : Signal K} (fx : FinT x) (fy : FinT y) (hne : x.samples ≠ []) (hne' : y.samples ≠ [])
    (hb : x.beginTime = y.beginTime) :
    ∃ x' y', synchronize x y = .ok (x', y') ∧ synchronize y x = .ok (y', x') := by
  obtain ⟨i, is, ex⟩ := List.exists_cons_of_ne_nil hne
  obtain ⟨j, js, ey⟩ := List.exists_cons_of_ne_nil hne'
  have bx : x.beginTime = i.time := by rw [show x = ⟨i :: is⟩ from by cases x; simp_all, beginTime_cons]
  have by' : y.beginTime = j.time := by rw [show y = ⟨j :: js⟩ from by cases y; simp_all, beginTime_cons]
  have hm : D.max x.beginTime y.beginTime = i.time := by
    rcases D.max_eq_or x.beginTime y.beginTime with h | h <;> rw [h]
    · exact bx
    · rw [← hb, bx]
  have hm' : D.max y.beginTime x.beginTime = i.time := by
    rcases D.max_eq_or y.beginTime x.beginTime with h | h <;> rw [h]
    · rw [← hb, bx]
    · exact bx
  have hij : j.time = i.time := by rw [← by', ← hb, bx]
  have hn : i.time ≠ .nan := fx.2.noNaN i (by rw [ex]; simp)
  have h1 := synchronize_split x y [] is [] js i j ex ey fx.sorted fy.sorted hm.symm (by rw [hm, hij])
    (by rw [hm]; exact hn)
  have h2 := synchronize_split y x [] js [] is j i ey ex fy.sorted fx.sorted (by rw [hm', hij]) hm'.symm
    (by rw [hm']; exact hn)
  have ht : syncTimes i.time x.samples y.samples = syncTimes i.time y.samples x.samples := by
    unfold syncTimes
    refine mergeT_comm _ _ ?_ ?_
    · intro a ha
      obtain ⟨s, hs, rfl⟩ := List.mem_map.1 (List.mem_filter.1 ha).1
      exact fx.2.noNaN s hs
    · intro a ha
      obtain ⟨s, hs, rfl⟩ := List.mem_map.1 (List.mem_filter.1 ha).1
      exact fy.2.noNaN s hs
  rw [hm] at h1; rw [hm', ← ht] at h2
  exact ⟨_, _, h1, h2⟩

theorem pushBack_value {out : Signal K} {i j : Sample K} (ht : i.time = j.time) (hv : i.value = j.value) :
    out.pushBack i = out.pushBack j := by
  unfold Signal.pushBack; rw [ht, hv]

theorem pushBack_endTime {s z : Signal K} {x : Sample K} (h : s.pushBack x = .ok z) : z.endTime = x.time := by
  unfold Signal.pushBack at h
  split at h
  · simp only [Outcome.ok.injEq] at h; subst h; simp [Signal.endTime]
  · split at h
    · cases h
    · simp only [Outcome.ok.injEq] at h; subst h
      simp [Signal.endTime, List.getLast?_append]

end any

section exact
variable {K : Type} [Field K] [LinearOrder K] [IsStrictOrderedRing K] [Arith K] [ExactArith K]

theorem insertCrossing_tie {out : Signal K} {t0 v d e : K} (ho : out.endTime = .fin t0) (t : D K) :
    insertCrossing out (some ⟨.fin t0, .fin v, .fin d⟩) (some ⟨.fin t0, .fin v, .fin e⟩) t = .ok out := by
  simp only [insertCrossing, derefPrev, Outcome.bind_ok, ho]
  rw [if_neg]; · rfl
  by_cases h : d = e
  · subst h
    have e : (⟨.fin t0, .fin v, .fin d⟩ : Sample K).timeIntersect ⟨.fin t0, .fin v, .fin d⟩ = .nan := by
      simp only [Sample.timeIntersect, D.sub_fin, D.mul_fin, D.add_fin, sub_self, zero_add]
      show D.div (.fin 0) (.fin 0) = .nan
      simp [D.div]
    rw [e]; simp
  · rw [timeIntersect_fin t0 v v d e h]; simp

theorem insertCrossing_end {out : Signal K} {t0 t1 a0 b0 v : K} (ht : t0 < t1) (ho : out.endTime = .fin t0) :
    insertCrossing out (some ⟨.fin t0, .fin a0, .fin ((v - a0) / (t1 - t0))⟩)
      (some ⟨.fin t0, .fin b0, .fin ((v - b0) / (t1 - t0))⟩) (.fin t1) = .ok out := by
  by_cases h : a0 = b0
  · subst h; exact insertCrossing_tie ho _
  · have hd : t1 - t0 ≠ 0 := (sub_pos.2 ht).ne'
    have hne : (v - a0) / (t1 - t0) ≠ (v - b0) / (t1 - t0) := by
      intro e; rw [div_left_inj' hd] at e; exact h (by linarith)
    simp only [insertCrossing, derefPrev, Outcome.bind_ok, ho]
    rw [timeIntersect_fin t0 a0 b0 _ _ hne, if_neg]; · rfl
    have : t0 + (b0 - a0) / ((v - a0) / (t1 - t0) - (v - b0) / (t1 - t0)) = t1 := by
      have e : (v - a0) / (t1 - t0) - (v - b0) / (t1 - t0) = (b0 - a0) / (t1 - t0) := by
        rw [← sub_div]; congr 1; ring
      have hb : b0 - a0 ≠ 0 := fun e => h (by linarith)
      rw [e]; field_simp; ring
    rw [this]; simp [D.eq]

/-- A comparison that orders the finite values. -/
def Orders (comp : Cmp K) : Prop := ∀ (i j : Sample K) (a b : K), i.value = .fin a → j.value = .fin b →
  (comp i j = true ∨ comp j i = true) ∧ (comp i j = true → comp j i = true → a = b)

theorem orders_le : Orders (Sample.le (K := K)) := by
  intro i j a b hi hj
  simp only [Sample.le, Sample.gt, Sample.lt, hi, hj, D.lt_fin, Bool.not_eq_true', decide_eq_false_iff_not, not_lt]
  exact ⟨le_total a b, fun h h' => le_antisymm h h'⟩

theorem orders_ge : Orders (Sample.ge (K := K)) := by
  intro i j a b hi hj
  simp only [Sample.ge, Sample.lt, hi, hj, D.lt_fin, Bool.not_eq_true', decide_eq_false_iff_not, not_lt]
  exact ⟨le_total b a, fun h h' => le_antisymm h' h⟩

theorem pairLoop_swap_exact (f g : K → K) {comp : Cmp K} (hc : Orders comp) : ∀ (rest : List K) (t0 : K)
    (out : Signal K) (p q : Sample K) (last last' : Chosen), out.endTime = .fin t0 →
    (t0 :: rest).Pairwise (· < ·) →
    (ofPts (sampleAt f (t0 :: rest))).samples = p :: (ofPts (sampleAt f rest)).samples →
    (ofPts (sampleAt g (t0 :: rest))).samples = q :: (ofPts (sampleAt g rest)).samples →
    (last' = last.swap ∨ f t0 = g t0) →
    minmaxPairLoop comp out last (some p) (some q) (ofPts (sampleAt f rest)).samples
        (ofPts (sampleAt g rest)).samples =
      minmaxPairLoop comp out last' (some q) (some p) (ofPts (sampleAt g rest)).samples
        (ofPts (sampleAt f rest)).samples := by
  intro rest
  induction rest with
  | nil => intro t0 out p q last last' _ _ _ _ _; rfl
  | cons t1 rest ih =>
    intro t0 out p q last last' ho hs hp hq hl
    have ht : t0 < t1 := (List.pairwise_cons.1 hs).1 t1 (by simp)
    have hs' := (List.pairwise_cons.1 hs).2
    have hpv : p = ⟨.fin t0, .fin (f t0), .fin ((f t1 - f t0) / (t1 - t0))⟩ := by
      have := build_lift_cons₂ (p := (t0, f t0)) (q := (t1, f t1)) (r := sampleAt f rest) ht
      simp only [sampleAt_cons, ofPts] at hp
      rw [this] at hp; simp only [List.cons.injEq] at hp; exact hp.1.symm
    have hqv : q = ⟨.fin t0, .fin (g t0), .fin ((g t1 - g t0) / (t1 - t0))⟩ := by
      have := build_lift_cons₂ (p := (t0, g t0)) (q := (t1, g t1)) (r := sampleAt g rest) ht
      simp only [sampleAt_cons, ofPts] at hq
      rw [this] at hq; simp only [List.cons.injEq] at hq; exact hq.1.symm
    obtain ⟨dx, hi⟩ := build_cons (lift (t1, f t1)) ((sampleAt f rest).map lift)
    obtain ⟨dy, hj⟩ := build_cons (lift (t1, g t1)) ((sampleAt g rest).map lift)
    have hi' : (ofPts (sampleAt f (t1 :: rest))).samples =
        ⟨.fin t1, .fin (f t1), dx⟩ :: (ofPts (sampleAt f rest)).samples := hi
    have hj' : (ofPts (sampleAt g (t1 :: rest))).samples =
        ⟨.fin t1, .fin (g t1), dy⟩ :: (ofPts (sampleAt g rest)).samples := hj
    rw [hi', hj', minmaxPairLoop_cons, minmaxPairLoop_cons]
    set i : Sample K := ⟨.fin t1, .fin (f t1), dx⟩ with hiv
    set j : Sample K := ⟨.fin t1, .fin (g t1), dy⟩ with hjv
    obtain ⟨tot, anti⟩ := hc i j (f t1) (g t1) rfl rfl
    have tie : ∀ t, f t0 = g t0 → insertCrossing out (some p) (some q) t = .ok out ∧
        insertCrossing out (some q) (some p) t = .ok out := by
      intro t e
      rw [hpv, hqv, e]
      exact ⟨insertCrossing_tie ho t, insertCrossing_tie ho t⟩
    have tie' : f t1 = g t1 → insertCrossing out (some p) (some q) (.fin t1) = .ok out ∧
        insertCrossing out (some q) (some p) (.fin t1) = .ok out := by
      intro e
      rw [hpv, hqv, e]
      exact ⟨insertCrossing_end ht ho, insertCrossing_end ht ho⟩
    have next : ∀ (out : Signal K) (w : Sample K) (c c' : Chosen), w.time = .fin t1 → (c' = c.swap ∨ f t1 = g t1) →
        (out.pushBack w >>= fun o => minmaxPairLoop comp o c (some i) (some j) (ofPts (sampleAt f rest)).samples
          (ofPts (sampleAt g rest)).samples) =
        (out.pushBack w >>= fun o => minmaxPairLoop comp o c' (some j) (some i) (ofPts (sampleAt g rest)).samples
          (ofPts (sampleAt f rest)).samples) := by
      intro out w c c' hw hcc
      cases e : out.pushBack w with
      | ok o =>
        rw [Outcome.bind_ok, Outcome.bind_ok]
        exact ih t1 o i j c c' (by rw [pushBack_endTime e, hw]) hs' hi' hj' hcc
      | _ => rfl
    cases hij : comp i j with
    | true =>
      cases hji : comp j i with
      | true =>
        have e := anti hij hji
        obtain ⟨e1, e2⟩ := tie' e
        simp only [if_true, hiv, hjv, e1, e2, ite_self, Outcome.bind_ok]
        rw [← hiv, ← hjv, pushBack_value (i := j) (j := i) rfl (by rw [hiv, hjv, e])]
        exact next out i .X .X rfl (.inr e)
      | false =>
        simp only [if_true, Bool.false_eq_true, if_false]
        have e : (if last = .Y then insertCrossing out (some q) (some p) i.time else .ok out) =
            (if last' = .X then insertCrossing out (some q) (some p) i.time else .ok out) := by
          rcases hl with rfl | e
          · cases last <;> simp [Chosen.swap]
          · rw [(tie i.time e).2, ite_self, ite_self]
        rw [e]
        refine congrArg _ (funext fun o => next o i .X .Y rfl (.inl rfl))
    | false =>
      have hji : comp j i = true := by rcases tot with h | h; · rw [hij] at h; cases h
                                       · exact h
      simp only [hji, if_true, Bool.false_eq_true, if_false]
      have e : (if last = .X then insertCrossing out (some p) (some q) j.time else .ok out) =
          (if last' = .Y then insertCrossing out (some p) (some q) j.time else .ok out) := by
        rcases hl with rfl | e
        · cases last <;> simp [Chosen.swap]
        · rw [(tie j.time e).1, ite_self, ite_self]
      rw [e]
      refine congrArg _ (funext fun o => next o j .Y .X rfl (.inl rfl))

theorem pairLoop_swap_start (f g : K → K) {comp : Cmp K} (hc : Orders comp) (ts : List K) (hs : ts.Pairwise (· < ·)) :
    minmaxPairLoop comp Signal.empty .NONE none none (ofPts (sampleAt f ts)).samples
        (ofPts (sampleAt g ts)).samples =
      minmaxPairLoop comp Signal.empty .NONE none none (ofPts (sampleAt g ts)).samples
        (ofPts (sampleAt f ts)).samples := by
  cases ts with
  | nil => rfl
  | cons t1 rest =>
    obtain ⟨dx, hi⟩ := build_cons (lift (t1, f t1)) ((sampleAt f rest).map lift)
    obtain ⟨dy, hj⟩ := build_cons (lift (t1, g t1)) ((sampleAt g rest).map lift)
    have hi' : (ofPts (sampleAt f (t1 :: rest))).samples =
        ⟨.fin t1, .fin (f t1), dx⟩ :: (ofPts (sampleAt f rest)).samples := hi
    have hj' : (ofPts (sampleAt g (t1 :: rest))).samples =
        ⟨.fin t1, .fin (g t1), dy⟩ :: (ofPts (sampleAt g rest)).samples := hj
    rw [hi', hj', minmaxPairLoop_cons, minmaxPairLoop_cons]
    set i : Sample K := ⟨.fin t1, .fin (f t1), dx⟩ with hiv
    set j : Sample K := ⟨.fin t1, .fin (g t1), dy⟩ with hjv
    obtain ⟨tot, anti⟩ := hc i j (f t1) (g t1) rfl rfl
    have next : ∀ (out : Signal K) (w : Sample K) (c c' : Chosen), w.time = .fin t1 → (c' = c.swap ∨ f t1 = g t1) →
        (out.pushBack w >>= fun o => minmaxPairLoop comp o c (some i) (some j) (ofPts (sampleAt f rest)).samples
          (ofPts (sampleAt g rest)).samples) =
        (out.pushBack w >>= fun o => minmaxPairLoop comp o c' (some j) (some i) (ofPts (sampleAt g rest)).samples
          (ofPts (sampleAt f rest)).samples) := by
      intro out w c c' hw hcc
      cases e : out.pushBack w with
      | ok o =>
        rw [Outcome.bind_ok, Outcome.bind_ok]
        exact pairLoop_swap_exact f g hc rest t1 o i j c c' (by rw [pushBack_endTime e, hw]) hs hi' hj' hcc
      | _ => rfl
    cases hij : comp i j with
    | true =>
      cases hji : comp j i with
      | true =>
        have e := anti hij hji
        simp only [if_true, reduceCtorEq, if_false, Outcome.bind_ok]
        rw [pushBack_value (i := j) (j := i) rfl (by rw [hiv, hjv, e])]
        exact next _ i .X .X rfl (.inr e)
      | false =>
        simp only [if_true, Bool.false_eq_true, if_false, reduceCtorEq, Outcome.bind_ok]
        exact next _ i .X .Y rfl (.inl rfl)
    | false =>
      have hji : comp j i = true := by rcases tot with h | h; · rw [hij] at h; cases h
                                       · exact h
      simp only [hji, if_true, Bool.false_eq_true, if_false, reduceCtorEq, Outcome.bind_ok]
      exact next _ j .Y .X rfl (.inl rfl)

/-- Exchanging the operands does not change a successful result. -/
theorem pair_swap_exact {nd : Bool} {comp : Cmp K} (hc : Orders comp) {xs ys : List (K × K)} (hx : Increasing xs)
    (hy : Increasing ys) {z : Signal K} (h : minmaxPair nd comp (ofPts xs) (ofPts ys) false = .ok z) :
    minmaxPair nd comp (ofPts ys) (ofPts xs) false = .ok z := by
  unfold minmaxPair at h ⊢
  simp only [Bool.false_eq_true, if_false, Outcome.bind_eq_ok] at h
  obtain ⟨r, h1, h2⟩ := h
  obtain ⟨b, b1, b2, b3⟩ := sync_fin_ok hx hy h1
  obtain ⟨ts, t1, t2, t3, -⟩ := sync_fin_iff hx hy b b1 b2 b3
  obtain ⟨ts', u1, u2, u3, -⟩ := sync_fin_iff hy hx b b2 b1 (fun t ht => b3 t ht.symm)
  have : ts = ts' := by
    refine sorted_ext t1 u1 fun t => ?_
    rw [t2, u2, or_comm, and_comm (a := t ∈ dom xs)]
  subst this
  rw [t3] at h1
  simp only [Outcome.ok.injEq] at h1
  subst h1
  simp only [u3, Bool.false_eq_true, if_false, Outcome.bind_ok]
  obtain ⟨_, a1, _, a2, _, a3, h2⟩ := h2
  rw [pairLoop_swap_start _ _ hc ts t1] at h2
  rw [h2]
  simp only [assert_] at a1 a2 a3 ⊢
  have sym : ∀ a b : D K, a.eq b = b.eq a := by
    intro a b; cases a <;> cases b <;> simp [D.eq, eq_comm]
  rw [show ∀ a b : Nat, (a == b) = (b == a) from fun a b => by simp [Bool.beq_comm], sym, sym (Signal.endTime _)]
  rw [a1, a2, a3]; rfl

end exact
end Verif
