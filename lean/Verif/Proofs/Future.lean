import Verif.Proofs.AnyRound
import Verif.Spec.Future

/-!
# Dropping the samples before a common sample time
-/

set_option linter.unusedSectionVars false

namespace Verif
open Spec

section any
variable {K : Type} [Field K] [LinearOrder K] [IsStrictOrderedRing K] [Arith K]

/-- `x'` is the rest of `x` from its sample at time `t` on. -/
def Cut (t : D K) (x x' : Signal K) : Prop :=
  ∃ pre a suf, x.samples = pre ++ a :: suf ∧ x'.samples = a :: suf ∧ a.time = t

theorem build_append (l : List (D K × D K)) (p : D K × D K) (r : List (D K × D K)) :
    ∃ pre, build (l ++ p :: r) = pre ++ build (p :: r) ∧ pre.length = l.length := by
  induction l with
  | nil => exact ⟨[], rfl, rfl⟩
  | cons q l ih =>
    obtain ⟨pre, e, hl⟩ := ih
    cases l with
    | nil => exact ⟨[⟨q.1, q.2, (p.2 - q.2) / (p.1 - q.1)⟩], rfl, rfl⟩
    | cons q' l =>
      refine ⟨⟨q.1, q.2, (q'.2 - q.2) / (q'.1 - q.1)⟩ :: pre, ?_, by simp [hl]⟩
      simp only [List.cons_append] at e ⊢
      rw [build_cons₂, e]

theorem incr_suffix : ∀ (l l' : List (D K × D K)), Incr (l ++ l') → Incr l'
  | [], _, h => h
  | _ :: l, l', h => incr_suffix l l' (incr_tail h)

theorem cut_ofSamples {l : List (Sample K)} {a : Sample K} {r : List (Sample K)} {z : Signal K}
    (h : Signal.ofSamples (l ++ a :: r) = .ok z) :
    ∃ z', Signal.ofSamples (a :: r) = .ok z' ∧ Cut a.time z z' := by
  obtain ⟨h1, rfl⟩ := (ofSamples_ok_iff _ _).1 h
  rw [List.map_append] at h1 ⊢
  refine ⟨_, (ofSamples_ok_iff _ _).2 ⟨incr_suffix _ _ h1, rfl⟩, ?_⟩
  rw [List.map_cons]
  obtain ⟨pre, e, -⟩ := build_append (l.map tv) (tv a) (r.map tv)
  obtain ⟨d, e'⟩ := build_cons (tv a) (r.map tv)
  exact ⟨pre, ⟨(tv a).1, (tv a).2, d⟩, build (r.map tv), by rw [← e']; exact e, e', rfl⟩

/-! ### The running extrema -/

theorem minmaxSeqLoop_append (comp : Cmp K) : ∀ (l l' : List (Sample K)) (o : Sample K),
    ∃ o', minmaxSeqLoop comp o (l ++ l') = minmaxSeqLoop comp o l ++ minmaxSeqLoop comp o' l'
  | [], _, o => ⟨o, rfl⟩
  | a :: l, l', o => by
    obtain ⟨o', h⟩ := minmaxSeqLoop_append comp l l' (if comp a o then a else o)
    exact ⟨o', by simp [minmaxSeqLoop, h]⟩

theorem minmaxSeq_concat (comp : Cmp K) (l : List (Sample K)) (b : Sample K) :
    minmaxSeq comp ⟨l ++ [b]⟩ = Signal.ofSamples ((minmaxSeqLoop comp b l.reverse).reverse ++ [b]) := by
  simp [minmaxSeq, Signal.back]

theorem cut_minmaxSeq {comp : Cmp K} {t : D K} {x x' z : Signal K} (hc : Cut t x x')
    (h : minmaxSeq comp x = .ok z) : ∃ z', minmaxSeq comp x' = .ok z' ∧ Cut t z z' := by
  obtain ⟨xs⟩ := x
  obtain ⟨xs'⟩ := x'
  obtain ⟨pre, a, suf, e1, e2, rfl⟩ := hc
  dsimp only at e1 e2
  subst e1 e2
  rcases List.eq_nil_or_concat suf with rfl | ⟨mid, b, rfl⟩
  · rw [minmaxSeq_concat] at h
    rw [show ([a] : List (Sample K)) = [] ++ [a] from rfl, minmaxSeq_concat]
    exact cut_ofSamples h
  · rw [List.concat_eq_append] at h ⊢
    rw [show pre ++ a :: (mid ++ [b]) = (pre ++ (a :: mid)) ++ [b] by simp, minmaxSeq_concat,
      List.reverse_append] at h
    rw [show a :: (mid ++ [b]) = (a :: mid) ++ [b] from rfl, minmaxSeq_concat]
    obtain ⟨o', e⟩ := minmaxSeqLoop_append comp (a :: mid).reverse pre.reverse b
    rw [e, List.reverse_append, List.append_assoc] at h
    have ht := minmaxSeqLoop_times comp (a :: mid).reverse b
    generalize minmaxSeqLoop comp b (a :: mid).reverse = L at *
    have ht' : L.reverse.map Sample.time = (a :: mid).map Sample.time := by
      rw [List.map_reverse, ht, ← List.map_reverse, List.reverse_reverse]
    cases hL : L.reverse with
    | nil => rw [hL] at ht'; simp at ht'
    | cons c L' =>
      rw [hL] at ht' h
      simp only [List.map_cons, List.cons.injEq] at ht'
      rw [← ht'.1]
      exact cut_ofSamples h

/-! ### Synchronization -/

theorem mergeT_prefix (t : D K) (s1 s2 : List (D K)) : ∀ (n : Nat) (p1 p2 : List (D K)), p1.length + p2.length ≤ n →
    (∀ a ∈ p1, a.lt t = true) → (∀ a ∈ p2, a.lt t = true) →
    ∃ m, mergeT (p1 ++ t :: s1) (p2 ++ t :: s2) = m ++ mergeT (t :: s1) (t :: s2) := by
  have hne : ∀ a : D K, a.lt t = true → a.eq t = false := by
    intro a h
    rw [Bool.eq_false_iff]
    intro h'
    obtain ⟨rfl, -⟩ := D.eq_iff.1 h'
    simp [D.lt_irrefl] at h
  have hne' : ∀ a : D K, a.lt t = true → t.eq a = false := by
    intro a h
    rw [Bool.eq_false_iff]
    intro h'
    obtain ⟨rfl, -⟩ := D.eq_iff.1 h'
    simp [D.lt_irrefl] at h
  intro n
  induction n with
  | zero =>
    intro p1 p2 hl _ _
    obtain rfl : p1 = [] := List.eq_nil_of_length_eq_zero (by omega)
    obtain rfl : p2 = [] := List.eq_nil_of_length_eq_zero (by omega)
    exact ⟨[], rfl⟩
  | succ n ih =>
    intro p1 p2 hl h1 h2
    cases p1 with
    | nil =>
      cases p2 with
      | nil => exact ⟨[], rfl⟩
      | cons b p2 =>
        obtain ⟨m, e⟩ := ih [] p2 (by simp at hl ⊢; omega) (by simp) fun a ha => h2 a (by simp [ha])
        refine ⟨b :: m, ?_⟩
        rw [List.nil_append] at e ⊢
        have hb := h2 b (by simp)
        rw [List.cons_append, mergeT_cons, if_neg (by simp [hne' b hb]), if_neg (by simp [D.lt_asymm hb]), e]
        rfl
    | cons a p1 =>
      have ha := h1 a (by simp)
      cases p2 with
      | nil =>
        obtain ⟨m, e⟩ := ih p1 [] (by simp at hl ⊢; omega) (fun a ha => h1 a (by simp [ha])) (by simp)
        refine ⟨a :: m, ?_⟩
        rw [List.nil_append] at e ⊢
        rw [List.cons_append, mergeT_cons, if_neg (by simp [hne a ha]), if_pos ha, e]
        rfl
      | cons b p2 =>
        simp only [List.length_cons] at hl
        rw [List.cons_append, List.cons_append, mergeT_cons]
        split
        · obtain ⟨m, e⟩ := ih p1 p2 (by omega) (fun a ha => h1 a (by simp [ha])) (fun a ha => h2 a (by simp [ha]))
          exact ⟨a :: m, by rw [e]; rfl⟩
        · split
          · obtain ⟨m, e⟩ := ih p1 (b :: p2) (by simp; omega) (fun a ha => h1 a (by simp [ha])) h2
            rw [List.cons_append] at e
            exact ⟨a :: m, by rw [e]; rfl⟩
          · obtain ⟨m, e⟩ := ih (a :: p1) p2 (by simp; omega) h1 (fun a ha => h2 a (by simp [ha]))
            rw [List.cons_append] at e
            exact ⟨b :: m, by rw [e]; rfl⟩

theorem evalD_suffix (a : Sample K) (suf : List (Sample K)) (s : D K) (hs : a.time.le s = true) :
    ∀ pre : List (Sample K), SortedT (pre ++ a :: suf) → evalD (pre ++ a :: suf) s = evalD (a :: suf) s
  | [], _ => rfl
  | [p], _ => evalD_cons_of_le p rfl hs
  | p :: q :: pre, h => by
    have ih := evalD_suffix a suf s hs (q :: pre) (sortedT_cons.1 h).2
    have hq : q.time.lt a.time = true := by
      have h1 : SortedT (q :: (pre ++ a :: suf)) := (sortedT_cons.1 h).2
      exact (sortedT_cons.1 h1).1 a (by simp)
    rw [List.cons_append, evalD_cons_of_le p (l := (q :: pre) ++ a :: suf) rfl (D.le_of_lt (D.lt_of_lt_of_le hq hs)), ih]

theorem Cut.finT {t : D K} {x x' : Signal K} (hc : Cut t x x') (hx : FinT x) : SortedT x'.samples ∧
    FinTimes x'.samples ∧ x'.beginTime = t := by
  obtain ⟨pre, a, suf, e1, e2, rfl⟩ := hc
  have hs := hx.sorted
  have hf := hx.2
  rw [e1] at hs hf
  refine ⟨by rw [e2]; exact (sortedT_append.1 hs).2.1, ?_, by simp [Signal.beginTime, e2]⟩
  rw [e2]
  intro b hb
  exact hf b (by rw [List.mem_append]; exact .inr hb)

/-- What `synchronize` returns for the rests is the rest of what it returns, from the same position on. -/
theorem cut_synchronize {t : D K} {x x' y y' u v : Signal K} (hx : FinT x) (hy : FinT y)
    (cx : Cut t x x') (cy : Cut t y y') (h : synchronize x y = .ok (u, v)) :
    ∃ p1 p2 i is j js, synchronize x' y' = .ok (⟨i :: is⟩, ⟨j :: js⟩) ∧ u.samples = p1 ++ i :: is ∧
      v.samples = p2 ++ j :: js ∧ p1.length = p2.length ∧ i.time = t ∧ j.time = t := by
  obtain ⟨hb, e⟩ := synchronize_ok_eq hx.sorted hy.sorted hx.2.noNaN hy.2.noNaN h
  obtain ⟨sx', fx', bx'⟩ := cx.finT hx
  obtain ⟨sy', fy', by'⟩ := cy.finT hy
  obtain ⟨p, a, suf, x1, x2, rfl⟩ := cx
  obtain ⟨q, c, tuf, y1, y2, ht⟩ := cy
  have ha : a ∈ x.samples := by rw [x1]; simp
  have hc : c ∈ y.samples := by rw [y1]; simp
  have hna : a.time ≠ .nan := hx.2.noNaN a ha
  have hble : (D.max x.beginTime y.beginTime).le a.time = true := by
    rcases D.max_eq_or x.beginTime y.beginTime with h | h <;> rw [h]
    · exact beginTime_le_mem hx.sorted hx.2.noNaN ha
    · rw [← ht]; exact beginTime_le_mem hy.sorted hy.2.noNaN hc
  generalize D.max x.beginTime y.beginTime = b at *
  have hmax : D.max x'.beginTime y'.beginTime = a.time := by
    rw [bx', by']; unfold D.max; split <;> rfl
  have hsx := hx.sorted
  have hsy := hy.sorted
  rw [x1] at hsx; rw [y1] at hsy
  have hfilt : ∀ (l : List (Sample K)) (i : Sample K) (is : List (Sample K)), i.time = a.time →
      SortedT (l ++ i :: is) → ((l ++ i :: is).map Sample.time).filter (fun s => b.le s) =
        (l.map Sample.time).filter (fun s => b.le s) ++ a.time :: is.map Sample.time := by
    intro l i is hi hs
    rw [List.map_append, List.filter_append]
    congr 1
    rw [List.filter_eq_self.2, List.map_cons, hi]
    intro s hs'
    obtain ⟨k, hk, rfl⟩ := List.mem_map.1 hs'
    rcases List.mem_cons.1 hk with rfl | hk
    · rw [hi]; exact hble
    · have h1 := (sortedT_cons.1 (sortedT_append.1 hs).2.1).1 k hk
      rw [hi] at h1
      exact D.le_trans hble (D.le_of_lt h1)
  have hlt : ∀ (l : List (Sample K)) (i : Sample K) (is : List (Sample K)), i.time = a.time →
      SortedT (l ++ i :: is) → ∀ s ∈ (l.map Sample.time).filter (fun s => b.le s), s.lt a.time = true := by
    intro l i is hi hs s hs'
    obtain ⟨k, hk, rfl⟩ := List.mem_map.1 (List.mem_of_mem_filter hs')
    rw [← hi]
    exact (sortedT_append.1 hs).2.2 k hk i (by simp)
  obtain ⟨m, hm⟩ : ∃ m, syncTimes b x.samples y.samples = m ++ syncTimes a.time x'.samples y'.samples := by
    unfold syncTimes
    rw [x1, y1, x2, y2, hfilt p a suf rfl hsx, hfilt q c tuf ht hsy,
      ← List.nil_append (a :: suf), filter_split [] a suf hna (by simpa using (sortedT_append.1 hsx).2.1)]
    have := filter_split [] c tuf (by rw [ht]; exact hna) (by simpa using (sortedT_append.1 hsy).2.1)
    rw [ht] at this
    rw [← List.nil_append (c :: tuf), this, List.map_cons, List.map_cons, ht]
    exact mergeT_prefix a.time _ _ _ _ _ (le_refl _) (hlt p a suf rfl hsx) (hlt q c tuf ht hsy)
  have hsync := synchronize_split x' y' [] suf [] tuf a c (by rw [x2]; rfl) (by rw [y2]; rfl) sx' sy'
    hmax.symm (by rw [hmax, ht]) (by rw [hmax]; exact hna)
  rw [hmax] at hsync
  have hhead : ∃ r, syncTimes a.time x'.samples y'.samples = a.time :: r := by
    unfold syncTimes
    rw [x2, y2, ← List.nil_append (a :: suf), filter_split [] a suf hna (by simpa using (sortedT_append.1 hsx).2.1)]
    have := filter_split [] c tuf (by rw [ht]; exact hna) (by simpa using (sortedT_append.1 hsy).2.1)
    rw [ht] at this
    rw [← List.nil_append (c :: tuf), this, List.map_cons, List.map_cons, ht, mergeT_cons,
      if_pos (D.eq_iff.2 ⟨rfl, hna⟩)]
    exact ⟨_, rfl⟩
  have hge : ∀ s ∈ syncTimes a.time x'.samples y'.samples, a.time.le s = true := by
    intro s hs
    rcases mem_mergeT_sub _ _ s hs with h | h <;> simpa using (List.mem_filter.1 h).2
  have hres : resample x.samples (syncTimes a.time x'.samples y'.samples) =
      resample x'.samples (syncTimes a.time x'.samples y'.samples) := by
    apply List.map_congr_left
    intro s hs
    rw [x1, x2, evalD_suffix a suf s (hge s hs) p hsx]
  have hres' : resample y.samples (syncTimes a.time x'.samples y'.samples) =
      resample y'.samples (syncTimes a.time x'.samples y'.samples) := by
    apply List.map_congr_left
    intro s hs
    rw [y1, y2, evalD_suffix c tuf s (by rw [ht]; exact hge s hs) q hsy]
  have happ : ∀ (l : List (Sample K)) (m m' : List (D K)), resample l (m ++ m') = resample l m ++ resample l m' := by
    intro l m m'; simp [resample]
  rw [hm, happ, happ, hres, hres'] at e
  obtain ⟨r, hr⟩ := hhead
  rw [hr] at e hsync
  have hcons : ∀ (l : List (Sample K)) (s : D K) (m : List (D K)), resample l (s :: m) =
    (s, evalD l s) :: resample l m := fun _ _ _ => rfl
  rw [hcons, hcons] at e hsync
  obtain ⟨p1, f1, g1⟩ := build_append (resample x.samples m) (a.time, evalD x'.samples a.time) (resample x'.samples r)
  obtain ⟨p2, f2, g2⟩ := build_append (resample y.samples m) (a.time, evalD y'.samples a.time) (resample y'.samples r)
  obtain ⟨d1, k1⟩ := build_cons (a.time, evalD x'.samples a.time) (resample x'.samples r)
  obtain ⟨d2, k2⟩ := build_cons (a.time, evalD y'.samples a.time) (resample y'.samples r)
  rw [f1, f2, k1, k2] at e
  rw [k1, k2] at hsync
  simp only [Prod.mk.injEq] at e
  refine ⟨p1, p2, _, _, _, _, hsync, by rw [e.1], by rw [e.2], ?_, rfl, rfl⟩
  rw [g1, g2]; simp [resample]

/-! ### The pairwise loop -/

theorem pushBack_prefix (P Q : List (Sample K)) (hQ : Q ≠ []) (x : Sample K) :
    (⟨P ++ Q⟩ : Signal K).pushBack x = ((⟨Q⟩ : Signal K).pushBack x).map' fun z => ⟨P ++ z.samples⟩ := by
  rcases List.eq_nil_or_concat Q with rfl | ⟨Q, b, rfl⟩
  · exact absurd rfl hQ
  · rw [List.concat_eq_append, ← List.append_assoc]
    have h1 : ∀ L : List (Sample K), (⟨L ++ [b]⟩ : Signal K).samples.getLast? = some b := by intro L; simp
    have h2 : ∀ L : List (Sample K), (⟨L ++ [b]⟩ : Signal K).endTime = b.time := by
      intro L; simp [Signal.endTime]
    simp only [Signal.pushBack, h1, h2]
    split
    · rfl
    · simp [Outcome.map']

theorem endTime_prefix (P Q : List (Sample K)) (hQ : Q ≠ []) :
    (⟨P ++ Q⟩ : Signal K).endTime = (⟨Q⟩ : Signal K).endTime := by
  rcases List.eq_nil_or_concat Q with rfl | ⟨Q, b, rfl⟩
  · exact absurd rfl hQ
  · simp [Signal.endTime]

theorem insertCrossing_prefix (P Q : List (Sample K)) (hQ : Q ≠ []) (a b : Option (Sample K)) (t : D K) :
    insertCrossing ⟨P ++ Q⟩ a b t = (insertCrossing ⟨Q⟩ a b t).map' fun z => ⟨P ++ z.samples⟩ := by
  unfold insertCrossing
  cases a with
  | none => rfl
  | some a =>
    cases b with
    | none => rfl
    | some b =>
      simp only [derefPrev, Outcome.bind_ok, endTime_prefix P Q hQ]
      split
      · exact pushBack_prefix P Q hQ _
      · rfl

theorem pairLoop_prefix (comp : Cmp K) (P : List (Sample K)) : ∀ (is js : List (Sample K)) (last : Chosen)
    (pi pj : Option (Sample K)) (Q : List (Sample K)), Q ≠ [] →
    minmaxPairLoop comp ⟨P ++ Q⟩ last pi pj is js =
      (minmaxPairLoop comp ⟨Q⟩ last pi pj is js).map' fun z => ⟨P ++ z.samples⟩ := by
  intro is
  induction is with
  | nil => intro js last pi pj Q _; simp [minmaxPairLoop, Outcome.map']
  | cons i is ih =>
    intro js last pi pj Q hQ
    cases js with
    | nil => simp [minmaxPairLoop, Outcome.map']
    | cons j js =>
      have step : ∀ (a b : Option (Sample K)) (t : D K) (c : Bool) (w : Sample K) (l : Chosen),
          ((if c then insertCrossing ⟨P ++ Q⟩ a b t else .ok ⟨P ++ Q⟩) >>= fun out => out.pushBack w >>= fun out =>
            minmaxPairLoop comp out l (some i) (some j) is js) =
          ((if c then insertCrossing ⟨Q⟩ a b t else .ok ⟨Q⟩) >>= fun out => out.pushBack w >>= fun out =>
            minmaxPairLoop comp out l (some i) (some j) is js).map' fun z => ⟨P ++ z.samples⟩ := by
        intro a b t c w l
        have aux : ∀ Q : List (Sample K), Q ≠ [] → ((⟨P ++ Q⟩ : Signal K).pushBack w >>= fun out =>
            minmaxPairLoop comp out l (some i) (some j) is js) =
          ((⟨Q⟩ : Signal K).pushBack w >>= fun out =>
            minmaxPairLoop comp out l (some i) (some j) is js).map' fun z => ⟨P ++ z.samples⟩ := by
          intro Q hQ
          rw [pushBack_prefix P Q hQ]
          cases h : (⟨Q⟩ : Signal K).pushBack w with
          | ok o =>
            have hne := pushBack_ne h
            exact ih js l _ _ o.samples hne
          | _ => rfl
        cases c with
        | false => exact aux Q hQ
        | true =>
          simp only [if_true]
          rw [insertCrossing_prefix P Q hQ]
          cases h : insertCrossing (⟨Q⟩ : Signal K) a b t with
          | ok o => exact aux o.samples (insertCrossing_ne hQ h)
          | _ => rfl
      rw [minmaxPairLoop_cons, minmaxPairLoop_cons]
      split
      · have := step pj pi i.time (decide (last = .Y)) i .X
        simpa using this
      · have := step pi pj j.time (decide (last = .X)) j .Y
        simpa using this

/-- The loop reaches every position. -/
theorem pairLoop_reaches (comp : Cmp K) {z : Signal K} : ∀ (p1 p2 is js : List (Sample K)) (out : Signal K)
    (last : Chosen) (pi pj : Option (Sample K)), p1.length = p2.length →
    minmaxPairLoop comp out last pi pj (p1 ++ is) (p2 ++ js) = .ok z →
    ∃ out last pi pj, minmaxPairLoop comp out last pi pj is js = .ok z
  | [], p2, is, js, out, last, pi, pj, hl, h => by
    obtain rfl : p2 = [] := List.eq_nil_of_length_eq_zero hl.symm
    exact ⟨out, last, pi, pj, h⟩
  | a :: p1, [], is, js, out, last, pi, pj, hl, h => by simp at hl
  | a :: p1, b :: p2, is, js, out, last, pi, pj, hl, h => by
    rw [List.cons_append, List.cons_append, minmaxPairLoop_cons] at h
    split at h
    · simp only [Outcome.bind_eq_ok] at h
      obtain ⟨o, -, o', -, h⟩ := h
      exact pairLoop_reaches comp p1 p2 is js _ _ _ _ (by simpa using hl) h
    · simp only [Outcome.bind_eq_ok] at h
      obtain ⟨o, -, o', -, h⟩ := h
      exact pairLoop_reaches comp p1 p2 is js _ _ _ _ (by simpa using hl) h

theorem pushBack_shape {o o' : Signal K} {w : Sample K} (h : o.pushBack w = .ok o') :
    ∃ P, o'.samples = P ++ [⟨w.time, w.value, 0⟩] := by
  unfold Signal.pushBack at h
  split at h
  · simp only [Outcome.ok.injEq] at h; subst h; exact ⟨[], rfl⟩
  · split at h
    · cases h
    · simp only [Outcome.ok.injEq] at h; subst h
      exact ⟨_, by rw [show ∀ (l : List (Sample K)) a b, l ++ [a, b] = (l ++ [a]) ++ [b] by simp]⟩

/-- The first sample of the result stays where it is. -/
theorem pairLoop_head (comp : Cmp K) {z : Signal K} : ∀ (is js : List (Sample K)) (out : Signal K)
    (last : Chosen) (pi pj : Option (Sample K)), out.samples ≠ [] →
    minmaxPairLoop comp out last pi pj is js = .ok z →
    z.samples.head?.map Sample.time = out.samples.head?.map Sample.time := by
  have push : ∀ (o o' : Signal K) (w : Sample K), o.samples ≠ [] → o.pushBack w = .ok o' →
      o'.samples.head?.map Sample.time = o.samples.head?.map Sample.time := by
    intro o o' w hne h
    have := congrArg (fun l => l.head?.map Prod.fst) (pushBack_tv h)
    cases ho : o.samples with
    | nil => exact absurd ho hne
    | cons a l =>
      cases ho' : o'.samples with
      | nil => exact absurd ho' (pushBack_ne h)
      | cons a' l' => rw [ho, ho'] at this; simpa [tv] using this
  have ins : ∀ (o o' : Signal K) (a b : Option (Sample K)) (t : D K), o.samples ≠ [] →
      insertCrossing o a b t = .ok o' → o'.samples.head?.map Sample.time = o.samples.head?.map Sample.time := by
    intro o o' a b t hne h
    unfold insertCrossing at h
    simp only [Outcome.bind_eq_ok] at h
    obtain ⟨s, -, p, -, h⟩ := h
    split at h
    · exact push _ _ _ hne h
    · simp only [Outcome.pure_eq_ok, Outcome.ok.injEq] at h; subst h; rfl
  intro is
  induction is with
  | nil => intro js out last pi pj _ h; simp [minmaxPairLoop] at h; rw [h]
  | cons i is ih =>
    intro js out last pi pj hne h
    cases js with
    | nil => simp [minmaxPairLoop] at h; rw [h]
    | cons j js =>
      rw [minmaxPairLoop_cons] at h
      split at h
      · simp only [Outcome.bind_eq_ok] at h
        obtain ⟨o, h1, o', h2, h3⟩ := h
        rw [ih js o' _ _ _ (pushBack_ne h2) h3]
        split at h1
        · rw [push o o' _ (insertCrossing_ne hne h1) h2, ins out o _ _ _ hne h1]
        · simp only [Outcome.ok.injEq] at h1; subst h1
          exact push out o' _ hne h2
      · simp only [Outcome.bind_eq_ok] at h
        obtain ⟨o, h1, o', h2, h3⟩ := h
        rw [ih js o' _ _ _ (pushBack_ne h2) h3]
        split at h1
        · rw [push o o' _ (insertCrossing_ne hne h1) h2, ins out o _ _ _ hne h1]
        · simp only [Outcome.ok.injEq] at h1; subst h1
          exact push out o' _ hne h2

theorem cut_pairLoop (comp : Cmp K) {t : D K} {z : Signal K} {p1 p2 is js : List (Sample K)} {i j : Sample K}
    (hl : p1.length = p2.length) (hi : i.time = t) (hj : j.time = t)
    (h : minmaxPairLoop comp Signal.empty .NONE none none (p1 ++ i :: is) (p2 ++ j :: js) = .ok z) :
    ∃ z', minmaxPairLoop comp Signal.empty .NONE none none (i :: is) (j :: js) = .ok z' ∧ Cut t z z' := by
  obtain ⟨out, last, pi, pj, h⟩ := pairLoop_reaches comp p1 p2 _ _ _ _ _ _ hl h
  have fin : ∀ (o o' : Signal K) (w : Sample K) (l : Chosen), w.time = t → o.pushBack w = .ok o' →
      minmaxPairLoop comp o' l (some i) (some j) is js = .ok z →
      ∃ z', minmaxPairLoop comp ⟨[⟨w.time, w.value, 0⟩]⟩ l (some i) (some j) is js = .ok z' ∧ Cut t z z' := by
    intro o o' w l hw h2 h3
    obtain ⟨P, hP⟩ := pushBack_shape h2
    obtain ⟨os⟩ := o'
    dsimp only at hP
    subst hP
    rw [pairLoop_prefix comp P _ _ _ _ _ _ (by simp)] at h3
    cases h4 : minmaxPairLoop comp ⟨[⟨w.time, w.value, 0⟩]⟩ l (some i) (some j) is js with
    | ok z' =>
      rw [h4] at h3
      have e : (⟨P ++ z'.samples⟩ : Signal K) = z := by injection h3
      refine ⟨z', rfl, ?_⟩
      have hh := pairLoop_head comp _ _ _ _ _ _ (by simp) h4
      cases hz : z'.samples with
      | nil => rw [hz] at hh; simp at hh
      | cons a suf =>
        rw [hz] at hh
        refine ⟨P, a, suf, by rw [← e, hz], hz, ?_⟩
        simp at hh
        rw [hh, hw]
    | _ => rw [h4] at h3; cases h3
  rw [minmaxPairLoop_cons] at h ⊢
  have h0 : ∀ w : Sample K, (Signal.empty : Signal K).pushBack w = .ok ⟨[⟨w.time, w.value, 0⟩]⟩ := by
    intro w; simp [Signal.pushBack, Signal.empty]
  split at h
  · next hc =>
    simp only [Outcome.bind_eq_ok] at h
    obtain ⟨o, -, o', h2, h3⟩ := h
    obtain ⟨z', h4, h5⟩ := fin o o' i .X hi h2 h3
    refine ⟨z', ?_, h5⟩
    rw [if_pos hc, if_neg (by simp), Outcome.bind_ok, h0, Outcome.bind_ok, h4]
  · next hc =>
    simp only [Outcome.bind_eq_ok] at h
    obtain ⟨o, -, o', h2, h3⟩ := h
    obtain ⟨z', h4, h5⟩ := fin o o' j .Y hj h2 h3
    refine ⟨z', ?_, h5⟩
    rw [if_neg hc, if_neg (by simp), Outcome.bind_ok, h0, Outcome.bind_ok, h4]

theorem cut_pair {nd : Bool} {comp : Cmp K} {t : D K} {x x' y y' z : Signal K} (hx : FinT x) (hy : FinT y)
    (hx' : FinT x') (hy' : FinT y') (cx : Cut t x x') (cy : Cut t y y')
    (h : minmaxPair nd comp x y false = .ok z) :
    ∃ z', minmaxPair nd comp x' y' false = .ok z' ∧ Cut t z z' := by
  rw [minmaxPair_finT nd comp hx hy] at h
  simp only [Outcome.bind_eq_ok] at h
  obtain ⟨⟨u, v⟩, h1, h2⟩ := h
  obtain ⟨p1, p2, i, is, j, js, e1, e2, e3, e4, e5, e6⟩ := cut_synchronize hx hy cx cy h1
  rw [e2, e3] at h2
  rw [minmaxPair_finT nd comp hx' hy', e1, Outcome.bind_ok]
  exact cut_pairLoop comp e4 e5 e6 h2

/-! ### Until -/

theorem untilLoop_append : ∀ (l l' m m' : List (Sample K)) (a b : D K), l.length = m.length →
    ∃ a' b', untilLoop a b (l ++ l') (m ++ m') = untilLoop a b l m ++ untilLoop a' b' l' m'
  | [], l', m, m', a, b, h => by
    obtain rfl : m = [] := List.eq_nil_of_length_eq_zero h.symm
    exact ⟨a, b, by simp [untilLoop]⟩
  | _ :: _, _, [], _, _, _, h => by simp at h
  | i :: l, l', j :: m, m', a, b, h => by
    rw [List.cons_append, List.cons_append, untilLoop, untilLoop]
    obtain ⟨a', b', e⟩ := untilLoop_append l l' m m' _ _ (by simpa using h)
    exact ⟨a', b', by rw [e]; rfl⟩

theorem cut_until {nd : Bool} {t : D K} {x x' y y' z : Signal K} (hx : FinT x) (hy : FinT y)
    (hx' : FinT x') (hy' : FinT y') (cx : Cut t x x') (cy : Cut t y y')
    (h : computeUntil nd x y = .ok z) :
    ∃ z', computeUntil nd x' y' = .ok z' ∧ Cut t z z' := by
  rw [computeUntil_finT nd hx hy] at h
  simp only [Outcome.bind_eq_ok] at h
  obtain ⟨⟨u, v⟩, h1, h2⟩ := h
  obtain ⟨hs, -⟩ := synchronize_synced hx hy h1
  have hl := synced_length _ _ hs
  obtain ⟨p1, p2, i, is, j, js, e1, e2, e3, e4, e5, e6⟩ := cut_synchronize hx hy cx cy h1
  rw [e2, e3] at hl
  simp only [List.length_append, List.length_cons, e4] at hl
  rw [computeUntil_finT nd hx' hy', e1, Outcome.bind_ok]
  dsimp only at h2 ⊢
  rw [e2, e3, List.reverse_append, List.reverse_append] at h2
  obtain ⟨a', b', e⟩ := untilLoop_append (i :: is).reverse p1.reverse (j :: js).reverse p2.reverse .pinf .ninf
    (by simp; omega)
  rw [e, List.reverse_append] at h2
  have ht := untilLoop_times (i :: is).reverse (j :: js).reverse .pinf .ninf (by simp; omega)
  generalize untilLoop .pinf .ninf (i :: is).reverse (j :: js).reverse = L at *
  have ht' : L.reverse.map Sample.time = (i :: is).map Sample.time := by
    rw [List.map_reverse, ht, ← List.map_reverse, List.reverse_reverse]
  cases hL : L.reverse with
  | nil => rw [hL] at ht'; simp at ht'
  | cons c L' =>
    rw [hL] at ht' h2
    simp only [List.map_cons, List.cons.injEq] at ht'
    rw [← e5, ← ht'.1]
    exact cut_ofSamples h2

/-! ### Any number of operands -/

theorem Cut.wf {t : D K} {x x' : Signal K} (hc : Cut t x x') (hx : FinT x) : FinTimes x'.samples :=
  (hc.finT hx).2.1

theorem cut_fold {nd : Bool} {comp : Cmp K} {pick : D K → D K → D K} (hp : OfValues comp pick) {t : D K} :
    ∀ (xs xs' : List (Signal K)) (acc acc' z : Signal K), FinT acc → FinT acc' → (∀ x ∈ xs, FinT x) →
    (∀ x ∈ xs', FinT x) → Cut t acc acc' → List.Forall₂ (Cut t) xs xs' →
    minmaxFold nd comp false acc xs = .ok z → ∃ z', minmaxFold nd comp false acc' xs' = .ok z' ∧ Cut t z z' := by
  intro xs
  induction xs with
  | nil =>
    intro xs' acc acc' z _ _ _ _ ca cs h
    cases cs
    simp only [minmaxFold, Outcome.ok.injEq] at h
    subst h
    exact ⟨acc', rfl, ca⟩
  | cons x xs ih =>
    intro xs' acc acc' z ha ha' hx hx' ca cs h
    cases cs with
    | @cons _ x' _ xs' c cs =>
      rw [minmaxFold] at h
      simp only [Outcome.bind_eq_ok] at h
      obtain ⟨a, h1, h2⟩ := h
      obtain ⟨a', h3, c'⟩ := cut_pair ha (hx x (by simp)) ha' (hx' x' (by simp)) ca c h1
      rw [minmaxFold, h3, Outcome.bind_ok]
      exact ih xs' a a' z (pair_any hp ha (hx x (by simp)) h1).1 (pair_any hp ha' (hx' x' (by simp)) h3).1
        (fun y hy => hx y (by simp [hy])) (fun y hy => hx' y (by simp [hy])) c' cs h2

theorem cut_vec {nd : Bool} {comp : Cmp K} {pick : D K → D K → D K} (hp : OfValues comp pick) {t : D K}
    {xs xs' : List (Signal K)} {z : Signal K} (hne : xs ≠ []) (hx : ∀ x ∈ xs, FinT x) (hx' : ∀ x ∈ xs', FinT x)
    (cs : List.Forall₂ (Cut t) xs xs') (h : minmaxVec nd comp xs false = .ok z) :
    ∃ z', minmaxVec nd comp xs' false = .ok z' ∧ Cut t z z' := by
  cases cs with
  | nil => exact absurd rfl hne
  | @cons x x' xs xs' c cs =>
    cases cs with
    | nil =>
      simp only [minmaxVec, Outcome.ok.injEq] at h ⊢
      subst h
      exact ⟨x', rfl, c⟩
    | @cons y y' xs xs' c' cs =>
      cases cs with
      | nil =>
        rw [minmaxVec] at h ⊢
        exact cut_pair (hx x (by simp)) (hx y (by simp)) (hx' x' (by simp)) (hx' y' (by simp)) c c' h
      | @cons w w' xs xs' c'' cs =>
        rw [minmaxVec] at h ⊢
        · exact cut_fold hp _ _ _ _ _ (hx x (by simp)) (hx' x' (by simp)) (fun y hy => hx y (by simp_all))
            (fun y hy => hx' y (by simp_all)) c (.cons c' (.cons c'' cs)) h
        all_goals simp

/-! ### Temporal operators -/

theorem cut_temporal [SaneArith K] {r r' : RobustnessOp K} {comp : Cmp K} {t : D K} {y y' z : Signal K}
    (hy : FinTimes y.samples) (hy' : FinTimes y'.samples) (c : Cut t y y') {i : Interval K}
    (h : r.temporal comp y i = .ok z) : ∃ z', r'.temporal comp y' i = .ok z' ∧ Cut t z z' := by
  obtain ⟨z', h1, h2⟩ := cut_minmaxSeq c (temporal_sane_ok hy h)
  refine ⟨z', ?_, h2⟩
  rcases temporal_sane r' comp hy' i with h3 | ⟨h3, h4, -⟩
  · rw [h3, h1]
  · exfalso
    unfold RobustnessOp.temporal at h
    simp only [h4, Bool.not_true, Bool.false_eq_true, if_false] at h
    have ha : i.asDouble.1 = .fin 0 := by
      simp only [Interval.hasValue, Interval.isZeroToInf, Bool.and_eq_true] at h4
      obtain ⟨h1, -⟩ := h4
      unfold Interval.asDouble
      cases hl : i.low with
      | ull n =>
        rw [hl] at h1
        simp only [Interval.numIsZero, beq_iff_eq] at h1
        simp [Interval.numAsDouble, h1, SaneArith.rnd_zero]
      | dbl d =>
        rw [hl] at h1
        simp only [Interval.numIsZero, D.zero_def] at h1
        exact (D.eq_iff.1 h1).1
    rw [ha, h3] at h
    have : ((.ninf : D K) - .fin 0) = .ninf := rfl
    simp [this, D.zero_def, D.lt] at h

/-! ### Whole formulas -/

theorem lookup_sinceTrace (t : D K) (n : String) : ∀ trace : Trace K,
    (sinceTrace t trace).lookup n = (trace.lookup n).map (since t)
  | [] => rfl
  | (m, x) :: trace => by
    show List.lookup n ((m, since t x) :: sinceTrace t trace) = _
    rw [List.lookup, List.lookup]
    split
    · rfl
    · exact lookup_sinceTrace t n trace

/-- For increasing timestamps the rest is what comes from the sample at `t` on. -/
theorem since_split {t : D K} {x : Signal K} (hs : SortedT x.samples) (hn : t ≠ .nan) (h : SampledAt t x) :
    ∃ pre a suf, x.samples = pre ++ a :: suf ∧ (since t x).samples = a :: suf ∧ a.time = t := by
  obtain ⟨a, ha, rfl⟩ := h
  obtain ⟨pre, suf, e⟩ := List.append_of_mem ha
  refine ⟨pre, a, suf, e, ?_, rfl⟩
  rw [e] at hs
  unfold since
  simp only
  rw [e, List.filter_append, List.filter_eq_nil_iff.2, List.nil_append, List.filter_eq_self.2]
  · intro b hb
    rcases List.mem_cons.1 hb with rfl | hb
    · exact D.le_refl hn
    · exact D.le_of_lt ((sortedT_cons.1 (sortedT_append.1 hs).2.1).1 b hb)
  · intro b hb
    have h1 := (sortedT_append.1 hs).2.2 b hb a (by simp)
    rw [Bool.not_eq_true, D.not_le_iff_lt (D.lt_ne_nan h1).1 hn]
    exact h1

theorem cut_since {t : D K} {z z' : Signal K} (hz : FinT z) (c : Cut t z z') : z' = since t z ∧ SampledAt t z := by
  obtain ⟨pre, a, suf, e1, e2, rfl⟩ := c
  have hm : a ∈ z.samples := by rw [e1]; simp
  refine ⟨?_, a, hm, rfl⟩
  have hn := hz.2.noNaN a hm
  have hs := hz.sorted
  rw [e1] at hs
  obtain ⟨zs⟩ := z
  obtain ⟨zs'⟩ := z'
  dsimp only at e1 e2
  subst e1 e2
  unfold since
  simp only
  congr 1
  rw [List.filter_append, List.filter_eq_nil_iff.2, List.nil_append, List.filter_eq_self.2]
  · intro b hb
    rcases List.mem_cons.1 hb with rfl | hb
    · exact D.le_refl hn
    · exact D.le_of_lt ((sortedT_cons.1 (sortedT_append.1 hs).2.1).1 b hb)
  · intro b hb
    have h1 := (sortedT_append.1 hs).2.2 b hb a (by simp)
    rw [Bool.not_eq_true, D.not_le_iff_lt (D.lt_ne_nan h1).1 hn]
    exact h1

theorem untilOp_same {r r' : RobustnessOp K} {x y z x' y' : Signal K} {i : Interval K}
    (h : r.untilOp x y i = .ok z) : r'.untilOp x' y' i = computeUntil r'.ndebug x' y' := by
  unfold RobustnessOp.untilOp at h ⊢
  split at h
  · next h1 => rw [if_pos h1]
  · next h1 =>
    rw [if_neg h1]
    simp only at h ⊢
    split at h
    · next h2 => rw [if_pos h2]
    · simp [computeUntilBounded] at h

/-- Finite timestamps of all results. -/
def AllFin (r : RobustnessOp K) : Prop := ∀ (e : Expr K) (z : Signal K), r.compute e = .ok z → FinT z

theorem allFin [SaneArith K] {nd : Bool} {fuel : Nat} {trace : Trace K} (ht : TraceFin trace) :
    AllFin ⟨nd, fuel, (minMaxTime trace).1, (minMaxTime trace).2, trace⟩ := fun e z h =>
  (compute_any ⟨nd, fuel, (minMaxTime trace).1, (minMaxTime trace).2, trace⟩
    (fun n => ((trace.lookup n).map fun x => x.samples.length).getD 0) ht
    (minMaxTime_fin ht) (by intro n x h; simp only at h; simp [h]) e z h).1

mutual
theorem cut_compute [SaneArith K] {r r' : RobustnessOp K} {t : D K} (hn : t ≠ .nan) (hf : AllFin r) (hf' : AllFin r')
    (hr : r'.trace = sinceTrace t r.trace) (hd : r'.ndebug = r.ndebug) : ∀ (e : Expr K) (z : Signal K),
    ConstFree e → Arity e → (∀ n x, Uses n e → r.trace.lookup n = some x → SampledAt t x) →
    r.compute e = .ok z → ∃ z', r'.compute e = .ok z' ∧ Cut t z z'
  | .const b, z, hc, _, _, _ => by cases hc
  | .pred n op c, z, _, _, hs, h => by
    have hz := hf _ _ h
    rw [RobustnessOp.compute, RobustnessOp.pred] at h ⊢
    simp only [Outcome.bind_eq_ok] at h
    obtain ⟨x, h1, h⟩ := h
    have hl : r.trace.lookup n = some x := by
      unfold Trace.at_ at h1
      split at h1
      · cases h1
      · simp only [Outcome.ok.injEq] at h1; subst h1; assumption
    have hxs : SortedT x.samples := by
      have := hz.sorted
      unfold SortedT at this ⊢
      rw [ofSamples_times h] at this
      simpa [Function.comp_def] using this
    have hat : r'.trace.at_ n = .ok (since t x) := by
      unfold Trace.at_
      rw [hr, lookup_sinceTrace, hl]; rfl
    rw [hat, Outcome.bind_ok]
    obtain ⟨pre, a, suf, e1, e2, e3⟩ := since_split hxs hn (hs n x (.pred op c) hl)
    rw [e1, List.map_append, List.map_cons] at h
    rw [e2, List.map_cons]
    obtain ⟨z', h3, h4⟩ := cut_ofSamples h
    exact ⟨z', h3, by rw [← e3]; exact h4⟩
  | .not e, z, hc, ha, hs, h => by
    rw [RobustnessOp.compute] at h ⊢
    simp only [Outcome.bind_eq_ok] at h
    obtain ⟨x, h1, h⟩ := h
    obtain ⟨x', h2, h3⟩ := cut_compute hn hf hf' hr hd e x (by cases hc; assumption) (by cases ha; assumption)
      (fun n x hu => hs n x (.not hu)) h1
    rw [h2, Outcome.bind_ok]
    obtain ⟨pre, a, suf, e1, e2, e3⟩ := h3
    unfold RobustnessOp.negate at h ⊢
    rw [e1, List.map_append, List.map_cons] at h
    rw [e2, List.map_cons]
    obtain ⟨z', h3, h4⟩ := cut_ofSamples h
    exact ⟨z', h3, by rw [← e3]; exact h4⟩
  | .and args, z, hc, ha, hs, h => by
    rw [RobustnessOp.compute] at h ⊢
    simp only [Outcome.bind_eq_ok] at h
    obtain ⟨ys, h1, -, -, h⟩ := h
    cases hc with | and hc => ?_
    cases ha with | and hl ha => ?_
    obtain ⟨ys', h2, h3, h4, h5, h6⟩ := cut_computeArgs hn hf hf' hr hd args ys hc ha
      (fun n x e he hu => hs n x (.and he hu)) h1
    rw [h2, Outcome.bind_ok]
    have hlen : ys'.length = args.length := by rw [← h3.length_eq, h6]
    rw [hlen]
    have : assert_ r'.ndebug (args.length == args.length) = .ok () := by simp [assert_]
    rw [this, Outcome.bind_ok, hd]
    exact cut_vec ofValues_le (by rintro rfl; simp at h6; omega) h4 h5 h3 h
  | .or args, z, hc, ha, hs, h => by
    rw [RobustnessOp.compute] at h ⊢
    simp only [Outcome.bind_eq_ok] at h
    obtain ⟨ys, h1, -, -, h⟩ := h
    cases hc with | or hc => ?_
    cases ha with | or hl ha => ?_
    obtain ⟨ys', h2, h3, h4, h5, h6⟩ := cut_computeArgs hn hf hf' hr hd args ys hc ha
      (fun n x e he hu => hs n x (.or he hu)) h1
    rw [h2, Outcome.bind_ok]
    have hlen : ys'.length = args.length := by rw [← h3.length_eq, h6]
    rw [hlen]
    have : assert_ r'.ndebug (args.length == args.length) = .ok () := by simp [assert_]
    rw [this, Outcome.bind_ok, hd]
    exact cut_vec ofValues_ge (by rintro rfl; simp at h6; omega) h4 h5 h3 h
  | .always e i, z, hc, ha, hs, h => by
    rw [RobustnessOp.compute] at h ⊢
    simp only [Outcome.bind_eq_ok] at h
    obtain ⟨x, h1, h⟩ := h
    obtain ⟨x', h2, h3⟩ := cut_compute hn hf hf' hr hd e x (by cases hc; assumption) (by cases ha; assumption)
      (fun n x hu => hs n x (.always hu)) h1
    rw [h2, Outcome.bind_ok]
    exact cut_temporal (hf _ _ h1).2 (hf' _ _ h2).2 h3 h
  | .eventually e i, z, hc, ha, hs, h => by
    rw [RobustnessOp.compute] at h ⊢
    simp only [Outcome.bind_eq_ok] at h
    obtain ⟨x, h1, h⟩ := h
    obtain ⟨x', h2, h3⟩ := cut_compute hn hf hf' hr hd e x (by cases hc; assumption) (by cases ha; assumption)
      (fun n x hu => hs n x (.eventually hu)) h1
    rw [h2, Outcome.bind_ok]
    exact cut_temporal (hf _ _ h1).2 (hf' _ _ h2).2 h3 h
  | .untl a b i, z, hc, ha, hs, h => by
    rw [RobustnessOp.compute] at h ⊢
    simp only [Outcome.bind_eq_ok] at h
    obtain ⟨x, h1, y, h2, h⟩ := h
    cases hc with | untl hc1 hc2 => ?_
    cases ha with | untl ha1 ha2 => ?_
    obtain ⟨x', h3, c1⟩ := cut_compute hn hf hf' hr hd a x hc1 ha1 (fun n x hu => hs n x (.untl_left hu)) h1
    obtain ⟨y', h4, c2⟩ := cut_compute hn hf hf' hr hd b y hc2 ha2 (fun n x hu => hs n x (.untl_right hu)) h2
    rw [h3, Outcome.bind_ok, h4, Outcome.bind_ok, untilOp_same h, hd]
    exact cut_until (hf _ _ h1) (hf _ _ h2) (hf' _ _ h3) (hf' _ _ h4) c1 c2 (until_any h)

theorem cut_computeArgs [SaneArith K] {r r' : RobustnessOp K} {t : D K} (hn : t ≠ .nan) (hf : AllFin r)
    (hf' : AllFin r') (hr : r'.trace = sinceTrace t r.trace) (hd : r'.ndebug = r.ndebug) :
    ∀ (es : List (Expr K)) (ys : List (Signal K)), (∀ e ∈ es, ConstFree e) → (∀ e ∈ es, Arity e) →
    (∀ n x e, e ∈ es → Uses n e → r.trace.lookup n = some x → SampledAt t x) →
    r.computeArgs es = .ok ys → ∃ ys', r'.computeArgs es = .ok ys' ∧ List.Forall₂ (Cut t) ys ys' ∧
      (∀ y ∈ ys, FinT y) ∧ (∀ y ∈ ys', FinT y) ∧ ys.length = es.length
  | [], ys, _, _, _, h => by
    simp only [RobustnessOp.computeArgs, Outcome.ok.injEq] at h
    subst h
    exact ⟨[], rfl, .nil, by simp, by simp, rfl⟩
  | e :: es, ys, hc, ha, hs, h => by
    rw [RobustnessOp.computeArgs] at h ⊢
    simp only [Outcome.bind_eq_ok] at h
    obtain ⟨y, h1, ys1, h2, h3⟩ := h
    simp only [Outcome.pure_eq_ok, Outcome.ok.injEq] at h3
    subst h3
    obtain ⟨y', h4, c1⟩ := cut_compute hn hf hf' hr hd e y (hc e (by simp)) (ha e (by simp))
      (fun n x hu => hs n x e (by simp) hu) h1
    obtain ⟨ys', h5, c2, f1, f2, hl⟩ := cut_computeArgs hn hf hf' hr hd es ys1 (fun e he => hc e (by simp [he]))
      (fun e he => ha e (by simp [he])) (fun n x e he => hs n x e (by simp [he])) h2
    rw [h4, Outcome.bind_ok, h5, Outcome.bind_ok]
    refine ⟨y' :: ys', rfl, .cons c1 c2, ?_, ?_, by simp [hl]⟩
    · intro w hw
      rcases List.mem_cons.1 hw with rfl | hw
      · exact hf _ _ h1
      · exact f1 w hw
    · intro w hw
      rcases List.mem_cons.1 hw with rfl | hw
      · exact hf' _ _ h4
      · exact f2 w hw
end

end any

end Verif
