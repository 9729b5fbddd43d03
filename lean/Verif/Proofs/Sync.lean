import Verif.Proofs.Build
import Verif.Proofs.Search

/-! # Closed form of `synchronize` -/

set_option linter.unusedSectionVars false
set_option linter.unusedSimpArgs false
set_option linter.unusedVariables false
set_option linter.unnecessarySeqFocus false

namespace Verif
open Spec

variable {K : Type} [Field K] [LinearOrder K]

/-- Strictly increasing timestamps (in particular none is NaN, if there are at least two). -/
def SortedT (l : List (Sample K)) : Prop := (l.map Sample.time).Pairwise (fun a b => a.lt b = true)

def NoNaNT (l : List (Sample K)) : Prop := ∀ a ∈ l, a.time ≠ .nan

theorem sortedT_of_ordered : (l : List (Sample K)) → Ordered l → NoNaNT l → SortedT l
  | [], _, _ => by simp [SortedT]
  | [_], _, _ => by simp [SortedT]
  | a :: b :: l, h, hn => by
    have ih := sortedT_of_ordered (b :: l) h.2 (fun x hx => hn x (by simp_all))
    simp only [SortedT, List.map_cons, List.pairwise_cons, List.mem_cons] at *
    have hab : a.time.lt b.time = true := by
      rw [← D.not_le_iff_lt (hn a (by simp)) (hn b (by simp))]; exact h.1
    refine ⟨?_, ih⟩
    rintro c (rfl | hc)
    · exact hab
    · exact D.lt_trans hab (ih.1 c hc)

theorem ordered_of_sortedT : (l : List (Sample K)) → SortedT l → Ordered l
  | [], _ => trivial
  | [_], _ => trivial
  | a :: b :: l, h => by
    simp only [SortedT, List.map_cons, List.pairwise_cons, List.mem_cons] at h
    have hab := h.1 b.time (by simp)
    have hn := D.lt_ne_nan hab
    refine ⟨(D.not_le_iff_lt hn.1 hn.2).2 hab, ordered_of_sortedT (b :: l) ?_⟩
    simpa only [SortedT, List.map_cons, List.pairwise_cons, List.mem_cons] using h.2

/-- The union of two increasing lists, up to the end of the shorter one. -/
def mergeT : List (D K) → List (D K) → List (D K)
  | [], _ => []
  | _, [] => []
  | a :: as, b :: bs =>
    if a.eq b then a :: mergeT as bs
    else if a.lt b then a :: mergeT as (b :: bs)
    else b :: mergeT (a :: as) bs
termination_by as bs => as.length + bs.length

@[simp] theorem mergeT_nil_left (bs : List (D K)) : mergeT [] bs = [] := by rw [mergeT]
@[simp] theorem mergeT_nil_right (as : List (D K)) : mergeT as [] = [] := by
  cases as <;> simp [mergeT]

theorem mergeT_cons (a b : D K) (as bs : List (D K)) : mergeT (a :: as) (b :: bs) =
    if a.eq b then a :: mergeT as bs
    else if a.lt b then a :: mergeT as (b :: bs)
    else b :: mergeT (a :: as) bs := by rw [mergeT]

theorem mergeT_comm (as bs : List (D K)) (ha : ∀ a ∈ as, a ≠ .nan) (hb : ∀ b ∈ bs, b ≠ .nan) :
    mergeT as bs = mergeT bs as := by
  induction as, bs using mergeT.induct with
  | case1 => simp
  | case2 => simp
  | case3 a as b bs h ih =>
    rw [mergeT_cons, mergeT_cons]
    obtain ⟨rfl, _⟩ := D.eq_iff.1 h
    simp only [h, if_true]
    rw [ih (by simp_all) (by simp_all)]
  | case4 a as b bs h h' ih =>
    rw [mergeT_cons, mergeT_cons]
    have e : ¬ (b.eq a = true) := by
      rw [D.eq_iff]; rintro ⟨rfl, _⟩; simp [D.lt_irrefl] at h'
    simp only [h, h', e, if_true, if_false, D.lt_asymm h', Bool.false_eq_true]
    rw [ih (by simp_all) (by simp_all)]
  | case5 a as b bs h h' ih =>
    rw [mergeT_cons, mergeT_cons]
    have hna : a ≠ .nan := ha a (by simp)
    have hnb : b ≠ .nan := hb b (by simp)
    have hlt : b.lt a = true := by
      rcases D.trichotomy hna hnb with h1 | h1 | h1
      · exact absurd h1 h'
      · exact absurd (D.eq_iff.2 ⟨h1, hna⟩) h
      · exact h1
    have e : ¬ (b.eq a = true) := by
      rw [D.eq_iff]; rintro ⟨rfl, _⟩; simp [D.lt_irrefl] at hlt
    simp only [h, h', e, hlt, if_true, Bool.false_eq_true, if_false]
    rw [ih (by simp_all) (by simp_all)]

theorem mem_mergeT_sub (as bs : List (D K)) : ∀ t ∈ mergeT as bs, t ∈ as ∨ t ∈ bs := by
  induction as, bs using mergeT.induct with
  | case1 => simp
  | case2 => simp
  | case3 a as b bs h ih =>
    intro t ht; rw [mergeT_cons] at ht; simp only [h, if_true, List.mem_cons] at ht ⊢
    rcases ht with rfl | ht
    · simp
    · have := ih t ht; tauto
  | case4 a as b bs h h' ih =>
    intro t ht; rw [mergeT_cons] at ht
    simp only [h, h', if_true, if_false, List.mem_cons, Bool.false_eq_true] at ht ⊢
    rcases ht with rfl | ht
    · simp
    · have := ih t ht; simp at this; tauto
  | case5 a as b bs h h' ih =>
    intro t ht; rw [mergeT_cons] at ht
    simp only [h, h', if_true, if_false, List.mem_cons, Bool.false_eq_true] at ht ⊢
    rcases ht with rfl | ht
    · simp
    · have := ih t ht; simp at this; tauto

abbrev SortedD (l : List (D K)) : Prop := l.Pairwise (fun a b => a.lt b = true)

theorem D.lt_of_not_eq_not_lt {a b : D K} (ha : a ≠ .nan) (hb : b ≠ .nan) (h : ¬ a.eq b = true)
    (h' : ¬ a.lt b = true) : b.lt a = true := by
  rcases D.trichotomy ha hb with h1 | h1 | h1
  · exact absurd h1 h'
  · exact absurd (D.eq_iff.2 ⟨h1, ha⟩) h
  · exact h1

theorem sorted_mergeT (as bs : List (D K)) (ha : ∀ a ∈ as, a ≠ .nan) (hb : ∀ b ∈ bs, b ≠ .nan)
    (sa : SortedD as) (sb : SortedD bs) : SortedD (mergeT as bs) := by
  induction as, bs using mergeT.induct with
  | case1 => simp
  | case2 => simp
  | case3 a as b bs h ih =>
    rw [mergeT_cons]; simp only [h, if_true]
    obtain ⟨rfl, _⟩ := D.eq_iff.1 h
    simp only [SortedD, List.pairwise_cons] at *
    refine ⟨fun t ht => ?_, ih (by simp_all) (by simp_all) sa.2 sb.2⟩
    rcases mem_mergeT_sub _ _ t ht with h | h
    · exact sa.1 t h
    · exact sb.1 t h
  | case4 a as b bs h h' ih =>
    rw [mergeT_cons]; simp only [h, h', if_true, if_false, Bool.false_eq_true]
    simp only [SortedD, List.pairwise_cons] at *
    refine ⟨fun t ht => ?_, ih (by simp_all) hb sa.2 sb⟩
    rcases mem_mergeT_sub _ _ t ht with h | h
    · exact sa.1 t h
    · simp at h; rcases h with rfl | h
      · exact h'
      · exact D.lt_trans h' (sb.1 t h)
  | case5 a as b bs h h' ih =>
    rw [mergeT_cons]; simp only [h, h', if_false, Bool.false_eq_true]
    have hlt := D.lt_of_not_eq_not_lt (ha a (by simp)) (hb b (by simp)) h h'
    simp only [SortedD, List.pairwise_cons] at *
    refine ⟨fun t ht => ?_, ih ha (by simp_all) sa sb.2⟩
    rcases mem_mergeT_sub _ _ t ht with h | h
    · simp at h; rcases h with rfl | h
      · exact hlt
      · exact D.lt_trans hlt (sa.1 t h)
    · exact sb.1 t h

/-- The merged times are those of either list that are at most the last one of both lists. -/
theorem mem_mergeT (as bs : List (D K)) (ha : ∀ a ∈ as, a ≠ .nan) (hb : ∀ b ∈ bs, b ≠ .nan)
    (sa : SortedD as) (sb : SortedD bs) (t : D K) :
    t ∈ mergeT as bs ↔
      (t ∈ as ∨ t ∈ bs) ∧ (∃ a ∈ as, t.le a = true) ∧ ∃ b ∈ bs, t.le b = true := by
  induction as, bs using mergeT.induct with
  | case1 => simp
  | case2 => simp
  | case3 a as b bs h ih =>
    rw [mergeT_cons]; simp only [h, if_true]
    obtain ⟨rfl, hn⟩ := D.eq_iff.1 h
    simp only [SortedD, List.pairwise_cons] at *
    rw [List.mem_cons, ih (by simp_all) (by simp_all) sa.2 sb.2]
    simp only [List.mem_cons, exists_eq_or_imp]
    have hle := D.le_refl hn
    constructor
    · rintro (rfl | ⟨h1, h2, h3⟩)
      · simp [hle]
      · exact ⟨h1.imp .inr .inr, .inr h2, .inr h3⟩
    · rintro ⟨h1, h2, h3⟩
      by_cases hta : t = a
      · exact .inl hta
      · have h1' : t ∈ as ∨ t ∈ bs := h1.imp (·.resolve_left hta) (·.resolve_left hta)
        have hlt : a.lt t = true := by
          rcases h1' with h | h
          · exact sa.1 t h
          · exact sb.1 t h
        have hnle : ¬ t.le a = true := by
          intro hc; have := D.lt_of_lt_of_le hlt hc; simp [D.lt_irrefl] at this
        exact .inr ⟨h1', h2.resolve_left hnle, h3.resolve_left hnle⟩
  | case4 a as b bs h h' ih =>
    rw [mergeT_cons]; simp only [h, h', if_true, if_false, Bool.false_eq_true]
    simp only [SortedD, List.pairwise_cons] at *
    rw [List.mem_cons, ih (by simp_all) hb sa.2 sb]
    have hle := D.le_refl (ha a (by simp))
    constructor
    · rintro (rfl | ⟨h1, h2, h3⟩)
      · exact ⟨by simp, ⟨t, by simp, hle⟩, b, by simp, D.le_of_lt h'⟩
      · refine ⟨h1.imp (List.mem_cons_of_mem _) id, ?_, h3⟩
        obtain ⟨a', h2, h2'⟩ := h2; exact ⟨a', by simp [h2], h2'⟩
    · rintro ⟨h1, h2, h3⟩
      by_cases hta : t = a
      · exact .inl hta
      · have h1' : t ∈ as ∨ t ∈ b :: bs :=
          h1.imp (fun h => (List.mem_cons.1 h).resolve_left hta) id
        have hlt : a.lt t = true := by
          rcases h1' with h | h
          · exact sa.1 t h
          · simp at h; rcases h with rfl | h
            · exact h'
            · exact D.lt_trans h' (sb.1 t h)
        have hnle : ¬ t.le a = true := by
          intro hc; have := D.lt_of_lt_of_le hlt hc; simp [D.lt_irrefl] at this
        refine .inr ⟨h1', ?_, h3⟩
        obtain ⟨a', h2, h2'⟩ := h2
        simp at h2; rcases h2 with rfl | h2
        · exact absurd h2' hnle
        · exact ⟨a', h2, h2'⟩
  | case5 a as b bs h h' ih =>
    rw [mergeT_cons]; simp only [h, h', if_false, Bool.false_eq_true]
    have hlt' := D.lt_of_not_eq_not_lt (ha a (by simp)) (hb b (by simp)) h h'
    simp only [SortedD, List.pairwise_cons] at *
    rw [List.mem_cons, ih ha (by simp_all) sa sb.2]
    have hle := D.le_refl (hb b (by simp))
    constructor
    · rintro (rfl | ⟨h1, h2, h3⟩)
      · exact ⟨by simp, ⟨a, by simp, D.le_of_lt hlt'⟩, t, by simp, hle⟩
      · refine ⟨h1.imp id (List.mem_cons_of_mem _), h2, ?_⟩
        obtain ⟨a', h2, h2'⟩ := h3; exact ⟨a', by simp [h2], h2'⟩
    · rintro ⟨h1, h2, h3⟩
      by_cases hta : t = b
      · exact .inl hta
      · have h1' : t ∈ a :: as ∨ t ∈ bs :=
          h1.imp id (fun h => (List.mem_cons.1 h).resolve_left hta)
        have hlt : b.lt t = true := by
          rcases h1' with h | h
          · simp at h; rcases h with rfl | h
            · exact hlt'
            · exact D.lt_trans hlt' (sa.1 t h)
          · exact sb.1 t h
        have hnle : ¬ t.le b = true := by
          intro hc; have := D.lt_of_lt_of_le hlt hc; simp [D.lt_irrefl] at this
        refine .inr ⟨h1', h2, ?_⟩
        obtain ⟨a', h2, h2'⟩ := h3
        simp at h2; rcases h2 with rfl | h2
        · exact absurd h2' hnle
        · exact ⟨a', h2, h2'⟩

section
variable [Arith K]

/-- The value at `t` as computed by the code: that of the sample at `t`, or interpolated from the
last sample before `t`. -/
def evalD : List (Sample K) → D K → D K
  | [], _ => .nan
  | [a], t => if a.time.eq t then a.value else a.interpolate t
  | a :: b :: rest, t =>
    if b.time.le t then evalD (b :: rest) t
    else if a.time.eq t then a.value else a.interpolate t

theorem evalD_cons_of_le (a : Sample K) {l : List (Sample K)} {b : Sample K} {r} (h : l = b :: r)
    {t : D K} (hb : b.time.le t = true) : evalD (a :: l) t = evalD l t := by
  subst h; rw [evalD, if_pos hb]

theorem evalD_head (a : Sample K) (l : List (Sample K)) (hn : a.time ≠ .nan)
    (h : SortedT (a :: l)) : evalD (a :: l) a.time = a.value := by
  have he : a.time.eq a.time = true := D.eq_iff.2 ⟨rfl, hn⟩
  cases l with
  | nil => simp [evalD, he]
  | cons b l =>
    simp only [SortedT, List.map_cons, List.pairwise_cons, List.mem_cons] at h
    have := h.1 b.time (by simp)
    rw [evalD, if_neg, if_pos he]
    rw [Bool.not_eq_true, D.not_le_iff_lt hn (D.lt_ne_nan this).2]; exact this

theorem evalD_between (a b : Sample K) (l : List (Sample K)) {t : D K} (h1 : a.time.lt t = true)
    (h2 : t.lt b.time = true) : evalD (a :: b :: l) t = a.interpolate t := by
  have hn := D.lt_ne_nan h2
  rw [evalD, if_neg, if_neg]
  · rw [D.eq_iff]; rintro ⟨h, _⟩; rw [h, D.lt_irrefl] at h1; cases h1
  · rw [Bool.not_eq_true, D.not_le_iff_lt hn.1 hn.2]; exact h2

theorem syncLoop_cons (pi pj : Option (Sample K)) (i j : Sample K) (is js : List (Sample K)) :
    syncLoop pi (i :: is) pj (j :: js) =
      if i.time.eq j.time then consPair i j (syncLoop (some i) is (some j) js)
      else if i.time.lt j.time then do
        let p ← derefPrev pj
        consPair i (.mk2 i.time (p.interpolate i.time)) (syncLoop (some i) is pj (j :: js))
      else if j.time.lt i.time then do
        let p ← derefPrev pi
        consPair (.mk2 j.time (p.interpolate j.time)) j (syncLoop pi (i :: is) (some j) js)
      else .diverge := by
  simp only [syncLoop, syncInner]

@[simp] theorem syncLoop_nil_left (pi pj : Option (Sample K)) (js : List (Sample K)) :
    syncLoop pi [] pj js = .ok ([], []) := by simp [syncLoop]

@[simp] theorem syncLoop_nil_right (pi pj : Option (Sample K)) (is : List (Sample K)) :
    syncLoop pi is pj [] = .ok ([], []) := by cases is <;> simp [syncLoop, syncInner]

theorem sortedT_cons {a : Sample K} {l : List (Sample K)} :
    SortedT (a :: l) ↔ (∀ b ∈ l, a.time.lt b.time = true) ∧ SortedT l := by
  simp [SortedT]

theorem sortedD_of_sortedT {l : List (Sample K)} (h : SortedT l) : SortedD (l.map Sample.time) := h

/-- The points of the resampled list. -/
def resample (l : List (Sample K)) (ts : List (D K)) : List (D K × D K) :=
  ts.map fun t => (t, evalD l t)

theorem resample_cons_of_le (a b : Sample K) (l : List (Sample K)) (ts : List (D K))
    (h : ∀ t ∈ ts, b.time.le t = true) : resample (a :: b :: l) ts = resample (b :: l) ts := by
  apply List.map_congr_left
  intro t ht; rw [evalD_cons_of_le a rfl (h t ht)]

/-- The main loop once both iterators have a predecessor. -/
theorem syncLoop_spec : ∀ (n : Nat) (p q : Sample K) (is js : List (Sample K)),
    is.length + js.length = n → SortedT (p :: is) → SortedT (q :: js) →
    (∀ i ∈ is, q.time.lt i.time = true) → (∀ j ∈ js, p.time.lt j.time = true) →
    ∃ xv yv, syncLoop (some p) is (some q) js = .ok (xv, yv) ∧
      xv.map tv = resample (p :: is) (mergeT (is.map Sample.time) (js.map Sample.time)) ∧
      yv.map tv = resample (q :: js) (mergeT (is.map Sample.time) (js.map Sample.time)) := by
  intro n
  induction n using Nat.strong_induction_on with
  | _ n ih =>
  intro p q is js hlen sp sq hqi hpj
  cases is with
  | nil => exact ⟨[], [], by simp, by simp [resample], by simp [resample]⟩
  | cons i is =>
  cases js with
  | nil => exact ⟨[], [], by simp, by simp [resample], by simp [resample]⟩
  | cons j js =>
  have hpi := (sortedT_cons.1 sp).1 i (by simp)
  have hqj := (sortedT_cons.1 sq).1 j (by simp)
  have si := (sortedT_cons.1 sp).2
  have sj := (sortedT_cons.1 sq).2
  have hni : i.time ≠ .nan := (D.lt_ne_nan hpi).2
  have hnj : j.time ≠ .nan := (D.lt_ne_nan hqj).2
  simp only [List.map_cons, mergeT_cons]
  rw [syncLoop_cons]
  by_cases heq : i.time.eq j.time = true
  · rw [if_pos heq, if_pos heq]
    have he : i.time = j.time := (D.eq_iff.1 heq).1
    obtain ⟨xv, yv, e, ex, ey⟩ := ih (is.length + js.length) (by subst hlen; simp; omega) i j is js
      rfl si sj (fun a ha => by rw [← he]; exact (sortedT_cons.1 si).1 a ha)
      (fun a ha => by rw [he]; exact (sortedT_cons.1 sj).1 a ha)
    refine ⟨i :: xv, j :: yv, by simp [e, consPair], ?_, ?_⟩
    · rw [resample_cons_of_le]
      · simp only [resample, List.map_cons] at ex ⊢
        rw [ex, evalD_head i is hni si]; rfl
      · intro t ht
        simp only [List.mem_cons] at ht
        rcases ht with rfl | ht
        · exact D.le_refl hni
        · rcases mem_mergeT_sub _ _ t ht with h | h
          · obtain ⟨a, ha, rfl⟩ := List.mem_map.1 h
            exact D.le_of_lt ((sortedT_cons.1 si).1 a ha)
          · obtain ⟨a, ha, rfl⟩ := List.mem_map.1 h
            rw [he]; exact D.le_of_lt ((sortedT_cons.1 sj).1 a ha)
    · rw [resample_cons_of_le]
      · simp only [resample, List.map_cons] at ey ⊢
        rw [ey, he, evalD_head j js hnj sj]; rfl
      · intro t ht
        simp only [List.mem_cons] at ht
        rcases ht with rfl | ht
        · rw [he]; exact D.le_refl hnj
        · rcases mem_mergeT_sub _ _ t ht with h | h
          · obtain ⟨a, ha, rfl⟩ := List.mem_map.1 h
            rw [← he]; exact D.le_of_lt ((sortedT_cons.1 si).1 a ha)
          · obtain ⟨a, ha, rfl⟩ := List.mem_map.1 h
            exact D.le_of_lt ((sortedT_cons.1 sj).1 a ha)
  · rw [if_neg heq, if_neg heq]
    by_cases hlt : i.time.lt j.time = true
    · rw [if_pos hlt, if_pos hlt]
      obtain ⟨xv, yv, e, ex, ey⟩ := ih (is.length + (js.length + 1)) (by subst hlen; simp)
        i q is (j :: js) rfl si sq (fun a ha => hqi a (by simp [ha]))
        (fun a ha => by
          simp at ha; rcases ha with rfl | ha
          · exact hlt
          · exact D.lt_trans hlt ((sortedT_cons.1 sj).1 a ha))
      refine ⟨i :: xv, .mk2 i.time (q.interpolate i.time) :: yv,
        by simp [e, consPair, derefPrev], ?_, ?_⟩
      · rw [resample_cons_of_le]
        · simp only [resample, List.map_cons] at ex ⊢
          rw [ex, evalD_head i is hni si]; rfl
        · intro t ht
          simp only [List.mem_cons] at ht
          rcases ht with rfl | ht
          · exact D.le_refl hni
          · rcases mem_mergeT_sub _ _ t ht with h | h
            · obtain ⟨a, ha, rfl⟩ := List.mem_map.1 h
              exact D.le_of_lt ((sortedT_cons.1 si).1 a ha)
            · rw [← List.map_cons, List.mem_map] at h
              obtain ⟨a, ha, rfl⟩ := h
              simp at ha; rcases ha with rfl | ha
              · exact D.le_of_lt hlt
              · exact D.le_of_lt (D.lt_trans hlt ((sortedT_cons.1 sj).1 a ha))
      · simp only [resample, List.map_cons] at ey ⊢
        rw [ey, evalD_between q j js (hqi i (by simp)) hlt]; rfl
    · rw [if_neg hlt, if_neg hlt]
      have hgt := D.lt_of_not_eq_not_lt hni hnj heq hlt
      rw [if_pos hgt]
      obtain ⟨xv, yv, e, ex, ey⟩ := ih ((is.length + 1) + js.length)
        (by subst hlen; simp) p j (i :: is) js rfl sp sj
        (fun a ha => by
          simp at ha; rcases ha with rfl | ha
          · exact hgt
          · exact D.lt_trans hgt ((sortedT_cons.1 si).1 a ha))
        (fun a ha => hpj a (by simp [ha]))
      refine ⟨.mk2 j.time (p.interpolate j.time) :: xv, j :: yv,
        by simp [e, consPair, derefPrev], ?_, ?_⟩
      · simp only [resample, List.map_cons] at ex ⊢
        rw [ex, evalD_between p i is (hpj j (by simp)) hgt]; rfl
      · rw [resample_cons_of_le]
        · simp only [resample, List.map_cons] at ey ⊢
          rw [ey, evalD_head j js hnj sj]; rfl
        · intro t ht
          simp only [List.mem_cons] at ht
          rcases ht with rfl | ht
          · exact D.le_refl hnj
          · rcases mem_mergeT_sub _ _ t ht with h | h
            · rw [← List.map_cons, List.mem_map] at h
              obtain ⟨a, ha, rfl⟩ := h
              simp at ha; rcases ha with rfl | ha
              · exact D.le_of_lt hgt
              · exact D.le_of_lt (D.lt_trans hgt ((sortedT_cons.1 si).1 a ha))
            · obtain ⟨a, ha, rfl⟩ := List.mem_map.1 h
              exact D.le_of_lt ((sortedT_cons.1 sj).1 a ha)

theorem sortedT_append {l₁ l₂ : List (Sample K)} : SortedT (l₁ ++ l₂) ↔
    SortedT l₁ ∧ SortedT l₂ ∧ ∀ a ∈ l₁, ∀ b ∈ l₂, a.time.lt b.time = true := by
  simp [SortedT, List.pairwise_append]

theorem evalD_append (l₁ : List (Sample K)) (i : Sample K) (is : List (Sample K)) {t : D K}
    (hn : i.time ≠ .nan)
    (hs : SortedT (l₁ ++ i :: is)) (h : i.time.le t = true) :
    evalD (l₁ ++ i :: is) t = evalD (i :: is) t := by
  induction l₁ with
  | nil => rfl
  | cons a l₁ ih =>
    have hs' := (sortedT_cons.1 hs).2
    rw [← ih hs']
    cases l₁ with
    | nil => exact evalD_cons_of_le a rfl h
    | cons b l₁ =>
      refine evalD_cons_of_le a rfl ?_
      have := (sortedT_append.1 hs').2.2 b (by simp) i (by simp)
      exact D.le_trans (D.le_of_lt this) h

theorem lowerBound_time (l₁ : List (Sample K)) (l₂ : List (Sample K)) (b : D K)
    (h1 : ∀ a ∈ l₁, a.time.lt b = true) (h2 : ∀ a ∈ l₂, a.time.lt b = false) :
    lowerBound (fun a : Sample K => a.time.lt b) (l₁ ++ l₂) = .ok l₁.length :=
  lowerBound_append _ _ _ h1 h2

theorem prevAt_append (l₁ l₂ : List (Sample K)) :
    prevAt (l₁ ++ l₂) l₁.length = l₁.getLast? := by
  rcases List.eq_nil_or_concat l₁ with rfl | ⟨l, p, rfl⟩
  · rfl
  · simp [prevAt]

/-- The timestamps of the result of `synchronize`. -/
def syncTimes (b : D K) (xs ys : List (Sample K)) : List (D K) :=
  mergeT ((xs.map Sample.time).filter (fun t => b.le t)) ((ys.map Sample.time).filter (fun t => b.le t))

theorem filter_split (l₁ : List (Sample K)) (i : Sample K) (is : List (Sample K))
    (hn : i.time ≠ .nan) (hs : SortedT (l₁ ++ i :: is)) :
    ((l₁ ++ i :: is).map Sample.time).filter (fun t => i.time.le t) = (i :: is).map Sample.time := by
  rw [List.map_append, List.filter_append]
  obtain ⟨_, h2, h3⟩ := sortedT_append.1 hs
  rw [List.filter_eq_nil_iff.2, List.filter_eq_self.2, List.nil_append]
  · intro t ht
    simp only [List.map_cons, List.mem_cons] at ht
    rcases ht with rfl | ht
    · exact D.le_refl hn
    · obtain ⟨a, ha, rfl⟩ := List.mem_map.1 ht
      exact D.le_of_lt ((sortedT_cons.1 h2).1 a ha)
  · intro t ht
    obtain ⟨a, ha, rfl⟩ := List.mem_map.1 ht
    have := h3 a ha i (by simp)
    rw [Bool.not_eq_true, D.not_le_iff_lt (D.lt_ne_nan this).1 hn]; exact this

theorem incr_of_sortedD : (l : List (D K)) → (f : D K → D K) → SortedD l →
    Incr (l.map fun t => (t, f t))
  | [], _, _ => trivial
  | [_], _, _ => trivial
  | a :: b :: l, f, h => by
    simp only [SortedD, List.pairwise_cons, List.mem_cons] at h
    have hab := h.1 b (by simp)
    have hn := D.lt_ne_nan hab
    refine ⟨(D.not_le_iff_lt hn.1 hn.2).2 hab, incr_of_sortedD (b :: l) f ?_⟩
    simp only [SortedD, List.pairwise_cons]; exact ⟨h.2.1, h.2.2⟩

theorem getLast?_map_tv (l : List (Sample K)) (l' : List (D K × D K)) (h : l.map tv = l') :
    l.getLast?.map tv = l'.getLast? := by subst h; simp

/-- The end of `synchronize` when both vectors have the same timestamps. -/
theorem syncFinish_spec (xv yv : List (Sample K)) (ts : List (D K)) (f g : D K → D K)
    (hne : ts ≠ []) (hs : SortedD ts)
    (hx : xv.map tv = ts.map fun t => (t, f t)) (hy : yv.map tv = ts.map fun t => (t, g t)) :
    syncFinish xv yv =
      .ok (⟨build (ts.map fun t => (t, f t))⟩, ⟨build (ts.map fun t => (t, g t))⟩) := by
  obtain ⟨ts', t, rfl⟩ := (List.eq_nil_or_concat ts).resolve_left hne
  have lx := getLast?_map_tv _ _ hx
  have ly := getLast?_map_tv _ _ hy
  simp at lx ly
  obtain ⟨a, ha, ha'⟩ := lx
  obtain ⟨b, hb, hb'⟩ := ly
  have ta : a.time = t := congrArg Prod.fst ha'
  have tb : b.time = t := congrArg Prod.fst hb'
  simp only [syncFinish, vback, ha, hb, Outcome.bind_ok, ta, tb, D.lt_irrefl, Bool.false_eq_true,
    if_false]
  rw [ofSamples_eq, ofSamples_eq, hx, hy, if_pos (incr_of_sortedD _ f hs),
    if_pos (incr_of_sortedD _ g hs)]
  simp

theorem mergeT_same_ne_nil (a : D K) (hn : a ≠ .nan) (as bs : List (D K)) :
    mergeT (a :: as) (a :: bs) = a :: mergeT as bs := by
  rw [mergeT_cons, if_pos (D.eq_iff.2 ⟨rfl, hn⟩)]

theorem noNaN_sorted_head {i : Sample K} {is : List (Sample K)} (hn : i.time ≠ .nan)
    (h : SortedT (i :: is)) : ∀ t ∈ (i :: is).map Sample.time, t ≠ .nan := by
  intro t ht
  simp only [List.map_cons, List.mem_cons] at ht
  rcases ht with rfl | ht
  · exact hn
  · obtain ⟨a, ha, rfl⟩ := List.mem_map.1 ht
    exact (D.lt_ne_nan ((sortedT_cons.1 h).1 a ha)).2

theorem resample_append (l₁ : List (Sample K)) (i : Sample K) (is : List (Sample K))
    (hn : i.time ≠ .nan) (hs : SortedT (l₁ ++ i :: is)) (ts : List (D K))
    (h : ∀ t ∈ ts, i.time.le t = true) :
    resample (l₁ ++ i :: is) ts = resample (i :: is) ts := by
  apply List.map_congr_left
  intro t ht; rw [evalD_append l₁ i is hn hs (h t ht)]

/-- Both signals have a sample at the common begin time: `synchronize` resamples both at the merged
timestamps. -/
theorem synchronize_split (x y : Signal K) (x₁ is y₁ js : List (Sample K)) (i j : Sample K)
    (ex : x.samples = x₁ ++ i :: is) (ey : y.samples = y₁ ++ j :: js)
    (sx : SortedT x.samples) (sy : SortedT y.samples)
    (hi : i.time = D.max x.beginTime y.beginTime) (hj : j.time = D.max x.beginTime y.beginTime)
    (hn : D.max x.beginTime y.beginTime ≠ .nan) :
    synchronize x y =
      .ok (⟨build (resample x.samples (syncTimes (D.max x.beginTime y.beginTime) x.samples y.samples))⟩,
        ⟨build (resample y.samples (syncTimes (D.max x.beginTime y.beginTime) x.samples y.samples))⟩) := by
  generalize hb : D.max x.beginTime y.beginTime = b at *
  have hni : i.time ≠ .nan := by rw [hi]; exact hn
  have hnj : j.time ≠ .nan := by rw [hj]; exact hn
  rw [ex] at sx; rw [ey] at sy
  obtain ⟨_, si, x12⟩ := sortedT_append.1 sx
  obtain ⟨_, sj, y12⟩ := sortedT_append.1 sy
  have fi : ∀ (l : List (Sample K)) (a : Sample K), a.time = b → SortedT (a :: l) →
      ∀ c ∈ a :: l, c.time.lt b = false := by
    intro l a ha hs c hc
    simp only [List.mem_cons] at hc
    rcases hc with rfl | hc
    · rw [ha]; exact D.lt_irrefl _
    · have := (sortedT_cons.1 hs).1 c hc
      rw [ha] at this; exact D.lt_asymm this
  have lbx : lowerBound (fun a : Sample K => a.time.lt b) x.samples = .ok x₁.length := by
    rw [ex]; apply lowerBound_time
    · intro a ha; rw [← hi]; exact x12 a ha i (by simp)
    · exact fi is i hi si
  have lby : lowerBound (fun a : Sample K => a.time.lt b) y.samples = .ok y₁.length := by
    rw [ey]; apply lowerBound_time
    · intro a ha; rw [← hj]; exact y12 a ha j (by simp)
    · exact fi js j hj sj
  obtain ⟨xv, yv, e, hx, hy⟩ := syncLoop_spec _ i j is js rfl si sj
    (fun a ha => by rw [hj, ← hi]; exact (sortedT_cons.1 si).1 a ha)
    (fun a ha => by rw [hi, ← hj]; exact (sortedT_cons.1 sj).1 a ha)
  have times : syncTimes b x.samples y.samples =
      b :: mergeT (is.map Sample.time) (js.map Sample.time) := by
    have h1 := filter_split x₁ i is hni sx
    have h2 := filter_split y₁ j js hnj sy
    rw [hi] at h1; rw [hj] at h2
    rw [syncTimes, ex, ey, h1, h2, List.map_cons, List.map_cons, hi, hj, mergeT_same_ne_nil b hn]
  have hmem : ∀ t ∈ syncTimes b x.samples y.samples, b.le t = true := by
    intro t ht
    rcases mem_mergeT_sub _ _ t ht with h | h <;> simpa using (List.mem_filter.1 h).2
  have hsorted : SortedD (syncTimes b x.samples y.samples) := by
    have h1 := filter_split x₁ i is hni sx
    have h2 := filter_split y₁ j js hnj sy
    rw [hi] at h1; rw [hj] at h2
    rw [syncTimes, ex, ey, h1, h2]
    exact sorted_mergeT _ _ (noNaN_sorted_head hni si) (noNaN_sorted_head hnj sj) si sj
  have hxv : (i :: xv).map tv = resample x.samples (syncTimes b x.samples y.samples) := by
    rw [ex, resample_append x₁ i is hni sx _ (by rw [← ex, hi]; exact hmem), ← ex, times]
    simp only [resample, List.map_cons] at hx ⊢
    rw [hx, ← hi, evalD_head i is hni si]; rfl
  have hyv : (j :: yv).map tv = resample y.samples (syncTimes b x.samples y.samples) := by
    rw [ey, resample_append y₁ j js hnj sy _ (by rw [← ey, hj]; exact hmem), ← ey, times]
    simp only [resample, List.map_cons] at hy ⊢
    rw [hy, ← hj, evalD_head j js hnj sj]; rfl
  simp only [synchronize, hb, lbx, lby, Outcome.bind_ok]
  rw [ex, ey, List.drop_left, List.drop_left, prevAt_append, prevAt_append]
  simp only [syncHead, hi, hj, D.lt_irrefl, Bool.false_eq_true, if_false, Outcome.bind_ok,
    List.nil_append]
  rw [syncLoop_cons, if_pos (by rw [hi, hj]; exact D.eq_iff.2 ⟨rfl, hn⟩), e]
  simp only [consPair, Outcome.bind_ok, Outcome.pure_eq_ok]
  rw [ex, ey] at hxv hyv hsorted times
  exact syncFinish_spec _ _ _ _ _ (by rw [times]; simp) hsorted hxv hyv

theorem split_at (l : List (Sample K)) (hs : SortedT l) (b : D K) (hnb : b ≠ .nan)
    (hn : NoNaNT l) : ∃ l₁ l₂, l = l₁ ++ l₂ ∧ (∀ a ∈ l₁, a.time.lt b = true) ∧
      ∀ a ∈ l₂, a.time.lt b = false := by
  induction l with
  | nil => exact ⟨[], [], rfl, by simp, by simp⟩
  | cons a l ih =>
    by_cases h : a.time.lt b = true
    · obtain ⟨l₁, l₂, rfl, h1, h2⟩ := ih (sortedT_cons.1 hs).2 (fun x hx => hn x (by simp [hx]))
      exact ⟨a :: l₁, l₂, rfl, by simpa [h] using h1, h2⟩
    · refine ⟨[], a :: l, rfl, by simp, ?_⟩
      intro c hc
      simp only [List.mem_cons] at hc
      rcases hc with rfl | hc
      · simpa using h
      · have := (sortedT_cons.1 hs).1 c hc
        by_contra hc'
        simp only [Bool.not_eq_false] at hc'
        exact h (D.lt_trans this hc')

theorem D.max_eq_or (a b : D K) : D.max a b = a ∨ D.max a b = b := by
  unfold D.max; split <;> simp

theorem D.le_max_left {a b : D K} (ha : a ≠ .nan) : a.le (D.max a b) = true := by
  unfold D.max; split
  · exact D.le_of_lt (by assumption)
  · exact D.le_refl ha

theorem D.le_max_right {a b : D K} (ha : a ≠ .nan) (hb : b ≠ .nan) : b.le (D.max a b) = true := by
  unfold D.max; split
  · exact D.le_refl hb
  · rename_i h; rw [D.le_eq_not_lt hb ha]; simpa using h

theorem beginTime_cons (a : Sample K) (l : List (Sample K)) :
    (⟨a :: l⟩ : Signal K).beginTime = a.time := rfl

theorem endTime_build (l : List (D K × D K)) (p : D K × D K) :
    (⟨build (l ++ [p])⟩ : Signal K).endTime = p.1 := by
  simp [Signal.endTime, build_getLast?]

theorem beginTime_build (p : D K × D K) (l : List (D K × D K)) :
    (⟨build (p :: l)⟩ : Signal K).beginTime = p.1 := by
  obtain ⟨d, h⟩ := build_cons p l
  simp [Signal.beginTime, h]

theorem synchronize_of_split (x y : Signal K) (x₁ x₂ y₁ y₂ : List (Sample K))
    (ex : x.samples = x₁ ++ x₂) (ey : y.samples = y₁ ++ y₂)
    (hx1 : ∀ a ∈ x₁, a.time.lt (D.max x.beginTime y.beginTime) = true)
    (hx2 : ∀ a ∈ x₂, a.time.lt (D.max x.beginTime y.beginTime) = false)
    (hy1 : ∀ a ∈ y₁, a.time.lt (D.max x.beginTime y.beginTime) = true)
    (hy2 : ∀ a ∈ y₂, a.time.lt (D.max x.beginTime y.beginTime) = false) :
    synchronize x y = (do
      let xv0 ← syncHead (D.max x.beginTime y.beginTime) x₁.getLast? x₂ x₁.getLast?
      let yv0 ← syncHead (D.max x.beginTime y.beginTime) y₁.getLast? y₂ x₁.getLast?
      let (xs, ys) ← syncLoop x₁.getLast? x₂ y₁.getLast? y₂
      syncFinish (xv0 ++ xs) (yv0 ++ ys)) := by
  have lbx : lowerBound (fun a : Sample K => a.time.lt (D.max x.beginTime y.beginTime)) x.samples
      = .ok x₁.length := by rw [ex]; exact lowerBound_time _ _ _ hx1 hx2
  have lby : lowerBound (fun a : Sample K => a.time.lt (D.max x.beginTime y.beginTime)) y.samples
      = .ok y₁.length := by rw [ey]; exact lowerBound_time _ _ _ hy1 hy2
  simp only [synchronize, lbx, lby, Outcome.bind_ok]
  rw [ex, ey, List.drop_left, List.drop_left, prevAt_append, prevAt_append]

/-- `synchronize` is undefined behaviour if one of the signals has no sample at or after the common
begin time (in particular if it is empty). -/
theorem synchronize_disjoint (x y : Signal K) (sx : SortedT x.samples) (sy : SortedT y.samples)
    (nx : NoNaNT x.samples) (ny : NoNaNT y.samples)
    (hn : D.max x.beginTime y.beginTime ≠ .nan)
    (h : (∀ a ∈ x.samples, a.time.lt (D.max x.beginTime y.beginTime) = true) ∨
      (∀ a ∈ y.samples, a.time.lt (D.max x.beginTime y.beginTime) = true)) :
    synchronize x y = .ub .derefEnd := by
  obtain ⟨x₁, x₂, ex, hx1, hx2⟩ := split_at x.samples sx _ hn nx
  obtain ⟨y₁, y₂, ey, hy1, hy2⟩ := split_at y.samples sy _ hn ny
  rw [synchronize_of_split x y x₁ x₂ y₁ y₂ ex ey hx1 hx2 hy1 hy2]
  cases x₂ with
  | nil => rfl
  | cons i is =>
    have hi : i.time.lt (D.max x.beginTime y.beginTime) = false := hx2 i (by simp)
    have hx : ∃ l, syncHead (D.max x.beginTime y.beginTime) x₁.getLast? (i :: is) x₁.getLast?
        = .ok l := by
      unfold syncHead
      cases x₁.getLast? <;> simp [derefPrev] <;> split <;> simp
    obtain ⟨l, hl⟩ := hx
    rw [hl]
    cases y₂ with
    | nil => rfl
    | cons j js =>
      exfalso
      rcases h with h | h
      · have := h i (by rw [ex]; simp); simp [hi] at this
      · have := h j (by rw [ey]; simp); simp [hy2 j (by simp)] at this

/-- `x` starts before `y` but has no sample at the begin time of `y`: an exception. -/
theorem synchronize_x_earlier (x y : Signal K) (x₁ is js : List (Sample K)) (p i j : Sample K)
    (ex : x.samples = x₁ ++ p :: i :: is) (ey : y.samples = j :: js)
    (sx : SortedT x.samples) (sy : SortedT y.samples)
    (h1 : p.time.lt j.time = true) (h2 : j.time.lt i.time = true) :
    synchronize x y = .throw .invalidArgument := by
  rw [ex] at sx; rw [ey] at sy
  have hb : D.max x.beginTime y.beginTime = j.time := by
    have hy : y.beginTime = j.time := by simp [Signal.beginTime, ey]
    have hx : x.beginTime.le p.time = true := by
      cases x₁ with
      | nil => simp [Signal.beginTime, ex]; exact D.le_refl (D.lt_ne_nan h1).1
      | cons a x₁ =>
        simp [Signal.beginTime, ex]
        exact D.le_of_lt ((sortedT_append.1 sx).2.2 a (by simp) p (by simp))
    have : x.beginTime.lt j.time = true := D.lt_of_le_of_lt hx h1
    rw [hy, D.max, if_pos this]
  have sx' : SortedT (i :: is) := (sortedT_cons.1 (sortedT_append.1 sx).2.1).2
  have spi : SortedT (p :: i :: is) := (sortedT_append.1 sx).2.1
  rw [synchronize_of_split x y (x₁ ++ [p]) (i :: is) [] (j :: js) (by simp [ex]) (by simp [ey])]
  · rw [hb]
    have hl : (x₁ ++ [p]).getLast? = some p := by simp
    rw [hl]
    simp only [List.getLast?_nil, syncHead, h2, if_true, derefPrev, Outcome.bind_ok, Outcome.pure_eq_ok,
      D.lt_irrefl, Bool.false_eq_true, if_false]
    rw [syncLoop_cons, if_neg, if_neg, if_pos h2]
    · simp only [derefPrev, Outcome.bind_ok]
      obtain ⟨xv, yv, e, hx, hy⟩ := syncLoop_spec _ p j (i :: is) js rfl spi sy
        (fun a ha => by
          simp only [List.mem_cons] at ha
          rcases ha with rfl | ha
          · exact h2
          · exact D.lt_trans h2 ((sortedT_cons.1 sx').1 a ha))
        (fun a ha => D.lt_trans h1 ((sortedT_cons.1 sy).1 a ha))
      rw [e]
      simp only [consPair, Outcome.bind_ok, Outcome.pure_eq_ok]
      simp only [List.nil_append]
      have hnj := (D.lt_ne_nan h1).2
      unfold syncFinish
      have vb : ∀ (a : Sample K) l, ∃ c, vback (a :: l) = .ok c := by
        intro a l; simp [vback, List.getLast?_cons]
      obtain ⟨c, hc⟩ := vb ⟨j.time, p.interpolate j.time, p.derivative⟩
        (Sample.mk2 j.time (p.interpolate j.time) :: xv)
      obtain ⟨d, hd⟩ := vb j yv
      simp only [List.cons_append, List.nil_append, hc, hd, Outcome.bind_ok]
      have key : ∀ l, Signal.ofSamples (⟨j.time, p.interpolate j.time, p.derivative⟩ ::
          Sample.mk2 j.time (p.interpolate j.time) :: l) = .throw .invalidArgument := by
        intro l
        rw [ofSamples_eq, if_neg]
        simp [tv, Sample.mk2, D.le_refl hnj]
      split
      · obtain ⟨d, hd⟩ := vb j (yv ++ [Sample.mk2 c.time (d.interpolate c.time)])
        simp only [List.cons_append, hc, hd, Outcome.bind_ok]
        split <;> simp [key]
      · simp only [hc, hd, Outcome.bind_ok]
        split <;> simp [key]
    · simp [D.lt_asymm h2]
    · rw [D.eq_iff]; rintro ⟨h, _⟩; rw [h, D.lt_irrefl] at h2; cases h2
  · rw [hb]; intro a ha
    simp only [List.mem_append, List.mem_singleton] at ha
    rcases ha with ha | rfl
    · exact D.lt_trans ((sortedT_append.1 sx).2.2 a ha p (by simp)) h1
    · exact h1
  · rw [hb]; intro a ha
    simp only [List.mem_cons] at ha
    rcases ha with rfl | ha
    · exact D.lt_asymm h2
    · exact D.lt_asymm (D.lt_trans h2 ((sortedT_cons.1 sx').1 a ha))
  · simp
  · rw [hb]; intro a ha
    simp only [List.mem_cons] at ha
    rcases ha with rfl | ha
    · exact D.lt_irrefl _
    · exact D.lt_asymm ((sortedT_cons.1 sy).1 a ha)

/-- `y` starts before `x` but has no sample at the begin time of `x`: undefined behaviour. -/
theorem synchronize_y_earlier (x y : Signal K) (y₁ is js : List (Sample K)) (p i j : Sample K)
    (ey : y.samples = y₁ ++ p :: j :: js) (ex : x.samples = i :: is)
    (sx : SortedT x.samples) (sy : SortedT y.samples)
    (h1 : p.time.lt i.time = true) (h2 : i.time.lt j.time = true) :
    synchronize x y = .ub .prevBegin := by
  rw [ex] at sx; rw [ey] at sy
  have hb : D.max x.beginTime y.beginTime = i.time := by
    have hx : x.beginTime = i.time := by simp [Signal.beginTime, ex]
    have hy : y.beginTime.le p.time = true := by
      cases y₁ with
      | nil => simp [Signal.beginTime, ey]; exact D.le_refl (D.lt_ne_nan h1).1
      | cons a y₁ =>
        simp [Signal.beginTime, ey]
        exact D.le_of_lt ((sortedT_append.1 sy).2.2 a (by simp) p (by simp))
    have : y.beginTime.lt i.time = true := D.lt_of_le_of_lt hy h1
    rw [hx, D.max, if_neg]; simp [D.lt_asymm this]
  have sy' : SortedT (j :: js) := (sortedT_cons.1 (sortedT_append.1 sy).2.1).2
  rw [synchronize_of_split x y [] (i :: is) (y₁ ++ [p]) (j :: js) (by simp [ex]) (by simp [ey])]
  · rw [hb]
    simp [syncHead, h2, derefPrev, D.lt_irrefl]
  · simp
  · rw [hb]; intro a ha
    simp only [List.mem_cons] at ha
    rcases ha with rfl | ha
    · exact D.lt_irrefl _
    · exact D.lt_asymm ((sortedT_cons.1 sx).1 a ha)
  · rw [hb]; intro a ha
    simp only [List.mem_append, List.mem_singleton] at ha
    rcases ha with ha | rfl
    · exact D.lt_trans ((sortedT_append.1 sy).2.2 a ha p (by simp)) h1
    · exact h1
  · rw [hb]; intro a ha
    simp only [List.mem_cons] at ha
    rcases ha with rfl | ha
    · exact D.lt_asymm h2
    · exact D.lt_asymm (D.lt_trans h2 ((sortedT_cons.1 sy').1 a ha))

/-- The four cases for non-empty signals. -/
theorem synchronize_cases (x y : Signal K) (sx : SortedT x.samples) (sy : SortedT y.samples)
    (nx : NoNaNT x.samples) (ny : NoNaNT y.samples) (hx : x.samples ≠ []) (hy : y.samples ≠ []) :
    let b := D.max x.beginTime y.beginTime
    b ≠ .nan ∧
    (((∀ a ∈ x.samples, a.time.lt b = true) ∨ (∀ a ∈ y.samples, a.time.lt b = true)) ∨
     (∃ x₁ i is y₁ j js, x.samples = x₁ ++ i :: is ∧ y.samples = y₁ ++ j :: js ∧
        i.time = b ∧ j.time = b) ∨
     (∃ x₁ p i is j js, x.samples = x₁ ++ p :: i :: is ∧ y.samples = j :: js ∧ j.time = b ∧
        p.time.lt j.time = true ∧ j.time.lt i.time = true) ∨
     (∃ y₁ p j js i is, y.samples = y₁ ++ p :: j :: js ∧ x.samples = i :: is ∧ i.time = b ∧
        p.time.lt i.time = true ∧ i.time.lt j.time = true)) := by
  intro b
  have hxb : ∃ a l, x.samples = a :: l := by
    cases h : x.samples with
    | nil => exact absurd h hx
    | cons a l => exact ⟨a, l, rfl⟩
  have hyb : ∃ a l, y.samples = a :: l := by
    cases h : y.samples with
    | nil => exact absurd h hy
    | cons a l => exact ⟨a, l, rfl⟩
  obtain ⟨xa, xl, ex⟩ := hxb
  obtain ⟨ya, yl, ey⟩ := hyb
  have hxbt : x.beginTime = xa.time := by simp [Signal.beginTime, ex]
  have hybt : y.beginTime = ya.time := by simp [Signal.beginTime, ey]
  have nxa : xa.time ≠ .nan := nx xa (by simp [ex])
  have nya : ya.time ≠ .nan := ny ya (by simp [ey])
  have hbe : b = xa.time ∨ b = ya.time := by
    rcases D.max_eq_or x.beginTime y.beginTime with h | h
    · left; rw [← hxbt]; exact h
    · right; rw [← hybt]; exact h
  have hnb : b ≠ .nan := by rcases hbe with h | h <;> rw [h] <;> assumption
  have lex : xa.time.le b = true := by
    have := D.le_max_left (a := xa.time) (b := ya.time) nxa; rw [← hxbt, ← hybt] at this
    rw [← hxbt]; exact this
  have ley : ya.time.le b = true := by
    have := D.le_max_right (a := xa.time) (b := ya.time) nxa nya; rw [← hxbt, ← hybt] at this
    rw [← hybt]; exact this
  refine ⟨hnb, ?_⟩
  obtain ⟨x₁, x₂, ex', hx1, hx2⟩ := split_at x.samples sx b hnb nx
  obtain ⟨y₁, y₂, ey', hy1, hy2⟩ := split_at y.samples sy b hnb ny
  cases x₂ with
  | nil => left; left; intro a ha; rw [ex'] at ha; simp at ha; exact hx1 a ha
  | cons i is =>
  cases y₂ with
  | nil => left; right; intro a ha; rw [ey'] at ha; simp at ha; exact hy1 a ha
  | cons j js =>
  right
  have ni : i.time ≠ .nan := nx i (by simp [ex'])
  have nj : j.time ≠ .nan := ny j (by simp [ey'])
  have bi : b.le i.time = true := by rw [D.le_eq_not_lt hnb ni, hx2 i (by simp)]; rfl
  have bj : b.le j.time = true := by rw [D.le_eq_not_lt hnb nj, hy2 j (by simp)]; rfl
  by_cases hib : i.time = b
  · by_cases hjb : j.time = b
    · exact .inl ⟨x₁, i, is, y₁, j, js, ex', ey', hib, hjb⟩
    · right; right
      have hlt : b.lt j.time = true := by
        rcases D.trichotomy hnb nj with h | h | h
        · exact h
        · exact absurd h.symm hjb
        · rw [hy2 j (by simp)] at h; cases h
      have hy1ne : y₁ ≠ [] := by
        rintro rfl
        simp only [List.nil_append] at ey'
        rw [ey'] at ey; cases ey
        have := D.lt_of_lt_of_le hlt ley; rw [D.lt_irrefl] at this; cases this
      obtain ⟨y₀, p, rfl⟩ := (List.eq_nil_or_concat y₁).resolve_left hy1ne
      have hp : p.time.lt b = true := hy1 p (by simp)
      have hyab : ya.time.lt b = true := by
        have hm : ya ∈ y₀.concat p := by
          rw [ey'] at ey
          cases y₀ with
          | nil => simp at ey; simp [ey.1]
          | cons c y₀ => simp at ey; simp [ey.1]
        exact hy1 ya hm
      have hxb' : b = xa.time := by
        rcases hbe with h | h
        · exact h
        · rw [← h, D.lt_irrefl] at hyab; cases hyab
      have hx1e : x₁ = [] := by
        cases x₁ with
        | nil => rfl
        | cons c x₁ =>
          rw [ex'] at ex; simp at ex
          have := hx1 c (by simp); rw [ex.1, ← hxb', D.lt_irrefl] at this; cases this
      subst hx1e
      exact ⟨y₀, p, j, js, i, is, by simpa using ey', by simpa using ex', hib, by rw [hib]; exact hp,
        by rw [hib]; exact hlt⟩
  · right; left
    have hlt : b.lt i.time = true := by
      rcases D.trichotomy hnb ni with h | h | h
      · exact h
      · exact absurd h.symm hib
      · rw [hx2 i (by simp)] at h; cases h
    have hx1ne : x₁ ≠ [] := by
      rintro rfl
      simp only [List.nil_append] at ex'
      rw [ex'] at ex; cases ex
      have := D.lt_of_lt_of_le hlt lex; rw [D.lt_irrefl] at this; cases this
    obtain ⟨x₀, p, rfl⟩ := (List.eq_nil_or_concat x₁).resolve_left hx1ne
    have hp : p.time.lt b = true := hx1 p (by simp)
    have hxab : xa.time.lt b = true := by
      have hm : xa ∈ x₀.concat p := by
        rw [ex'] at ex
        cases x₀ with
        | nil => simp at ex; simp [ex.1]
        | cons c x₀ => simp at ex; simp [ex.1]
      exact hx1 xa hm
    have hyb' : b = ya.time := by
      rcases hbe with h | h
      · rw [← h, D.lt_irrefl] at hxab; cases hxab
      · exact h
    have hy1e : y₁ = [] := by
      cases y₁ with
      | nil => rfl
      | cons c y₁ =>
        rw [ey'] at ey; simp at ey
        have := hy1 c (by simp); rw [ey.1, ← hyb', D.lt_irrefl] at this; cases this
    subst hy1e
    have hjb : j.time = b := by
      have hja : j = ya := by rw [ey'] at ey; simp at ey; exact ey.1
      rw [hja, hyb']
    exact ⟨x₀, p, i, is, j, js, by simpa using ex', by simpa using ey', hjb, by rw [hjb]; exact hp,
      by rw [hjb]; exact hlt⟩

end
end Verif
