import Verif.Proofs.Sync

/-! # Piecewise linear functions -/

set_option linter.unusedSectionVars false

namespace Verif
open Spec

variable {K : Type} [Field K] [LinearOrder K] [IsStrictOrderedRing K]

theorem increasing_nil : Increasing ([] : List (K × K)) := by simp [Increasing]
theorem increasing_single (p : K × K) : Increasing [p] := by simp [Increasing]

theorem increasing_cons {p : K × K} {l : List (K × K)} :
    Increasing (p :: l) ↔ (∀ q ∈ l, p.1 < q.1) ∧ Increasing l := by
  simp [Increasing]

theorem increasing_append {l₁ l₂ : List (K × K)} :
    Increasing (l₁ ++ l₂) ↔ Increasing l₁ ∧ Increasing l₂ ∧ ∀ p ∈ l₁, ∀ q ∈ l₂, p.1 < q.1 := by
  simp only [Increasing, List.map_append, List.pairwise_append, List.mem_map]
  constructor
  · rintro ⟨h1, h2, h3⟩
    exact ⟨h1, h2, fun p hp q hq => h3 _ ⟨p, hp, rfl⟩ _ ⟨q, hq, rfl⟩⟩
  · rintro ⟨h1, h2, h3⟩
    refine ⟨h1, h2, ?_⟩
    rintro _ ⟨p, hp, rfl⟩ _ ⟨q, hq, rfl⟩
    exact h3 p hp q hq

@[simp] theorem line_left (p q : K × K) : line p q p.1 = p.2 := by simp [line]

theorem line_right {p q : K × K} (h : p.1 < q.1) : line p q q.1 = q.2 := by
  have : q.1 - p.1 ≠ 0 := sub_ne_zero.2 h.ne'
  simp [line, div_self this]

theorem line_sub {p q : K × K} (h : p.1 < q.1) {a b s : K} (hab : a < b) :
    line (a, line p q a) (b, line p q b) s = line p q s := by
  have h1 : q.1 - p.1 ≠ 0 := sub_ne_zero.2 h.ne'
  have h2 : b - a ≠ 0 := sub_ne_zero.2 hab.ne'
  simp only [line]; field_simp; ring

theorem eval_cons_of_le {p q : K × K} {r} (h : Increasing (p :: q :: r)) {t : K} (ht : q.1 ≤ t) :
    eval (p :: q :: r) t = eval (q :: r) t := by
  rw [eval]
  split
  · rename_i h'
    have hpq := (increasing_cons.1 h).1 q (by simp)
    have : t = q.1 := le_antisymm h' ht
    subst this
    rw [line_right hpq]
    cases r with
    | nil => rfl
    | cons r l =>
      have hqr := (increasing_cons.1 (increasing_cons.1 h).2).1 r (by simp)
      rw [eval, if_pos hqr.le, line_left]
  · rfl

theorem eval_head (p : K × K) (l : List (K × K)) (h : Increasing (p :: l)) :
    eval (p :: l) p.1 = p.2 := by
  cases l with
  | nil => rfl
  | cons q l =>
    have := (increasing_cons.1 h).1 q (by simp)
    rw [eval, if_pos this.le, line_left]

theorem eval_append_of_le (l : List (K × K)) (p : K × K) (r : List (K × K))
    (h : Increasing (l ++ p :: r)) {t : K} (ht : p.1 ≤ t) :
    eval (l ++ p :: r) t = eval (p :: r) t := by
  induction l with
  | nil => rfl
  | cons a l ih =>
    have h' := (increasing_cons.1 h).2
    rw [← ih h']
    cases l with
    | nil => exact eval_cons_of_le h ht
    | cons b l =>
      have := (increasing_append.1 h').2.2 b (by simp) p (by simp)
      exact eval_cons_of_le h (this.le.trans ht)

theorem eval_seg (l : List (K × K)) (p q : K × K) (r : List (K × K))
    (h : Increasing (l ++ p :: q :: r)) {t : K} (h1 : p.1 ≤ t) (h2 : t ≤ q.1) :
    eval (l ++ p :: q :: r) t = line p q t := by
  rw [eval_append_of_le l p (q :: r) h h1, eval, if_pos h2]

theorem eval_mem {pts : List (K × K)} (h : Increasing pts) {p : K × K} (hp : p ∈ pts) :
    eval pts p.1 = p.2 := by
  obtain ⟨l, r, rfl⟩ := List.append_of_mem hp
  rw [eval_append_of_le l p r h le_rfl, eval_head]
  exact (increasing_append.1 h).2.1

theorem dom_cons {p : K × K} {l : List (K × K)} (h : Increasing (p :: l)) {t : K} :
    t ∈ dom (p :: l) ↔ p.1 ≤ t ∧ ∃ q ∈ p :: l, t ≤ q.1 := by
  simp only [dom, Set.mem_ofPred_eq]
  constructor
  · rintro ⟨⟨q, hq, h1⟩, h2⟩
    refine ⟨?_, h2⟩
    simp only [List.mem_cons] at hq
    rcases hq with rfl | hq
    · exact h1
    · exact ((increasing_cons.1 h).1 q hq).le.trans h1
  · rintro ⟨h1, h2⟩; exact ⟨⟨p, by simp, h1⟩, h2⟩

theorem dom_append_singleton {l : List (K × K)} {q : K × K} (h : Increasing (l ++ [q])) {t : K} :
    t ∈ dom (l ++ [q]) ↔ (∃ p ∈ l ++ [q], p.1 ≤ t) ∧ t ≤ q.1 := by
  simp only [dom, Set.mem_ofPred_eq]
  constructor
  · rintro ⟨h1, ⟨p, hp, h2⟩⟩
    refine ⟨h1, ?_⟩
    simp only [List.mem_append, List.mem_singleton] at hp
    rcases hp with hp | rfl
    · exact h2.trans ((increasing_append.1 h).2.2 p hp q (by simp)).le
    · exact h2
  · rintro ⟨h1, h2⟩; exact ⟨h1, ⟨q, by simp, h2⟩⟩

/-- A time of the domain lies in a segment (or there is only one point). -/
theorem dom_cases {pts : List (K × K)} (h : Increasing pts) {t : K} (ht : t ∈ dom pts) :
    (∃ p, pts = [p] ∧ t = p.1) ∨
    (∃ l p q r, pts = l ++ p :: q :: r ∧ p.1 ≤ t ∧ t ≤ q.1) := by
  induction pts with
  | nil => simp [dom] at ht
  | cons p l ih =>
    rw [dom_cons h] at ht
    obtain ⟨h1, q, hq, h2⟩ := ht
    cases l with
    | nil => simp at hq; subst hq; exact .inl ⟨q, rfl, le_antisymm h2 h1⟩
    | cons a l =>
      right
      by_cases hta : t ≤ a.1
      · exact ⟨[], p, a, l, rfl, h1, hta⟩
      · rw [not_le] at hta
        have h' := (increasing_cons.1 h).2
        have : t ∈ dom (a :: l) := by
          rw [dom_cons h']
          refine ⟨hta.le, q, ?_, h2⟩
          simp only [List.mem_cons] at hq ⊢
          rcases hq with rfl | hq
          · exact absurd (le_antisymm h2 h1) (by
              intro e; have := (increasing_cons.1 h).1 a (by simp)
              rw [e] at hta; exact absurd (this.trans hta) (lt_irrefl _))
          · exact hq
        rcases ih h' this with ⟨p', e, e'⟩ | ⟨l', p', q', r, e, h3, h4⟩
        · simp only [List.cons.injEq] at e; obtain ⟨rfl, rfl⟩ := e
          exact absurd e' hta.ne'
        · exact ⟨p :: l', p', q', r, by rw [e]; rfl, h3, h4⟩

/-- A time of the domain before the end lies in a half-open segment. -/
theorem dom_cases_lt {pts : List (K × K)} (h : Increasing pts) {t : K} (ht : t ∈ dom pts)
    (hlt : ∃ p ∈ pts, t < p.1) :
    ∃ l p q r, pts = l ++ p :: q :: r ∧ p.1 ≤ t ∧ t < q.1 := by
  induction pts with
  | nil => simp [dom] at ht
  | cons p l ih =>
    rw [dom_cons h] at ht
    obtain ⟨h1, _⟩ := ht
    obtain ⟨q, hq, h2⟩ := hlt
    simp only [List.mem_cons] at hq
    rcases hq with rfl | hq
    · exact absurd (h1.trans_lt h2) (lt_irrefl _)
    cases l with
    | nil => simp at hq
    | cons a l =>
      by_cases hta : t < a.1
      · exact ⟨[], p, a, l, rfl, h1, hta⟩
      · rw [not_lt] at hta
        have h' := (increasing_cons.1 h).2
        obtain ⟨l', p', q', r, e, h3, h4⟩ := ih h'
          ((dom_cons h').2 ⟨hta, q, hq, h2.le⟩) ⟨q, hq, h2⟩
        exact ⟨p :: l', p', q', r, by rw [e]; rfl, h3, h4⟩

/-- Between two times without breakpoint in between the function is a line. -/
theorem eval_affine {pts : List (K × K)} (h : Increasing pts) {a b s : K} (ha : a ∈ dom pts)
    (hb : b ∈ dom pts) (hab : a < b) (hno : ∀ p ∈ pts, ¬ (a < p.1 ∧ p.1 < b))
    (h1 : a ≤ s) (h2 : s ≤ b) :
    eval pts s = line (a, eval pts a) (b, eval pts b) s := by
  obtain ⟨q', hq', hbq'⟩ := hb.2
  obtain ⟨l, p, q, r, rfl, hpa, haq⟩ := dom_cases_lt h ha ⟨q', hq', hab.trans_le hbq'⟩
  have hbq : b ≤ q.1 := by
    by_contra hc; rw [not_le] at hc; exact hno q (by simp) ⟨haq, hc⟩
  have hpq : p.1 < q.1 := (increasing_cons.1 (increasing_append.1 h).2.1).1 q (by simp)
  rw [eval_seg l p q r h (hpa.trans h1) (h2.trans hbq), eval_seg l p q r h hpa haq.le,
    eval_seg l p q r h (hpa.trans hab.le) hbq, line_sub hpq hab]

/-- The points of `f` at the given times. -/
def sampleAt (f : K → K) (ts : List K) : List (K × K) := ts.map fun t => (t, f t)

theorem increasing_sampleAt (f : K → K) (ts : List K) :
    Increasing (sampleAt f ts) ↔ ts.Pairwise (· < ·) := by
  simp [Increasing, sampleAt, Function.comp_def]

theorem mem_dom_sampleAt {f : K → K} {ts : List K} {t : K} :
    t ∈ dom (sampleAt f ts) ↔ (∃ a ∈ ts, a ≤ t) ∧ ∃ a ∈ ts, t ≤ a := by
  simp [dom, sampleAt]

/-- Sampling a piecewise linear function at (at least) all its breakpoints gives the same
function. -/
theorem eval_sampleAt {pts : List (K × K)} (h : Increasing pts) {ts : List K}
    (hs : ts.Pairwise (· < ·)) (hsub : ∀ a ∈ ts, a ∈ dom pts)
    (hall : ∀ p ∈ pts, p.1 ∈ dom (sampleAt (eval pts) ts) → p.1 ∈ ts) {s : K}
    (hsd : s ∈ dom (sampleAt (eval pts) ts)) :
    eval (sampleAt (eval pts) ts) s = eval pts s := by
  have hinc := (increasing_sampleAt (eval pts) ts).2 hs
  rcases dom_cases hinc hsd with ⟨p, e, rfl⟩ | ⟨l, p, q, r, e, h1, h2⟩
  · have : p ∈ sampleAt (eval pts) ts := by rw [e]; simp
    rw [eval_mem hinc this]
    obtain ⟨a, _, rfl⟩ := List.mem_map.1 this
    rfl
  · have hp : p ∈ sampleAt (eval pts) ts := by rw [e]; simp
    have hq : q ∈ sampleAt (eval pts) ts := by rw [e]; simp
    rw [e] at hinc ⊢
    have hpq : p.1 < q.1 := (increasing_cons.1 (increasing_append.1 hinc).2.1).1 q (by simp)
    rw [eval_seg l p q r hinc h1 h2]
    obtain ⟨a, ha, rfl⟩ := List.mem_map.1 hp
    obtain ⟨b, hb, rfl⟩ := List.mem_map.1 hq
    refine (eval_affine h (hsub a ha) (hsub b hb) hpq ?_ h1 h2).symm
    rintro c hc ⟨hac, hcb⟩
    have hcd : c.1 ∈ dom (sampleAt (eval pts) ts) :=
      mem_dom_sampleAt.2 ⟨⟨a, ha, hac.le⟩, ⟨b, hb, hcb.le⟩⟩
    have hct := hall c hc hcd
    have hmem : ((c.1, eval pts c.1) : K × K) ∈ l ++ (a, eval pts a) :: (b, eval pts b) :: r := by
      rw [← e]; exact List.mem_map.2 ⟨c.1, hct, rfl⟩
    obtain ⟨_, i2, i3⟩ := increasing_append.1 hinc
    simp only [List.mem_append, List.mem_cons] at hmem
    rcases hmem with hm | hm | hm | hm
    · have := i3 _ hm (a, eval pts a) (by simp); exact absurd (this.trans hac) (lt_irrefl _)
    · rw [(Prod.mk.injEq _ _ _ _).mp hm |>.1] at hac; exact absurd hac (lt_irrefl _)
    · rw [(Prod.mk.injEq _ _ _ _).mp hm |>.1] at hcb; exact absurd hcb (lt_irrefl _)
    · have := (increasing_cons.1 (increasing_cons.1 i2).2).1 _ hm
      exact absurd (this.trans hcb) (lt_irrefl _)

/-! ## Extending at the end -/

theorem eval_append_left {l : List (K × K)} (r : List (K × K)) (h : Increasing (l ++ r)) {t : K}
    (ht : t ∈ dom l) : eval (l ++ r) t = eval l t := by
  have hl := (increasing_append.1 h).1
  rcases dom_cases hl ht with ⟨p, rfl, rfl⟩ | ⟨l', p', q', r', rfl, h1, h2⟩
  · rw [List.singleton_append] at h ⊢
    rw [eval_head p r h]; rfl
  · rw [eval_seg l' p' q' r' hl h1 h2]
    rw [List.append_assoc, List.cons_append, List.cons_append] at h ⊢
    exact eval_seg l' p' q' _ h h1 h2

/-- On a segment the value is between the values at the ends. -/
theorem line_le_max {p q : K × K} (h : p.1 < q.1) {t : K} (h1 : p.1 ≤ t) (h2 : t ≤ q.1) :
    line p q t ≤ max p.2 q.2 := by
  have h0 : 0 < q.1 - p.1 := sub_pos.2 h
  set w := (t - p.1) / (q.1 - p.1) with hw
  have w0 : 0 ≤ w := div_nonneg (sub_nonneg.2 h1) h0.le
  have w1 : w ≤ 1 := by rw [hw, div_le_one h0]; linarith
  simp only [line, ← hw]
  have hp := le_max_left p.2 q.2
  have hq := le_max_right p.2 q.2
  nlinarith

theorem line_neg (p q : K × K) (t : K) : line (p.1, -p.2) (q.1, -q.2) t = -line p q t := by
  simp only [line]; ring

theorem min_le_line {p q : K × K} (h : p.1 < q.1) {t : K} (h1 : p.1 ≤ t) (h2 : t ≤ q.1) :
    min p.2 q.2 ≤ line p q t := by
  have := line_le_max (p := (p.1, -p.2)) (q := (q.1, -q.2)) h h1 h2
  rw [line_neg] at this
  have h' : max (-p.2) (-q.2) ≤ -min p.2 q.2 :=
    max_le (neg_le_neg (min_le_left _ _)) (neg_le_neg (min_le_right _ _))
  simp only at this
  linarith

/-- Lines are ordered between two times if they are at these times. -/
theorem line_mono {a b x0 x1 y0 y1 : K} (h : a < b) (h0 : x0 ≤ y0) (h1 : x1 ≤ y1) {t : K}
    (ha : a ≤ t) (hb : t ≤ b) : line (a, x0) (b, x1) t ≤ line (a, y0) (b, y1) t := by
  have hd : 0 < b - a := sub_pos.2 h
  set w := (t - a) / (b - a) with hw
  have w0 : 0 ≤ w := div_nonneg (sub_nonneg.2 ha) hd.le
  have w1 : w ≤ 1 := by rw [hw, div_le_one hd]; linarith
  simp only [line, ← hw]
  nlinarith

theorem eval_neg (pts : List (K × K)) (t : K) :
    eval (pts.map fun p => (p.1, -p.2)) t = -eval pts t := by
  induction pts with
  | nil => simp [eval]
  | cons p l ih =>
    cases l with
    | nil => simp [eval]
    | cons q l =>
      simp only [List.map_cons, eval] at ih ⊢
      rw [ih, line_neg]; split <;> rfl

theorem dom_map_snd (pts : List (K × K)) (f : K × K → K) :
    dom (pts.map fun p => (p.1, f p)) = dom pts := by
  ext t; simp [dom]

theorem dom_append_left {l r : List (K × K)} {t : K} (h : t ∈ dom l) : t ∈ dom (l ++ r) := by
  obtain ⟨⟨p, hp, h1⟩, ⟨q, hq, h2⟩⟩ := h
  exact ⟨⟨p, by simp [hp], h1⟩, ⟨q, by simp [hq], h2⟩⟩

/-- The domain when a point is added. -/
theorem dom_snoc {l : List (K × K)} {p q : K × K} (h : Increasing (l ++ [p, q])) {t : K}
    (ht : t ∈ dom (l ++ [p, q])) : t ∈ dom (l ++ [p]) ∨ (p.1 ≤ t ∧ t ≤ q.1) := by
  rcases le_total t p.1 with h1 | h1
  · left
    obtain ⟨⟨a, ha, ha'⟩, _⟩ := ht
    refine ⟨?_, p, by simp, h1⟩
    simp only [List.mem_append, List.mem_cons, List.not_mem_nil, or_false] at ha
    rcases ha with ha | rfl | rfl
    · exact ⟨a, by simp [ha], ha'⟩
    · exact ⟨a, by simp, ha'⟩
    · have := (increasing_append.1 h).2.1
      have := (increasing_cons.1 this).1 a (by simp)
      exact absurd (this.trans_le (ha'.trans h1)) (lt_irrefl _)
  · right
    refine ⟨h1, ?_⟩
    obtain ⟨_, a, ha, ha'⟩ := ht
    refine ha'.trans ?_
    simp only [List.mem_append, List.mem_cons, List.not_mem_nil, or_false] at ha
    rcases ha with ha | rfl | rfl
    · exact ((increasing_append.1 h).2.2 a ha q (by simp)).le
    · exact ((increasing_cons.1 (increasing_append.1 h).2.1).1 q (by simp)).le
    · exact le_rfl

theorem eval_snoc_right {l : List (K × K)} {p q : K × K} (h : Increasing (l ++ [p, q])) {t : K}
    (h1 : p.1 ≤ t) (h2 : t ≤ q.1) : eval (l ++ [p, q]) t = line p q t :=
  eval_seg l p q [] h h1 h2

end Verif
