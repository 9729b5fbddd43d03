import Verif.Proofs.Laws
import Mathlib.Data.Finset.Powerset
import Mathlib.Data.Fintype.Powerset
import Mathlib.Data.Finset.Prod
import Mathlib.Data.Finset.Max
import Mathlib.Data.List.NodupEquivFin

/-!
# How many samples nested And and Or can have

On a small interval before each instant the result of And and Or is one of the functions it was made of (the
literals: the predicates and temporal formulas below, with the signs of the negations above them).  A sample of
the result is a sample of a literal, or the crossing of two literals.  Two literals cross at most once between
two neighbouring samples of the literals.
-/

set_option linter.unusedSectionVars false

namespace Verif
open Spec

section exact
variable {K : Type} [Field K] [LinearOrder K] [IsStrictOrderedRing K] [Arith K] [ExactArith K]

/-- Equal on an interval that ends at `k`. -/
def LeftEq (f g : K → K) (t0 k : K) : Prop := ∃ a, t0 ≤ a ∧ a < k ∧ ∀ s, a ≤ s → s ≤ k → f s = g s

/-- Different at all instants shortly before `k`. -/
def LeftNe (f g : K → K) (k : K) : Prop := ∃ a, a < k ∧ ∀ s, a ≤ s → s < k → f s ≠ g s

theorem LeftNe.symm {f g : K → K} {k : K} (h : LeftNe f g k) : LeftNe g f k := by
  obtain ⟨a, h1, h2⟩ := h
  exact ⟨a, h1, fun s h3 h4 => (h2 s h3 h4).symm⟩

theorem LeftNe.congr {f g f' g' : K → K} {t0 k : K} (h : LeftNe f g k) (hf : LeftEq f f' t0 k)
    (hg : LeftEq g g' t0 k) : LeftNe f' g' k := by
  obtain ⟨a, h1, h2⟩ := h
  obtain ⟨b, -, h3, h4⟩ := hf
  obtain ⟨c, -, h5, h6⟩ := hg
  refine ⟨max a (max b c), by simp [h1, h3, h5], fun s hs hk => ?_⟩
  simp only [max_le_iff] at hs
  rw [← h4 s hs.2.1 hk.le, ← h6 s hs.2.2 hk.le]
  exact h2 s hs.1 hk

theorem LeftEq.trans {f g h : K → K} {t0 k : K} (h1 : LeftEq f g t0 k) (h2 : LeftEq g h t0 k) :
    LeftEq f h t0 k := by
  obtain ⟨a, a1, a2, a3⟩ := h1
  obtain ⟨b, b1, b2, b3⟩ := h2
  refine ⟨max a b, a1.trans (le_max_left _ _), by simp [a2, b2], fun s hs hk => ?_⟩
  simp only [max_le_iff] at hs
  rw [a3 s hs.1 hk, b3 s hs.2 hk]

/-- An instant after the first one lies in a segment that begins before it. -/
theorem segment_before : ∀ (pts : List (K × K)) {t0 k : K}, StartsAt t0 pts → t0 < k → (∃ q ∈ pts, k ≤ q.1) →
    ∃ l p q r, pts = l ++ p :: q :: r ∧ p.1 < k ∧ k ≤ q.1 := by
  intro pts
  induction pts with
  | nil => rintro t0 k ⟨v, r, h⟩; simp at h
  | cons p l ih =>
    rintro t0 k ⟨v, r, h⟩ h0 hk
    simp only [List.cons.injEq] at h
    obtain ⟨rfl, rfl⟩ := h
    cases l with
    | nil =>
      obtain ⟨q, hq, hk⟩ := hk
      simp only [List.mem_singleton] at hq; subst hq
      exact absurd (h0.trans_le hk) (lt_irrefl _)
    | cons q r =>
      by_cases hq : k ≤ q.1
      · exact ⟨[], (t0, v), q, r, rfl, h0, hq⟩
      · rw [not_le] at hq
        obtain ⟨q', hq', hk⟩ := hk
        obtain ⟨l', p', q'', r', e, h1, h2⟩ := ih (t0 := q.1) (k := k) ⟨q.2, r, rfl⟩ hq (by
          rcases List.mem_cons.1 hq' with rfl | hq'
          · exact absurd (h0.trans_le hk) (lt_irrefl _)
          · exact ⟨q', hq', hk⟩)
        exact ⟨(t0, v) :: l', p', q'', r', by rw [e]; rfl, h1, h2⟩

/-- Before each instant the function is a line for a while. -/
theorem left_affine {pts : List (K × K)} (h : Increasing pts) {t0 k : K} (hs : StartsAt t0 pts) (h0 : t0 < k)
    (hk : k ∈ dom pts) : ∃ a c, t0 ≤ a ∧ a < k ∧ ∀ s, a ≤ s → s ≤ k → eval pts s = eval pts k + c * (s - k) := by
  obtain ⟨l, p, q, r, e, h1, h2⟩ := segment_before pts hs h0 hk.2
  have hp : p ∈ pts := by rw [e]; simp
  refine ⟨p.1, (q.2 - p.2) / (q.1 - p.1), hs.le h (mem_dom_of_mem (List.mem_map_of_mem hp)), h1, fun s s1 s2 => ?_⟩
  have hq : p.1 < q.1 := h1.trans_le h2
  have hd : q.1 - p.1 ≠ 0 := (sub_pos.2 hq).ne'
  rw [e] at h ⊢
  rw [eval_seg l p q r h s1 (s2.trans h2), eval_seg l p q r h h1.le h2]
  simp only [line]
  field_simp
  ring

/-- Before each instant two functions are equal for a while, or one of them is smaller for a while. -/
theorem left_cases {xs ys : List (K × K)} (hx : Increasing xs) (hy : Increasing ys) {t0 k : K}
    (sx : StartsAt t0 xs) (sy : StartsAt t0 ys) (h0 : t0 < k) (kx : k ∈ dom xs) (ky : k ∈ dom ys) :
    ∃ a, t0 ≤ a ∧ a < k ∧ ((∀ s, a ≤ s → s ≤ k → eval xs s ≤ eval ys s) ∨
      (∀ s, a ≤ s → s ≤ k → eval ys s ≤ eval xs s)) := by
  obtain ⟨a, c, a0, a1, a2⟩ := left_affine hx sx h0 kx
  obtain ⟨b, d, -, b1, b2⟩ := left_affine hy sy h0 ky
  have hm : max a b < k := by simp [a1, b1]
  have h0' : t0 ≤ max a b := a0.trans (le_max_left _ _)
  have on : ∀ s, max a b ≤ s → s ≤ k → eval ys s - eval xs s = (eval ys k - eval xs k) + (d - c) * (s - k) := by
    intro s s1 s2
    simp only [max_le_iff] at s1
    rw [a2 s s1.1 s2, b2 s s1.2 s2]; ring
  -- if the sign at `k` is not zero, take a point where it has not changed yet
  rcases lt_trichotomy (eval ys k - eval xs k) 0 with hlt | heq | hgt
  · rcases le_total 0 (d - c) with hdc | hdc
    · refine ⟨max a b, h0', hm, .inr fun s s1 s2 => ?_⟩
      have := on s s1 s2
      have h3 : (d - c) * (s - k) ≤ 0 := mul_nonpos_of_nonneg_of_nonpos hdc (sub_nonpos.2 s2)
      exact sub_nonpos.1 (by rw [this]; linarith)
    · by_cases hz : d - c = 0
      · refine ⟨max a b, h0', hm, .inr fun s s1 s2 => ?_⟩
        have := on s s1 s2
        rw [hz] at this
        exact sub_nonpos.1 (by rw [this]; linarith)
      · have hdc' : d - c < 0 := lt_of_le_of_ne hdc hz
        refine ⟨max (max a b) (k - (eval ys k - eval xs k) / (d - c)), h0'.trans (le_max_left _ _), ?_, .inr fun s s1 s2 => ?_⟩
        · simp only [max_lt_iff]
          have := div_pos_of_neg_of_neg hlt hdc'
          exact ⟨by simpa using hm, by linarith⟩
        · obtain ⟨s3, s4⟩ := max_le_iff.1 s1
          have := on s s3 s2
          have h3 : (d - c) * (s - k) ≤ (d - c) * (-((eval ys k - eval xs k) / (d - c))) :=
            mul_le_mul_of_nonpos_left (by linarith) hdc
          rw [mul_neg, mul_div_cancel₀ _ hz] at h3
          exact sub_nonpos.1 (by rw [this]; linarith)
  · rcases le_total 0 (d - c) with hdc | hdc
    · refine ⟨max a b, h0', hm, .inr fun s s1 s2 => ?_⟩
      have := on s s1 s2
      have h3 : (d - c) * (s - k) ≤ 0 := mul_nonpos_of_nonneg_of_nonpos hdc (sub_nonpos.2 s2)
      exact sub_nonpos.1 (by rw [this]; linarith)
    · refine ⟨max a b, h0', hm, .inl fun s s1 s2 => ?_⟩
      have := on s s1 s2
      have h3 : 0 ≤ (d - c) * (s - k) := mul_nonneg_of_nonpos_of_nonpos hdc (sub_nonpos.2 s2)
      exact sub_nonneg.1 (by rw [this]; linarith)
  · rcases le_total (d - c) 0 with hdc | hdc
    · refine ⟨max a b, h0', hm, .inl fun s s1 s2 => ?_⟩
      have := on s s1 s2
      have h3 : 0 ≤ (d - c) * (s - k) := mul_nonneg_of_nonpos_of_nonpos hdc (sub_nonpos.2 s2)
      exact sub_nonneg.1 (by rw [this]; linarith)
    · by_cases hz : d - c = 0
      · refine ⟨max a b, h0', hm, .inl fun s s1 s2 => ?_⟩
        have := on s s1 s2
        rw [hz] at this
        exact sub_nonneg.1 (by rw [this]; linarith)
      · have hdc' : 0 < d - c := lt_of_le_of_ne hdc (Ne.symm hz)
        refine ⟨max (max a b) (k - (eval ys k - eval xs k) / (d - c)), h0'.trans (le_max_left _ _), ?_, .inl fun s s1 s2 => ?_⟩
        · simp only [max_lt_iff]
          have := div_pos hgt hdc'
          exact ⟨by simpa using hm, by linarith⟩
        · obtain ⟨s3, s4⟩ := max_le_iff.1 s1
          have := on s s3 s2
          have h3 : (d - c) * (-((eval ys k - eval xs k) / (d - c))) ≤ (d - c) * (s - k) :=
            mul_le_mul_of_nonneg_left (by linarith) hdc
          rw [mul_neg, mul_div_cancel₀ _ hz] at h3
          exact sub_nonneg.1 (by rw [this]; linarith)

/-- `zs` is made of the literals `L` by minima and maxima. -/
structure Cells (t0 : K) (L : List (List (K × K))) (zs : List (K × K)) : Prop where
  within : ∀ t ∈ dom zs, ∀ l ∈ L, t ∈ dom l
  times : ∀ k ∈ zs.map Prod.fst, (∃ l ∈ L, k ∈ l.map Prod.fst) ∨
    ∃ x y, List.Sublist [x, y] L ∧ eval x k = eval y k ∧ LeftNe (eval x) (eval y) k
  germ : ∀ k ∈ dom zs, t0 < k → ∃ l ∈ L, LeftEq (eval zs) (eval l) t0 k

theorem Cells.single {t0 : K} {xs : List (K × K)} : Cells t0 [xs] xs where
  within := by simp
  times k hk := .inl ⟨xs, by simp, hk⟩
  germ k _ h0 := ⟨xs, by simp, t0, le_rfl, h0, fun _ _ _ => rfl⟩

theorem Cells.neg {t0 : K} {L : List (List (K × K))} {zs : List (K × K)} (h : Cells t0 L zs) :
    Cells t0 (L.map negPts) (negPts zs) where
  within t ht l hl := by
    obtain ⟨l', h1, rfl⟩ := List.mem_map.1 hl
    rw [dom_negPts] at ht ⊢
    exact h.within t ht l' h1
  times k hk := by
    rw [negPts_times] at hk
    rcases h.times k hk with ⟨l, hl, hk⟩ | ⟨x, y, hs, he, a, a1, a2⟩
    · exact .inl ⟨negPts l, List.mem_map_of_mem hl, by rwa [negPts_times]⟩
    · refine .inr ⟨negPts x, negPts y, by simpa using hs.map negPts, by rw [eval_negPts, eval_negPts, he], a, a1,
        fun s s1 s2 => ?_⟩
      rw [eval_negPts, eval_negPts]
      exact fun hc => a2 s s1 s2 (neg_injective hc)
  germ k hk h0 := by
    rw [dom_negPts] at hk
    obtain ⟨l, hl, a, a0, a1, a2⟩ := h.germ k hk h0
    refine ⟨negPts l, List.mem_map_of_mem hl, a, a0, a1, fun s s1 s2 => ?_⟩
    rw [eval_negPts, eval_negPts, a2 s s1 s2]

/-- `op` is `min` or `max`. -/
def IsMinMax (op : K → K → K) : Prop := (∀ a b, op a b = min a b) ∨ (∀ a b, op a b = max a b)

theorem Cells.pair {t0 : K} {L M : List (List (K × K))} {xs ys zs : List (K × K)} {op : K → K → K}
    (hop : IsMinMax op) (hx : Increasing xs) (hy : Increasing ys) (sx : StartsAt t0 xs)
    (sy : StartsAt t0 ys) (cx : Cells t0 L xs) (cy : Cells t0 M ys)
    (hd : ∀ t, t ∈ dom zs ↔ t ∈ dom xs ∧ t ∈ dom ys)
    (hv : ∀ t ∈ dom zs, eval zs t = op (eval xs t) (eval ys t))
    (ht : ∀ k ∈ zs.map Prod.fst, k ∈ xs.map Prod.fst ∨ k ∈ ys.map Prod.fst ∨
      (eval xs k = eval ys k ∧ LeftNe (eval xs) (eval ys) k)) : Cells t0 (L ++ M) zs where
  within t h l hl := by
    rcases List.mem_append.1 hl with hl | hl
    · exact cx.within t ((hd t).1 h).1 l hl
    · exact cy.within t ((hd t).1 h).2 l hl
  times k hk := by
    have hkd := (hd k).1 (mem_dom_of_mem hk)
    rcases ht k hk with h | h | ⟨h1, h2⟩
    · rcases cx.times k h with ⟨l, hl, hk⟩ | ⟨x, y, hs, he⟩
      · exact .inl ⟨l, by simp [hl], hk⟩
      · exact .inr ⟨x, y, hs.trans (List.sublist_append_left L M), he⟩
    · rcases cy.times k h with ⟨l, hl, hk⟩ | ⟨x, y, hs, he⟩
      · exact .inl ⟨l, by simp [hl], hk⟩
      · exact .inr ⟨x, y, hs.trans (List.sublist_append_right L M), he⟩
    · rcases (sx.le hx hkd.1).eq_or_lt with h0 | h0
      · obtain ⟨v, r, e⟩ := sx
        rcases cx.times k (by rw [e, ← h0]; simp) with ⟨l, hl, hk⟩ | ⟨x, y, hs, he⟩
        · exact .inl ⟨l, by simp [hl], hk⟩
        · exact .inr ⟨x, y, hs.trans (List.sublist_append_left L M), he⟩
      · obtain ⟨x, hxL, ex⟩ := cx.germ k hkd.1 h0
        obtain ⟨y, hyM, ey⟩ := cy.germ k hkd.2 h0
        refine .inr ⟨x, y, ?_, ?_, h2.congr ex ey⟩
        · exact (List.singleton_sublist.2 hxL).append (List.singleton_sublist.2 hyM)
        · obtain ⟨a, -, a1, a2⟩ := ex
          obtain ⟨b, -, b1, b2⟩ := ey
          rw [← a2 k a1.le le_rfl, ← b2 k b1.le le_rfl, h1]
  germ k hk h0 := by
    have hkd := (hd k).1 hk
    obtain ⟨x, hxL, ex⟩ := cx.germ k hkd.1 h0
    obtain ⟨y, hyM, ey⟩ := cy.germ k hkd.2 h0
    have hz : ∀ s, t0 ≤ s → s ≤ k → s ∈ dom zs := by
      intro s s0 s1
      have m1 : t0 ∈ dom xs := mem_dom_of_mem sx.mem
      have m2 : t0 ∈ dom ys := mem_dom_of_mem sy.mem
      rw [hd]
      obtain ⟨p, hp, hp'⟩ := m1.1
      obtain ⟨q, hq, hq'⟩ := m2.1
      obtain ⟨p2, hp2, hp2'⟩ := hkd.1.2
      obtain ⟨q2, hq2, hq2'⟩ := hkd.2.2
      exact ⟨⟨⟨p, hp, hp'.trans s0⟩, ⟨p2, hp2, s1.trans hp2'⟩⟩, ⟨⟨q, hq, hq'.trans s0⟩, ⟨q2, hq2, s1.trans hq2'⟩⟩⟩
    obtain ⟨a, a0, a1, h⟩ := left_cases hx hy sx sy h0 hkd.1 hkd.2
    have key : LeftEq (eval zs) (eval xs) t0 k ∨ LeftEq (eval zs) (eval ys) t0 k := by
      rcases hop with hop | hop <;> rcases h with h | h
      · exact .inl ⟨a, a0, a1, fun s s1 s2 => by rw [hv s (hz s (a0.trans s1) s2), hop, min_eq_left (h s s1 s2)]⟩
      · exact .inr ⟨a, a0, a1, fun s s1 s2 => by rw [hv s (hz s (a0.trans s1) s2), hop, min_eq_right (h s s1 s2)]⟩
      · exact .inr ⟨a, a0, a1, fun s s1 s2 => by rw [hv s (hz s (a0.trans s1) s2), hop, max_eq_right (h s s1 s2)]⟩
      · exact .inl ⟨a, a0, a1, fun s s1 s2 => by rw [hv s (hz s (a0.trans s1) s2), hop, max_eq_left (h s s1 s2)]⟩
    rcases key with key | key
    · exact ⟨x, by simp [hxL], key.trans ex⟩
    · exact ⟨y, by simp [hyM], key.trans ey⟩

/-- Two functions without samples between two instants of equality are equal in between. -/
theorem no_second_crossing {x y : List (K × K)} (hx : Increasing x) (hy : Increasing y) {k1 k2 : K}
    (h : k1 < k2) (d1 : k1 ∈ dom x) (d2 : k2 ∈ dom x) (d3 : k1 ∈ dom y) (d4 : k2 ∈ dom y)
    (nx : ∀ p ∈ x, ¬ (k1 < p.1 ∧ p.1 < k2)) (ny : ∀ p ∈ y, ¬ (k1 < p.1 ∧ p.1 < k2))
    (e1 : eval x k1 = eval y k1) (e2 : eval x k2 = eval y k2) : ¬ LeftNe (eval x) (eval y) k2 := by
  rintro ⟨a, a1, a2⟩
  have hm : max a k1 < k2 := by simp [a1, h]
  apply a2 (max a k1) (le_max_left _ _) hm
  rw [eval_affine hx d1 d2 h nx (le_max_right _ _) hm.le, eval_affine hy d3 d4 h ny (le_max_right _ _) hm.le, e1, e2]

/-- The number of samples: at most those of the literals and, after each of those, one crossing for each
pair of literals. -/
theorem Cells.length_le {t0 : K} {L : List (List (K × K))} {zs : List (K × K)} (h : Cells t0 L zs)
    (hL : ∀ l ∈ L, Increasing l ∧ StartsAt t0 l) (hz : Increasing zs) (h0 : ∀ t ∈ dom zs, t0 ≤ t) (hne : L ≠ []) :
    zs.length ≤ (L.map List.length).sum * (1 + L.length.choose 2) := by
  classical
  set T : Finset K := (L.flatMap fun l => l.map Prod.fst).toFinset with hT
  set Z : Finset K := (zs.map Prod.fst).toFinset with hZ
  have cT : T.card ≤ (L.map List.length).sum := by
    refine (List.toFinset_card_le _).trans ?_
    rw [List.length_flatMap]; simp
  have cZ : Z.card = zs.length := by
    rw [hZ, List.toFinset_card_of_nodup (hz.imp ne_of_lt)]; simp
  have mT : ∀ k, k ∈ T ↔ ∃ l ∈ L, k ∈ l.map Prod.fst := by intro k; simp [hT]
  have mZ : ∀ k, k ∈ Z ↔ k ∈ zs.map Prod.fst := by intro k; simp [hZ]
  have t0T : t0 ∈ T := by
    obtain ⟨l, hl⟩ := List.exists_mem_of_ne_nil L hne
    exact (mT t0).2 ⟨l, hl, (hL l hl).2.mem⟩
  -- the crossings
  have cross : ∀ k : K, ∃ (i j : Fin L.length) (p : K), k ∈ Z \ T →
      i ≠ j ∧ eval L[i] k = eval L[j] k ∧ LeftNe (eval L[i]) (eval L[j]) k ∧ p ∈ T ∧ p < k ∧
        ∀ q ∈ T, q < k → q ≤ p := by
    intro k
    have i0 : Fin L.length := ⟨0, List.length_pos_of_ne_nil hne⟩
    by_cases hk : k ∈ Z \ T
    · obtain ⟨hk1, hk2⟩ := Finset.mem_sdiff.1 hk
      rcases h.times k ((mZ k).1 hk1) with h' | ⟨x, y, hs, he, hn⟩
      · exact absurd ((mT k).2 h') hk2
      · obtain ⟨f, hf⟩ := List.sublist_iff_exists_fin_orderEmbedding_get_eq.1 hs
        have hlt : t0 < k := lt_of_le_of_ne (h0 k (mem_dom_of_mem ((mZ k).1 hk1))) fun e => hk2 (e ▸ t0T)
        have hB : (T.filter (· < k)).Nonempty := ⟨t0, by simp [t0T, hlt]⟩
        have hp := (T.filter (· < k)).max'_mem hB
        rw [Finset.mem_filter] at hp
        have e0 := hf ⟨0, by simp⟩
        have e1 := hf ⟨1, by simp⟩
        simp only [List.get_eq_getElem, List.getElem_cons_zero, List.getElem_cons_succ] at e0 e1
        refine ⟨f ⟨0, by simp⟩, f ⟨1, by simp⟩, (T.filter (· < k)).max' hB, fun _ =>
          ⟨fun e => ?_, ?_, ?_, hp.1, hp.2, fun q hq hq' => ?_⟩⟩
        · have := f.injective e; simp at this
        · simp only [Fin.getElem_fin]; rw [← e0, ← e1]; exact he
        · simp only [Fin.getElem_fin]; rw [← e0, ← e1]; exact hn
        · exact Finset.le_max' _ _ (by simp [hq, hq'])
    · exact ⟨i0, i0, k, fun h => absurd h hk⟩
  choose i j p hc using cross
  have cC : (Z \ T).card ≤ (T ×ˢ (Finset.univ : Finset (Fin L.length)).powersetCard 2).card := by
    refine Finset.card_le_card_of_injOn (fun k => (p k, {i k, j k})) ?_ ?_
    · intro k hk
      obtain ⟨h1, -, -, h4, -⟩ := hc k hk
      simp only [Finset.coe_product, Set.mem_prod, Finset.mem_coe, Finset.mem_powersetCard]
      exact ⟨h4, Finset.subset_univ _, Finset.card_pair h1⟩
    · have key : ∀ k1 k2 : K, k1 ∈ Z \ T → k2 ∈ Z \ T → p k1 = p k2 →
          ({i k1, j k1} : Finset (Fin L.length)) = {i k2, j k2} → ¬ k1 < k2 := by
        intro k1 k2 m1 m2 hp hij hlt
        obtain ⟨a1, a2, a3, a4, a5, a6⟩ := hc k1 m1
        obtain ⟨b1, b2, b3, b4, b5, b6⟩ := hc k2 m2
        have e1 : eval L[i k2] k1 = eval L[j k2] k1 := by
          have h1 : i k2 ∈ ({i k1, j k1} : Finset (Fin L.length)) := by rw [hij]; simp
          have h2 : j k2 ∈ ({i k1, j k1} : Finset (Fin L.length)) := by rw [hij]; simp
          simp only [Finset.mem_insert, Finset.mem_singleton] at h1 h2
          have gen : ∀ n1 n2 : Fin L.length, (n1 = i k1 ∨ n1 = j k1) → (n2 = i k1 ∨ n2 = j k1) →
              eval L[n1] k1 = eval L[n2] k1 := by
            rintro _ _ (rfl | rfl) (rfl | rfl)
            exacts [rfl, a2, a2.symm, rfl]
          exact gen _ _ h1 h2
        have d1 := mem_dom_of_mem ((mZ k1).1 (Finset.mem_sdiff.1 m1).1)
        have d2 := mem_dom_of_mem ((mZ k2).1 (Finset.mem_sdiff.1 m2).1)
        have hno : ∀ n : Fin L.length, ∀ q ∈ L[n], ¬ (k1 < q.1 ∧ q.1 < k2) := by
          rintro n q hq ⟨q1, q2⟩
          have hqT : q.1 ∈ T := (mT _).2 ⟨L[n], by simp, List.mem_map_of_mem hq⟩
          have := b6 q.1 hqT q2
          rw [← hp] at this
          exact absurd (q1.trans_le (this.trans a5.le)) (lt_irrefl _)
        exact no_second_crossing (hL L[i k2] (by simp)).1 (hL L[j k2] (by simp)).1 hlt
          (h.within k1 d1 _ (by simp)) (h.within k2 d2 _ (by simp)) (h.within k1 d1 _ (by simp))
          (h.within k2 d2 _ (by simp)) (hno _) (hno _) e1 b2 b3
      intro k1 m1 k2 m2 he
      simp only [Prod.mk.injEq] at he
      exact le_antisymm (not_lt.1 (key k2 k1 m2 m1 he.1.symm he.2.symm)) (not_lt.1 (key k1 k2 m1 m2 he.1 he.2))
  rw [Finset.card_product, Finset.card_powersetCard, Finset.card_univ, Fintype.card_fin] at cC
  calc zs.length = Z.card := cZ.symm
    _ ≤ (T ∪ Z \ T).card := Finset.card_le_card (by intro k hk; by_cases h : k ∈ T <;> simp [h, hk])
    _ ≤ T.card + (Z \ T).card := Finset.card_union_le _ _
    _ ≤ T.card + T.card * L.length.choose 2 := by omega
    _ = T.card * (1 + L.length.choose 2) := by ring
    _ ≤ _ := Nat.mul_le_mul_right _ cT

end exact
end Verif
