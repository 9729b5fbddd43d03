import Verif.Spec.Wedge
import Verif.Proofs.Wedge
import Mathlib.Tactic.Push
import Mathlib.Tactic.ByContra

/-!
# The wedge is the list of suffix optima of the window
-/

namespace Verif
open Spec

variable {α : Type}

/-- The values that are related to all later ones. -/
def records (comp : α → α → Bool) : List α → List α
  | [] => []
  | a :: l => if l.all (comp a) then a :: records comp l else records comp l

theorem records_sublist (comp : α → α → Bool) : ∀ l, (records comp l).Sublist l
  | [] => .slnil
  | a :: l => by
    rw [records]; split
    · exact (records_sublist comp l).cons_cons a
    · exact (records_sublist comp l).cons a

theorem records_pairwise (comp : α → α → Bool) : ∀ l,
    (records comp l).Pairwise (fun a b => comp a b = true)
  | [] => .nil
  | a :: l => by
    rw [records]; split
    · next h =>
      refine .cons (fun b hb => ?_) (records_pairwise comp l)
      exact List.all_eq_true.1 h b ((records_sublist comp l).subset hb)
    · exact records_pairwise comp l

theorem records_snoc (comp : α → α → Bool) (v : α) : ∀ l,
    records comp (l ++ [v]) = (records comp l).filter (comp · v) ++ [v]
  | [] => by simp [records]
  | a :: l => by
    rw [List.cons_append, records, records, records_snoc comp v l]
    rw [List.all_append]
    cases h : l.all (comp a) <;> by_cases h' : comp a v = true <;> simp [h']

theorem records_ne_nil (comp : α → α → Bool) (l : List α) : records comp l = [] ↔ l = [] := by
  rcases List.eq_nil_or_concat l with rfl | ⟨l', v, rfl⟩
  · simp [records]
  · rw [List.concat_eq_append, records_snoc]; simp

theorem records_tail (comp : α → α → Bool) : ∀ l,
    (records comp l).tail = records comp (afterOptimum comp l)
  | [] => rfl
  | a :: l => by
    rw [records, afterOptimum]
    split
    · rfl
    · exact records_tail comp l

/-- A partition of a list sorted by a transitive relation. -/
theorem sorted_partition (P : α → Prop) (comp : α → α → Bool)
    (htr : ∀ a b c, P a → P b → P c → comp a b = true → comp b c = true → comp a c = true) (v : α) (hv : P v) :
    ∀ w : List α, (∀ a ∈ w, P a) → w.Pairwise (fun a b => comp a b = true) →
      ∃ l₁ l₂, w = l₁ ++ l₂ ∧ (∀ a ∈ l₁, comp a v = true) ∧ (∀ a ∈ l₂, comp a v = false) ∧
        w.filter (comp · v) = l₁
  | [], _, _ => ⟨[], [], by simp⟩
  | a :: w, hP, hs => by
    have hsw := List.pairwise_cons.1 hs
    by_cases h : comp a v = true
    · obtain ⟨l₁, l₂, rfl, h1, h2, h3⟩ := sorted_partition P comp htr v hv w
        (fun b hb => hP b (by simp [hb])) hsw.2
      refine ⟨a :: l₁, l₂, rfl, ?_, h2, ?_⟩
      · intro b hb; rcases List.mem_cons.1 hb with rfl | hb
        · exact h
        · exact h1 b hb
      · rw [List.filter_cons, if_pos h, h3]
    · have hall : ∀ b ∈ a :: w, comp b v = false := by
        intro b hb
        rcases List.mem_cons.1 hb with rfl | hb'
        · simpa using h
        · by_contra hc
          simp only [Bool.not_eq_false] at hc
          exact h (htr a b v (hP a (by simp)) (hP b hb) hv (hsw.1 b hb') hc)
      refine ⟨[], a :: w, rfl, by simp, hall, ?_⟩
      rw [List.filter_eq_nil_iff]
      intro b hb; simp [hall b hb]

theorem update_records (P : α → Prop) (comp : α → α → Bool)
    (htr : ∀ a b c, P a → P b → P c → comp a b = true → comp b c = true → comp a c = true)
    (win : List α) (hP : ∀ a ∈ win, P a) (v : α) (hv : P v) :
    monoWedgeUpdate comp (records comp win) v = .ok (records comp (win ++ [v])) := by
  obtain ⟨l₁, l₂, e, h1, h2, h3⟩ := sorted_partition P comp htr v hv (records comp win)
    (fun a ha => hP a ((records_sublist comp win).subset ha)) (records_pairwise comp win)
  rw [records_snoc, h3, e, monoWedgeUpdate, monoWedgeSearch_eq comp v l₁ l₂ h1 h2]
  simp

theorem afterOptimum_subset (comp : α → α → Bool) : ∀ l, ∀ a ∈ afterOptimum comp l, a ∈ l
  | [], a, h => h
  | b :: l, a, h => by
    rw [afterOptimum] at h
    split at h
    · exact List.mem_cons_of_mem _ h
    · exact List.mem_cons_of_mem _ (afterOptimum_subset comp l a h)

theorem wedgeAfter_records (P : α → Prop) (comp : α → α → Bool)
    (htr : ∀ a b c, P a → P b → P c → comp a b = true → comp b c = true → comp a c = true) :
    ∀ (ops : List (WedgeOp α)) (win : List α), (∀ a ∈ win, P a) → (∀ v, .push v ∈ ops → P v) →
      PopsOk comp win ops →
      wedgeAfter comp (records comp win) ops = .ok (records comp (windowAfter comp win ops)) := by
  intro ops
  induction ops with
  | nil => intro win _ _ _; simp [wedgeAfter, windowAfter]
  | cons op ops ih =>
    intro win hw hp hk
    cases op with
    | push v =>
      have hv : P v := hp v (by simp)
      have : ∀ a ∈ win ++ [v], P a := by
        intro a ha
        rcases List.mem_append.1 ha with ha | ha
        · exact hw a ha
        · simp at ha; subst ha; exact hv
      simp only [wedgeAfter, windowAfter]
      rw [update_records P comp htr win hw v hv, Outcome.bind_ok]
      exact ih _ this (fun u hu => hp u (by simp [hu])) hk
    | popFront =>
      have hk' : win ≠ [] ∧ PopsOk comp (afterOptimum comp win) ops := hk
      have hne : records comp win ≠ [] := by rw [Ne, records_ne_nil]; exact hk'.1
      simp only [windowAfter]
      rw [← ih _ (fun a ha => hw a (afterOptimum_subset comp win a ha)) (fun u hu => hp u (by simp [hu])) hk'.2,
        ← records_tail]
      cases hr : records comp win with
      | nil => exact absurd hr hne
      | cons a w => rfl

theorem wedgeAfter_bad_pop (P : α → Prop) (comp : α → α → Bool)
    (htr : ∀ a b c, P a → P b → P c → comp a b = true → comp b c = true → comp a c = true) :
    ∀ (ops : List (WedgeOp α)) (win : List α), (∀ a ∈ win, P a) → (∀ v, .push v ∈ ops → P v) →
      ¬ PopsOk comp win ops → wedgeAfter comp (records comp win) ops = .ub .emptyAccess := by
  intro ops
  induction ops with
  | nil => intro win _ _ h; exact absurd trivial h
  | cons op ops ih =>
    intro win hw hp hk
    cases op with
    | push v =>
      have hv : P v := hp v (by simp)
      have : ∀ a ∈ win ++ [v], P a := by
        intro a ha
        rcases List.mem_append.1 ha with ha | ha
        · exact hw a ha
        · simp at ha; subst ha; exact hv
      simp only [wedgeAfter]
      rw [update_records P comp htr win hw v hv, Outcome.bind_ok]
      exact ih _ this (fun u hu => hp u (by simp [hu])) hk
    | popFront =>
      by_cases hne : win = []
      · subst hne; rfl
      · have hk' : ¬ PopsOk comp (afterOptimum comp win) ops := fun h => hk ⟨hne, h⟩
        rw [← ih _ (fun a ha => hw a (afterOptimum_subset comp win a ha)) (fun u hu => hp u (by simp [hu])) hk',
          ← records_tail]
        cases hr : records comp win with
        | nil => exact absurd ((records_ne_nil comp win).1 hr) hne
        | cons a w => rfl

/-- The front of the wedge is related to everything in the window. -/
theorem records_front_total (P : α → Prop) (comp : α → α → Bool)
    (htr : ∀ a b c, P a → P b → P c → comp a b = true → comp b c = true → comp a c = true)
    (htot : ∀ a b, P a → P b → comp a b = true ∨ comp b a = true) :
    ∀ win, (∀ a ∈ win, P a) → ∀ f, (records comp win).head? = some f →
      ∀ v ∈ win, comp f v = true
  | [], _, f, h, _, _ => by simp [records] at h
  | a :: l, hP, f, h, v, hv => by
    have hPl : ∀ b ∈ l, P b := fun b hb => hP b (by simp [hb])
    rw [records] at h
    split at h
    · next hall =>
      simp at h; subst h
      rcases List.mem_cons.1 hv with rfl | hv
      · rcases htot v v (hP v (by simp)) (hP v (by simp)) with h | h <;> exact h
      · exact List.all_eq_true.1 hall v hv
    · next hall =>
      have ih := records_front_total P comp htr htot l hPl f h
      rcases List.mem_cons.1 hv with rfl | hv
      · have hex : ∃ b ∈ l, comp v b ≠ true := by
          by_contra hc; push Not at hc
          exact hall (List.all_eq_true.2 hc)
        obtain ⟨b, hb, hvb⟩ := hex
        have hf : f ∈ l := (records_sublist comp l).subset (List.mem_of_mem_head? h)
        have hPv := hP v (by simp)
        rcases htot v b hPv (hPl b hb) with h' | h'
        · exact absurd h' hvb
        · exact htr f b v (hPl f hf) (hPl b hb) hPv (ih b hb) h'
      · exact ih v hv

/-- The same for a strict weak ordering. -/
theorem records_front_strict (P : α → Prop) (comp : α → α → Bool)
    (htr : ∀ a b c, P a → P b → P c → comp a b = true → comp b c = true → comp a c = true)
    (hirr : ∀ a, P a → comp a a = false)
    (hneg : ∀ a b c, P a → P b → P c → comp a b = false → comp b c = false → comp a c = false) :
    ∀ win, (∀ a ∈ win, P a) → ∀ f, (records comp win).head? = some f →
      ∀ v ∈ win, comp v f = false
  | [], _, f, h, _, _ => by simp [records] at h
  | a :: l, hP, f, h, v, hv => by
    have hPl : ∀ b ∈ l, P b := fun b hb => hP b (by simp [hb])
    rw [records] at h
    split at h
    · next hall =>
      simp at h; subst h
      rcases List.mem_cons.1 hv with rfl | hv
      · exact hirr v (hP v (by simp))
      · have h1 := List.all_eq_true.1 hall v hv
        by_contra hc
        simp only [Bool.not_eq_false] at hc
        have := htr a v a (hP a (by simp)) (hPl v hv) (hP a (by simp)) h1 hc
        rw [hirr a (hP a (by simp))] at this; simp at this
    · next hall =>
      have ih := records_front_strict P comp htr hirr hneg l hPl f h
      rcases List.mem_cons.1 hv with rfl | hv
      · have hex : ∃ b ∈ l, comp v b ≠ true := by
          by_contra hc; push Not at hc
          exact hall (List.all_eq_true.2 hc)
        obtain ⟨b, hb, hvb⟩ := hex
        have hf : f ∈ l := (records_sublist comp l).subset (List.mem_of_mem_head? h)
        have hPv := hP v (by simp)
        exact hneg v b f hPv (hPl b hb) (hPl f hf) (by simpa using hvb) (ih b hb)
      · exact ih v hv

/-- Dropping the expired values from the front of the wedge gives the wedge of the values that are not
expired. -/
theorem records_expire (comp : α → α → Bool) (p : α → Bool) (new : List α) (hn : ∀ a ∈ new, p a = false) :
    ∀ old : List α, (∀ a ∈ old, p a = true) →
      (records comp (old ++ new)).dropWhile p = records comp new
  | [], _ => by
    rw [List.nil_append]
    cases h : records comp new with
    | nil => rfl
    | cons a w =>
      have : a ∈ new := (records_sublist comp new).subset (by rw [h]; simp)
      rw [List.dropWhile_cons, if_neg (by simp [hn a this])]
  | a :: old, ho => by
    have ih := records_expire comp p new hn old (fun b hb => ho b (by simp [hb]))
    rw [List.cons_append, records]
    split
    · rw [List.dropWhile_cons, if_pos (ho a (by simp)), ih]
    · exact ih

end Verif
