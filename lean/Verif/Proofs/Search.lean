import Verif.Model.Search

/-! # `std::lower_bound` finds the partition point -/

namespace Verif

variable {α : Type}

theorem isPartitioned_iff (p : α → Bool) (l : List α) :
    isPartitioned p l = true ↔ ∃ l₁ l₂, l = l₁ ++ l₂ ∧ (∀ a ∈ l₁, p a = true) ∧ ∀ a ∈ l₂, p a = false := by
  induction l with
  | nil => exact ⟨fun _ => ⟨[], [], by simp⟩, fun _ => rfl⟩
  | cons a l ih =>
    simp only [isPartitioned]
    by_cases h : p a = true
    · simp only [h, if_true, ih]
      constructor
      · rintro ⟨l₁, l₂, rfl, h1, h2⟩
        exact ⟨a :: l₁, l₂, rfl, by simpa [h] using h1, h2⟩
      · rintro ⟨l₁, l₂, e, h1, h2⟩
        cases l₁ with
        | nil => simp at e; subst e; simp [h] at h2
        | cons b l₁ =>
          simp at e; obtain ⟨rfl, rfl⟩ := e
          exact ⟨l₁, l₂, rfl, fun x hx => h1 x (by simp [hx]), h2⟩
    · simp only [h, if_false, Bool.false_eq_true, List.all_eq_true]
      simp at h
      constructor
      · intro h'
        exact ⟨[], a :: l, rfl, by simp, by simpa [h] using h'⟩
      · rintro ⟨l₁, l₂, e, h1, h2⟩
        cases l₁ with
        | nil => simp at e; subst e; intro x hx; simp [h2 x (by simp [hx])]
        | cons b l₁ =>
          simp at e; obtain ⟨rfl, rfl⟩ := e
          have := h1 a (by simp); simp [h] at this

theorem lowerBoundLoop_eq (p : α → Bool) (l₁ l₂ : List α) (h1 : ∀ a ∈ l₁, p a = true)
    (h2 : ∀ a ∈ l₂, p a = false) : ∀ fuel first len, len ≤ fuel → first ≤ l₁.length →
    l₁.length ≤ first + len → first + len ≤ l₁.length + l₂.length →
    lowerBoundLoop p (l₁ ++ l₂) fuel first len = l₁.length := by
  intro fuel
  induction fuel with
  | zero => intro first len hl h3 h4 h5; simp [lowerBoundLoop]; omega
  | succ fuel ih =>
    intro first len hl h3 h4 h5
    rw [lowerBoundLoop]
    by_cases h0 : len = 0
    · simp [h0]; omega
    · rw [if_neg h0]
      have hlt : first + len / 2 < (l₁ ++ l₂).length := by simp; omega
      simp only [List.getElem?_eq_getElem hlt]
      by_cases hk : first + len / 2 < l₁.length
      · have hp : p (l₁ ++ l₂)[first + len / 2] = true := by
          rw [List.getElem_append_left hk]; exact h1 _ (List.getElem_mem _)
        simp only [hp, if_true]
        apply ih <;> omega
      · have hp : p (l₁ ++ l₂)[first + len / 2] = false := by
          rw [List.getElem_append_right (by omega)]; exact h2 _ (List.getElem_mem _)
        simp only [hp, Bool.false_eq_true, if_false]
        apply ih <;> omega

/-- On a partitioned range, `lower_bound` returns the partition point. -/
theorem lowerBound_append (p : α → Bool) (l₁ l₂ : List α) (h1 : ∀ a ∈ l₁, p a = true)
    (h2 : ∀ a ∈ l₂, p a = false) : lowerBound p (l₁ ++ l₂) = .ok l₁.length := by
  rw [lowerBound, if_pos ((isPartitioned_iff p _).2 ⟨l₁, l₂, rfl, h1, h2⟩)]
  congr 1
  apply lowerBoundLoop_eq p l₁ l₂ h1 h2 <;> simp

theorem lowerBound_ok {p : α → Bool} {l : List α} {k : Nat} (h : lowerBound p l = .ok k) :
    ∃ l₁ l₂, l = l₁ ++ l₂ ∧ (∀ a ∈ l₁, p a = true) ∧ (∀ a ∈ l₂, p a = false) ∧ k = l₁.length := by
  unfold lowerBound at h
  split at h
  · rename_i hp
    obtain ⟨l₁, l₂, rfl, h1, h2⟩ := (isPartitioned_iff p l).1 hp
    refine ⟨l₁, l₂, rfl, h1, h2, ?_⟩
    have := lowerBound_append p l₁ l₂ h1 h2
    rw [lowerBound, if_pos hp, h] at this
    simpa using this
  · cases h

/-- The outcome only depends on the Boolean values of the predicate. -/
theorem lowerBoundLoop_map {β : Type} (f : β → α) (p : α → Bool) (l : List β) :
    ∀ fuel first len, lowerBoundLoop p (l.map f) fuel first len =
      lowerBoundLoop (fun b => p (f b)) l fuel first len := by
  intro fuel
  induction fuel with
  | zero => intros; rfl
  | succ n ih =>
    intro first len
    simp only [lowerBoundLoop, List.getElem?_map]
    split
    · rfl
    · cases l[first + len / 2]? <;> simp [ih]

theorem isPartitioned_map {β : Type} (f : β → α) (p : α → Bool) (l : List β) :
    isPartitioned p (l.map f) = isPartitioned (fun b => p (f b)) l := by
  induction l with
  | nil => rfl
  | cons a l ih => simp [isPartitioned, ih, List.all_map, Function.comp_def]

theorem lowerBound_map {β : Type} (f : β → α) (p : α → Bool) (l : List β) :
    lowerBound p (l.map f) = lowerBound (fun b => p (f b)) l := by
  simp [lowerBound, isPartitioned_map, lowerBoundLoop_map]

end Verif
