import Verif.Model.Wedge
import Verif.Proofs.Search

/-!
# The monotonic wedge
-/

namespace Verif

variable {α : Type}

theorem shift_pos {n i : Nat} (h : (n >>> i) > 0) : 0 < n := by
  rcases Nat.eq_zero_or_pos n with rfl | h'
  · simp at h
  · exact h'

theorem monoWedgeSearchLoop_stop (comp : α → α → Bool) (w : List α) (v : α) (fuel i : Nat)
    (h : ¬ ((w.length - i) >>> i) > 0) : monoWedgeSearchLoop comp w v fuel i =
      lowerBound (fun e => comp e v) (w.take (w.length - i + 1)) := by
  cases fuel <;> (unfold monoWedgeSearchLoop; simp only [h, decide_false])

theorem monoWedgeSearchLoop_go (comp : α → α → Bool) (w : List α) (v : α) (fuel i : Nat)
    (h : ((w.length - i) >>> i) > 0) : monoWedgeSearchLoop comp w v (fuel + 1) i =
      match w[w.length - i]? with
      | none => .ub .derefEnd
      | some e =>
        if comp e v then .ok (w.length - i + 1)
        else monoWedgeSearchLoop comp w v fuel (i + 1) := by
  rw [monoWedgeSearchLoop.eq_def]; simp only [h, decide_true]; rfl

/-- The search finds the partition point. -/
theorem monoWedgeSearchLoop_eq (comp : α → α → Bool) (v : α) (l₁ l₂ : List α)
    (h1 : ∀ a ∈ l₁, comp a v = true) (h2 : ∀ a ∈ l₂, comp a v = false) :
    ∀ fuel i, 1 ≤ i → (l₁ ++ l₂).length ≤ fuel + i → i ≤ l₂.length + 1 → i ≤ (l₁ ++ l₂).length →
    monoWedgeSearchLoop comp (l₁ ++ l₂) v fuel i = .ok l₁.length := by
  intro fuel
  induction fuel with
  | zero =>
    intro i hi hf hl hle
    have h0 : ((l₁ ++ l₂).length - i) = 0 := by omega
    rw [monoWedgeSearchLoop_stop _ _ _ _ _ (by rw [h0]; simp), h0, Nat.zero_add]
    obtain ⟨k, hk⟩ : ∃ k, (l₁ ++ l₂).take 1 = l₁ ++ l₂.take k := by
      cases l₁ with
      | nil => exact ⟨1, rfl⟩
      | cons a l₁ =>
        have : l₁ = [] := by
          simp only [List.cons_append, List.length_cons, List.length_append] at *
          exact List.eq_nil_of_length_eq_zero (by omega)
        subst this
        exact ⟨0, by simp⟩
    rw [hk]
    exact lowerBound_append (fun e => comp e v) l₁ _ h1 fun a ha => h2 a (List.mem_of_mem_take ha)
  | succ fuel ih =>
    intro i hi hf hl hle
    by_cases hc : (((l₁ ++ l₂).length - i) >>> i) > 0
    · have hpos := shift_pos hc
      rw [monoWedgeSearchLoop_go _ _ _ _ _ hc]
      have hlt : (l₁ ++ l₂).length - i < (l₁ ++ l₂).length := by omega
      rw [List.getElem?_eq_getElem hlt]
      simp only
      by_cases hk : (l₁ ++ l₂).length - i < l₁.length
      · have : comp ((l₁ ++ l₂)[(l₁ ++ l₂).length - i]) v = true := by
          rw [List.getElem_append_left hk]; exact h1 _ (List.getElem_mem _)
        rw [if_pos this]
        congr 1
        simp only [List.length_append] at *
        omega
      · have : comp ((l₁ ++ l₂)[(l₁ ++ l₂).length - i]) v = false := by
          rw [List.getElem_append_right (by omega)]; exact h2 _ (List.getElem_mem _)
        rw [if_neg (by rw [this]; exact Bool.false_ne_true)]
        apply ih
        · omega
        · omega
        · simp only [List.length_append] at *; omega
        · omega
    · rw [monoWedgeSearchLoop_stop _ _ _ _ _ hc]
      have : (l₁ ++ l₂).take ((l₁ ++ l₂).length - i + 1) =
          l₁ ++ l₂.take ((l₁ ++ l₂).length - i + 1 - l₁.length) := by
        rw [List.take_append, List.take_of_length_le]
        simp only [List.length_append] at *; omega
      rw [this]
      exact lowerBound_append (fun e => comp e v) l₁ _ h1 fun a ha => h2 a (List.mem_of_mem_take ha)

theorem monoWedgeSearch_eq (comp : α → α → Bool) (v : α) (l₁ l₂ : List α)
    (h1 : ∀ a ∈ l₁, comp a v = true) (h2 : ∀ a ∈ l₂, comp a v = false) :
    monoWedgeSearch comp (l₁ ++ l₂) v = .ok l₁.length := by
  unfold monoWedgeSearch
  split
  · next h => simp only [List.length_append] at h; congr 1; omega
  · next h => exact monoWedgeSearchLoop_eq comp v l₁ l₂ h1 h2 _ 1 (by omega) (by omega) (by omega) (by omega)

/-- The search never runs forever. -/
theorem monoWedgeSearchLoop_ne (comp : α → α → Bool) (v : α) (w : List α) :
    ∀ fuel i, w.length ≤ fuel + i →
    (∃ k, monoWedgeSearchLoop comp w v fuel i = .ok k) ∨ ∃ u, monoWedgeSearchLoop comp w v fuel i = .ub u := by
  have hlb : ∀ l, (∃ k, lowerBound (fun e => comp e v) l = .ok k) ∨
      ∃ u, lowerBound (fun e => comp e v) l = .ub u := by
    intro l; unfold lowerBound
    split
    · exact .inl ⟨_, rfl⟩
    · exact .inr ⟨_, rfl⟩
  intro fuel
  induction fuel with
  | zero =>
    intro i hf
    have h0 : (w.length - i) = 0 := by omega
    rw [monoWedgeSearchLoop_stop _ _ _ _ _ (by simp [h0])]
    exact hlb _
  | succ fuel ih =>
    intro i hf
    by_cases hc : ((w.length - i) >>> i) > 0
    · rw [monoWedgeSearchLoop_go _ _ _ _ _ hc]
      cases w[w.length - i]? with
      | none => exact .inr ⟨_, rfl⟩
      | some e =>
        simp only
        split
        · exact .inl ⟨_, rfl⟩
        · exact ih (i + 1) (by omega)
    · rw [monoWedgeSearchLoop_stop _ _ _ _ _ hc]
      exact hlb _

theorem monoWedgeUpdate_ne (comp : α → α → Bool) (v : α) (w : List α) :
    (∃ k, monoWedgeUpdate comp w v = .ok (w.take k ++ [v])) ∨ ∃ u, monoWedgeUpdate comp w v = .ub u := by
  unfold monoWedgeUpdate monoWedgeSearch
  split
  · exact .inl ⟨0, rfl⟩
  · rcases monoWedgeSearchLoop_ne comp v w w.length 1 (by omega) with ⟨k, h⟩ | ⟨u, h⟩
    · exact .inl ⟨k, by simp [h]⟩
    · exact .inr ⟨u, by simp [h]⟩

end Verif
