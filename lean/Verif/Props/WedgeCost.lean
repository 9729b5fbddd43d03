import Verif.Model.WedgeCost
import Verif.Proofs.Wedge
import Mathlib.Tactic.Ring
import Mathlib.Data.Nat.Log

/-!
# The cost of the monotonic wedge: C74
-/

namespace Verif
open Spec

variable {α : Type}

/-! ## The counting functions compute the same -/

theorem lowerBoundLoopC_fst (p : α → Bool) (l : List α) : ∀ fuel first len,
    (lowerBoundLoopC p l fuel first len).1 = lowerBoundLoop p l fuel first len
  | 0, _, _ => rfl
  | fuel + 1, first, len => by
    unfold lowerBoundLoopC lowerBoundLoop
    split
    · rfl
    · dsimp only
      cases l[first + len / 2]? with
      | none => rfl
      | some mid =>
        dsimp only
        split
        · exact lowerBoundLoopC_fst p l fuel _ _
        · exact lowerBoundLoopC_fst p l fuel _ _

theorem lowerBoundC_fst (p : α → Bool) (l : List α) :
    (lowerBoundC p l).map' Prod.fst = lowerBound p l := by
  unfold lowerBoundC lowerBound
  split
  · simp [Outcome.map', lowerBoundLoopC_fst]
  · rfl

theorem monoWedgeSearchLoopC_stop (comp : α → α → Bool) (w : List α) (v : α) (fuel i n : Nat)
    (h : ¬ ((w.length - i) >>> i) > 0) : monoWedgeSearchLoopC comp w v fuel i n =
      (lowerBoundC (fun e => comp e v) (w.take (w.length - i + 1))).map' fun r => (r.1, n + r.2) := by
  have : ∀ o : Outcome (Nat × Nat), (o >>= fun r => (pure (r.1, n + r.2) : Outcome _)) =
      o.map' fun r => (r.1, n + r.2) := by intro o; cases o <;> rfl
  cases fuel <;> (unfold monoWedgeSearchLoopC; simp only [h, decide_false]; exact this _)

theorem monoWedgeSearchLoopC_go (comp : α → α → Bool) (w : List α) (v : α) (fuel i n : Nat)
    (h : ((w.length - i) >>> i) > 0) : monoWedgeSearchLoopC comp w v (fuel + 1) i n =
      match w[w.length - i]? with
      | none => .ub .derefEnd
      | some e =>
        if comp e v then .ok (w.length - i + 1, n + 1)
        else monoWedgeSearchLoopC comp w v fuel (i + 1) (n + 1) := by
  rw [monoWedgeSearchLoopC.eq_def]; simp only [h, decide_true]; rfl

theorem monoWedgeSearchLoopC_zero (comp : α → α → Bool) (w : List α) (v : α) (i n : Nat)
    (h : ((w.length - i) >>> i) > 0) : monoWedgeSearchLoopC comp w v 0 i n = .diverge := by
  rw [monoWedgeSearchLoopC.eq_def]; simp only [h, decide_true]

theorem monoWedgeSearchLoopC_fst (comp : α → α → Bool) (w : List α) (v : α) : ∀ fuel i n,
    (monoWedgeSearchLoopC comp w v fuel i n).map' Prod.fst = monoWedgeSearchLoop comp w v fuel i := by
  intro fuel
  induction fuel with
  | zero =>
    intro i n
    by_cases h : ((w.length - i) >>> i) > 0
    · rw [monoWedgeSearchLoopC_zero _ _ _ _ _ h, monoWedgeSearchLoop.eq_def]
      simp only [h, decide_true]; rfl
    · rw [monoWedgeSearchLoopC_stop _ _ _ _ _ _ h, monoWedgeSearchLoop_stop _ _ _ _ _ h, ← lowerBoundC_fst]
      cases lowerBoundC (fun e => comp e v) (w.take (w.length - i + 1)) <;> rfl
  | succ fuel ih =>
    intro i n
    by_cases h : ((w.length - i) >>> i) > 0
    · rw [monoWedgeSearchLoopC_go _ _ _ _ _ _ h, monoWedgeSearchLoop_go _ _ _ _ _ h]
      cases w[w.length - i]? with
      | none => rfl
      | some e =>
        dsimp only
        split
        · rfl
        · exact ih _ _
    · rw [monoWedgeSearchLoopC_stop _ _ _ _ _ _ h, monoWedgeSearchLoop_stop _ _ _ _ _ h, ← lowerBoundC_fst]
      cases lowerBoundC (fun e => comp e v) (w.take (w.length - i + 1)) <;> rfl

theorem monoWedgeUpdateC_fst (comp : α → α → Bool) (w : List α) (v : α) :
    (monoWedgeUpdateC comp w v).map' Prod.fst = monoWedgeUpdate comp w v := by
  have : (monoWedgeSearchC comp w v).map' Prod.fst = monoWedgeSearch comp w v := by
    unfold monoWedgeSearchC monoWedgeSearch
    split
    · rfl
    · exact monoWedgeSearchLoopC_fst comp w v _ _ _
  unfold monoWedgeUpdateC monoWedgeUpdate
  rw [← this]
  cases monoWedgeSearchC comp w v <;> rfl

theorem wedgeAfterC_fst (comp : α → α → Bool) : ∀ (ops : List (WedgeOp α)) (w : List α),
    (wedgeAfterC comp w ops).map' Prod.fst = wedgeAfter comp w ops
  | [], _ => rfl
  | .push v :: ops, w => by
    rw [wedgeAfterC, wedgeAfter, ← monoWedgeUpdateC_fst]
    cases h : monoWedgeUpdateC comp w v with
    | ok r =>
      show ((wedgeAfterC comp r.1 ops >>= fun r' => (pure (r'.1, r.2 + r'.2) : Outcome _))).map' Prod.fst =
        wedgeAfter comp r.1 ops
      rw [← wedgeAfterC_fst comp ops r.1]
      cases wedgeAfterC comp r.1 ops <;> rfl
    | _ => rfl
  | .popFront :: ops, [] => rfl
  | .popFront :: ops, a :: w => by
    rw [wedgeAfterC, wedgeAfter]; exact wedgeAfterC_fst comp ops w

/-! ## Bounds -/

/-- The binary search compares at most `k` times if the range is shorter than `2 ^ k`. -/
theorem lowerBoundLoopC_cost (p : α → Bool) (l : List α) : ∀ fuel first len k, len < 2 ^ k →
    (lowerBoundLoopC p l fuel first len).2 ≤ k
  | 0, _, _, _, _ => Nat.zero_le _
  | fuel + 1, first, len, k, h => by
    unfold lowerBoundLoopC
    split
    · exact Nat.zero_le _
    · next h0 =>
      dsimp only
      cases l[first + len / 2]? with
      | none => exact Nat.zero_le _
      | some mid =>
        dsimp only
        cases k with
        | zero => simp at h; omega
        | succ k =>
          rw [pow_succ] at h
          apply Nat.succ_le_succ
          split
          · exact lowerBoundLoopC_cost p l fuel _ _ k (by omega)
          · exact lowerBoundLoopC_cost p l fuel _ _ k (by omega)

theorem lowerBoundC_spec {p : α → Bool} {l : List α} {r : Nat × Nat} (h : lowerBoundC p l = .ok r) :
    r.1 ≤ l.length ∧ ∀ k, l.length < 2 ^ k → r.2 ≤ k := by
  have h1 := lowerBoundC_fst p l
  unfold lowerBoundC at h
  split at h
  · have h2 : r = lowerBoundLoopC p l l.length 0 l.length := by injection h with h; exact h.symm
    have h3 : lowerBound p l = .ok r.1 := by
      rw [← h1, lowerBoundC, if_pos (by assumption), h2]; rfl
    refine ⟨?_, fun k hk => ?_⟩
    · obtain ⟨l₁, l₂, e, -, -, hl⟩ := lowerBound_ok h3
      rw [e]; simp; omega
    · rw [h2]; exact lowerBoundLoopC_cost p l _ _ _ _ hk
  · cases h

theorem shiftRight_pos_iff (n i : Nat) : (n >>> i) > 0 ↔ 2 ^ i ≤ n := by
  rw [Nat.shiftRight_eq_div_pow]
  constructor
  · intro h; by_contra hn
    rw [Nat.div_eq_of_lt (by omega)] at h; omega
  · intro h; exact Nat.div_pos h (Nat.two_pow_pos i)

/-- The comparisons of one search: at most two more than twice the number of erased elements, and
logarithmic in the size of the wedge. -/
theorem searchLoopC_cost (comp : α → α → Bool) (w : List α) (v : α) : ∀ fuel i n r, 1 ≤ i → i ≤ w.length →
    n + 1 = i → (∀ j, 1 ≤ j → j < i → 2 ^ j ≤ w.length) →
    monoWedgeSearchLoopC comp w v fuel i n = .ok r →
    r.1 ≤ w.length ∧ r.2 ≤ 2 * (w.length - r.1) + 2 ∧ r.2 ≤ 2 * Nat.log 2 w.length + 2 := by
  intro fuel
  have stop : ∀ i n r fuel, 1 ≤ i → i ≤ w.length → n + 1 = i → (∀ j, 1 ≤ j → j < i → 2 ^ j ≤ w.length) →
      ¬ ((w.length - i) >>> i) > 0 → monoWedgeSearchLoopC comp w v fuel i n = .ok r →
      r.1 ≤ w.length ∧ r.2 ≤ 2 * (w.length - r.1) + 2 ∧ r.2 ≤ 2 * Nat.log 2 w.length + 2 := by
    intro i n r fuel h1 h2 h3 h4 h h5
    rw [monoWedgeSearchLoopC_stop _ _ _ _ _ _ h] at h5
    cases h6 : lowerBoundC (fun e => comp e v) (w.take (w.length - i + 1)) with
    | ok s =>
      rw [h6] at h5
      have h7 : (s.1, n + s.2) = r := by injection h5
      obtain ⟨h8, h9⟩ := lowerBoundC_spec h6
      rw [shiftRight_pos_iff, not_le] at h
      have h10 := h9 (i + 1) (by rw [List.length_take, pow_succ]; omega)
      rw [List.length_take] at h8
      have h11 : n ≤ Nat.log 2 w.length := by
        rcases Nat.eq_zero_or_pos n with rfl | hn
        · omega
        · exact Nat.le_log_of_pow_le (by omega) (h4 n hn (by omega))
      subst h7
      dsimp only
      omega
    | _ => rw [h6] at h5; cases h5
  induction fuel with
  | zero =>
    intro i n r h1 h2 h3 h4 h5
    by_cases h : ((w.length - i) >>> i) > 0
    · rw [monoWedgeSearchLoopC_zero _ _ _ _ _ h] at h5; cases h5
    · exact stop i n r 0 h1 h2 h3 h4 h h5
  | succ fuel ih =>
    intro i n r h1 h2 h3 h4 h5
    by_cases h : ((w.length - i) >>> i) > 0
    · rw [monoWedgeSearchLoopC_go _ _ _ _ _ _ h] at h5
      rw [shiftRight_pos_iff] at h
      have hi : 2 ^ i ≤ w.length := by omega
      have hlt : i < 2 ^ i := Nat.lt_two_pow_self
      rw [List.getElem?_eq_getElem (by omega)] at h5
      dsimp only at h5
      split at h5
      · have h7 : (w.length - i + 1, n + 1) = r := by injection h5
        subst h7
        have := Nat.le_log_of_pow_le (b := 2) (by omega) hi
        dsimp only; omega
      · refine ih (i + 1) (n + 1) r (by omega) (by omega) (by omega) ?_ h5
        intro j hj1 hj2
        rcases Nat.lt_succ_iff_lt_or_eq.1 hj2 with hj | rfl
        · exact h4 j hj1 hj
        · exact hi
    · exact stop i n r (fuel + 1) h1 h2 h3 h4 h h5

/-! ## C74 -/

/-- **C74.** One update of a wedge with `n > 0` elements makes at most `2 * log2 n + 2` comparisons, and at
most two more than twice the number of elements it erases; an update of an empty wedge makes none. -/
theorem C74_update (comp : α → α → Bool) (w w' : List α) (v : α) (c : Nat)
    (h : monoWedgeUpdateC comp w v = .ok (w', c)) :
    monoWedgeUpdate comp w v = .ok w' ∧ w'.length ≤ w.length + 1 ∧
    c ≤ 2 * (w.length + 1 - w'.length) + 2 ∧ c ≤ 2 * Nat.log 2 w.length + 2 ∧ (w = [] → c = 0) := by
  refine ⟨by rw [← monoWedgeUpdateC_fst, h]; rfl, ?_⟩
  unfold monoWedgeUpdateC monoWedgeSearchC at h
  split at h
  · next h0 =>
    have h0 : w = [] := List.eq_nil_of_length_eq_zero h0
    subst h0
    have : ([v], 0) = (w', c) := by injection h
    injection this with h1 h2
    subst h1 h2
    simp
  · next h0 =>
    cases h1 : monoWedgeSearchLoopC comp w v w.length 1 0 with
    | ok r =>
      rw [h1] at h
      have h2 : (w.take r.1 ++ [v], r.2) = (w', c) := by injection h
      injection h2 with h2 h3
      obtain ⟨h4, h5, h6⟩ := searchLoopC_cost comp w v _ 1 0 r (le_refl _) (by omega) rfl (by omega) h1
      have h7 : w'.length = r.1 + 1 := by rw [← h2]; simp; omega
      refine ⟨by omega, by omega, by omega, ?_⟩
      rintro rfl; simp at h0
    | _ => rw [h1] at h; cases h

/-- The number of updates. -/
def pushes : List (WedgeOp α) → Nat
  | [] => 0
  | .push _ :: ops => pushes ops + 1
  | .popFront :: ops => pushes ops

theorem wedgeAfterC_cost (comp : α → α → Bool) : ∀ (ops : List (WedgeOp α)) (w w' : List α) (c : Nat),
    wedgeAfterC comp w ops = .ok (w', c) → c + 2 * w'.length ≤ 2 * w.length + 4 * pushes ops
  | [], w, w', c, h => by
    have : (w, 0) = (w', c) := by injection h
    injection this with h1 h2
    subst h1 h2; simp [pushes]
  | .push v :: ops, w, w', c, h => by
    rw [wedgeAfterC] at h
    cases h1 : monoWedgeUpdateC comp w v with
    | ok r =>
      rw [h1, Outcome.bind_ok] at h
      cases h2 : wedgeAfterC comp r.1 ops with
      | ok r' =>
        rw [h2, Outcome.bind_ok] at h
        have h3 : (r'.1, r.2 + r'.2) = (w', c) := by injection h
        injection h3 with h3 h4
        have h5 := wedgeAfterC_cost comp ops r.1 r'.1 r'.2 h2
        obtain ⟨-, h6, h7, -⟩ := C74_update comp w r.1 v r.2 h1
        rw [h3] at h5
        simp only [pushes]
        omega
      | _ => rw [h2] at h; cases h
    | _ => rw [h1] at h; cases h
  | .popFront :: ops, [], w', c, h => by cases h
  | .popFront :: ops, a :: w, w', c, h => by
    rw [wedgeAfterC] at h
    have := wedgeAfterC_cost comp ops w w' c h
    simp only [pushes, List.length_cons]; omega

/-- **C74**, amortized: a sequence of operations on a wedge that is empty at first makes at most four
comparisons per update, whatever `comp` is. -/
theorem C74_amortized (comp : α → α → Bool) (ops : List (WedgeOp α)) (w : List α) (c : Nat)
    (h : wedgeAfterC comp [] ops = .ok (w, c)) :
    wedgeAfter comp [] ops = .ok w ∧ c ≤ 4 * pushes ops := by
  refine ⟨by rw [← wedgeAfterC_fst, h]; rfl, ?_⟩
  have := wedgeAfterC_cost comp ops [] w c h
  simp at this; omega

/-- The comparisons are counted in every run that does not fail: the counting functions fail if and only if
the functions of the model do. -/
theorem C74_total (comp : α → α → Bool) (ops : List (WedgeOp α)) (w : List α) :
    wedgeAfter comp [] ops = .ok w ↔ ∃ c, wedgeAfterC comp [] ops = .ok (w, c) := by
  rw [← wedgeAfterC_fst]
  cases wedgeAfterC comp [] ops with
  | ok r =>
    simp only [Outcome.map', Outcome.ok.injEq]
    constructor
    · rintro rfl; exact ⟨r.2, rfl⟩
    · rintro ⟨c, rfl⟩; rfl
  | _ => simp [Outcome.map']

-- sixteen values in order, then a smallest one: two linear steps and a binary search
example : monoWedgeUpdateC (fun a b : Nat => decide (a ≤ b)) (List.range' 1 16) 0 = .ok ([0], 7) ∧
    2 * Nat.log 2 16 + 2 = 10 := by decide +kernel
example : wedgeAfterC (fun a b : Nat => decide (a ≤ b)) []
    [.push 3, .push 1, .push 4, .push 1, .push 5, .popFront, .push 2] = .ok ([1, 2], 7) := by decide +kernel
/-- The comment in the header, "complexity is below log2(N)", is not to be taken literally: there are `c`
comparisons with `c > 2 * log2 N`. -/
theorem C74_log_literal_refuted : ∃ (w : List Nat) (v c : Nat), w.Pairwise (· ≤ ·) ∧ w ≠ [] ∧
    monoWedgeUpdateC (fun a b : Nat => decide (a ≤ b)) w v = .ok ([v], c) ∧ 2 ^ c > w.length ^ 2 :=
  ⟨List.range' 1 11, 0, 7, by decide +kernel, by decide +kernel, by decide +kernel, by decide +kernel⟩

end Verif
