import Verif.Proofs.Flag
import Verif.Proofs.Errors

/-!
# C66: the flag `synchronized` for any number of operands

`FlagHarmless` (Props/Lattice.lean) is the claim, and it is false for three operands.  Here is exactly when the flag makes
a difference in a debug build, and a condition under which it makes none in either build.
-/

set_option linter.unusedSectionVars false

namespace Verif
open Spec

variable {K : Type} [Field K] [LinearOrder K] [IsStrictOrderedRing K] [Arith K]

/-- `z` is the result of combining the first `k` of the signals without the flag. -/
def Intermediate (f : Bool → List (Signal K) → Bool → Outcome (Signal K)) (nd : Bool) (xs : List (Signal K))
    (k : Nat) (z : Signal K) : Prop := 2 ≤ k ∧ k < xs.length ∧ f nd (xs.take k) false = .ok z

/-- The functions for which C66 is stated. -/
def FlagFun (f : Bool → List (Signal K) → Bool → Outcome (Signal K)) : Prop :=
  f = elementwiseMinFlag ∨ f = elementwiseMaxFlag

theorem flagFun_eq {f : Bool → List (Signal K) → Bool → Outcome (Signal K)} (hf : FlagFun f) :
    ∃ comp : Cmp K, f = fun nd xs sy => minmaxVec nd comp xs sy := by
  rcases hf with rfl | rfl
  · exact ⟨_, rfl⟩
  · exact ⟨_, rfl⟩

/-- Without the flag no assertion fails. -/
theorem flagFun_abort {f : Bool → List (Signal K) → Bool → Outcome (Signal K)} (hf : FlagFun f) (xs : List (Signal K)) :
    f false xs false ≠ .abort := by
  obtain ⟨comp, rfl⟩ := flagFun_eq hf
  intro h
  have := minmaxVec_calm (l := [.invalidArgument]) (by simp) false comp xs
  simp only at h
  rw [h] at this
  exact this

/-- **C66, partial: no new timestamps.**  If the results of combining the first operands, without the last ones, have
no more samples than the operands, then the flag changes nothing, in both builds, for every rounding.  Missing: the
other cases, where the claim is false (`C66_refuted`, `C66_debug_partial`). -/
theorem C66_same_size_partial (f : Bool → List (Signal K) → Bool → Outcome (Signal K)) (hf : FlagFun f) (nd : Bool)
    (xs : List (Signal K)) (h : SyncedSignals xs)
    (hk : ∀ k z, Intermediate f nd xs k z → ∀ x ∈ xs, z.size = x.size) : f nd xs true = f nd xs false := by
  obtain ⟨comp, rfl⟩ := flagFun_eq hf
  cases xs with
  | nil => rfl
  | cons x xs =>
    simp only [minmaxVec_cons_fold]
    refine fold_flag nd comp xs x h fun k hlt z hz => ?_
    cases k with
    | zero =>
      simp only [List.take_zero, minmaxFold, Outcome.ok.injEq] at hz
      rw [hz]
    | succ k =>
      refine hk (k + 2) z ⟨by omega, by simp only [List.length_cons]; omega, ?_⟩ x (by simp)
      simp only [List.take_succ_cons, minmaxVec_cons_fold] at hz ⊢
      exact hz

/-- **C66, partial: debug builds.**  In a debug build the flag is a checked hint: the outcome is that without the flag,
or an assertion fails; and an assertion fails exactly if some intermediate result has a new timestamp. -/
theorem C66_debug_partial (f : Bool → List (Signal K) → Bool → Outcome (Signal K)) (hf : FlagFun f)
    (xs : List (Signal K)) (h : SyncedSignals xs) :
    (f false xs true = f false xs false ∨ f false xs true = .abort) ∧
    (f false xs true = .abort ↔
      ∃ k z, Intermediate f false xs k z ∧ ∀ x ∈ xs, z.size ≠ x.size) := by
  have key : (∀ k z, Intermediate f false xs k z → ∀ x ∈ xs, z.size = x.size) ∨
      ∃ k z, Intermediate f false xs k z ∧ ∀ x ∈ xs, z.size ≠ x.size := by
    by_cases hc : ∀ k z, Intermediate f false xs k z → ∀ x ∈ xs, z.size = x.size
    · exact .inl hc
    · right
      push Not at hc
      obtain ⟨k, z, hi, x, hx, hne⟩ := hc
      exact ⟨k, z, hi, fun y hy => by rw [h.size hy hx]; exact hne⟩
  rcases key with hk | hk
  · have e := C66_same_size_partial f hf false xs h hk
    refine ⟨.inl e, fun ha => ?_, ?_⟩
    · rw [e] at ha
      exact absurd ha (flagFun_abort hf xs)
    · rintro ⟨k, z, hi, hne⟩
      have : 0 < xs.length := by have := hi.2.1; omega
      obtain ⟨x, l, rfl⟩ := List.exists_cons_of_ne_nil (List.length_pos_iff.1 this)
      exact absurd (hk k z hi x (by simp)) (hne x (by simp))
  · have ha : f false xs true = .abort := by
      obtain ⟨k, z, ⟨h2, hlt, hz⟩, hne⟩ := hk
      obtain ⟨comp, rfl⟩ := flagFun_eq hf
      cases xs with
      | nil => simp at hlt
      | cons x xs =>
        obtain ⟨k, rfl⟩ : ∃ k', k = k' + 1 := ⟨k - 1, by omega⟩
        simp only [List.take_succ_cons, minmaxVec_cons_fold] at hz ⊢
        exact fold_abort comp xs x h k (by simpa using hlt) z hz (hne x (by simp))
    exact ⟨.inr ha, fun _ => hk, fun _ => ha⟩

/-- Concrete case: three signals that do not cross, and the same ones in the order of `C66_refuted` with a crossing. -/
example : SyncedSignals [flagX, flagY, flagZ] → ∃ k z, Intermediate elementwiseMinFlag false [flagX, flagY, flagZ] k z ∧
    ∀ x ∈ [flagX, flagY, flagZ], z.size ≠ x.size := by
  intro h
  exact (C66_debug_partial elementwiseMinFlag (.inl rfl) _ h).2.1 C66_refuted.2.1

example : elementwiseMinFlag true [ofPts [((0 : ℚ), 1), (2, 1)], ofPts [(0, 2), (2, 3)], flagZ] true =
    elementwiseMinFlag true [ofPts [((0 : ℚ), 1), (2, 1)], ofPts [(0, 2), (2, 3)], flagZ] false := by
  refine C66_same_size_partial elementwiseMinFlag (.inl rfl) true _ ?_ ?_
  · intro x hx
    have w : ∀ p q : ℚ × ℚ, p.1 < q.1 → WF (ofPts [p, q]) := by
      intro p q h
      rw [wf_iff]
      refine ⟨_, ?_, rfl⟩
      refine ⟨?_, trivial⟩
      show D.le (.fin q.1) (.fin p.1) = false
      rw [D.le_fin]; exact decide_eq_false (not_le.2 h)
    simp only [List.mem_cons, List.not_mem_nil, or_false] at hx
    refine ⟨?_, ?_, ?_, ?_⟩
    · rcases hx with rfl | rfl | rfl <;> exact w _ _ (by norm_num)
    · rcases hx with rfl | rfl | rfl <;> decide +kernel
    · rcases hx with rfl | rfl | rfl <;> decide +kernel
    · rcases hx with rfl | rfl | rfl <;> decide +kernel
  · rintro k z ⟨h1, h2, h3⟩
    obtain rfl : k = 2 := by simp at h2; omega
    have : z = ofPts [((0 : ℚ), 1), (2, 1)] := by
      have e : elementwiseMinFlag true [ofPts [((0 : ℚ), 1), (2, 1)], ofPts [(0, 2), (2, 3)]] false =
        .ok (ofPts [((0 : ℚ), 1), (2, 1)]) := by decide +kernel
      exact Outcome.ok.inj (h3.symm.trans e)
    subst this
    decide +kernel

end Verif
