import Verif.Proofs.CellsFormula
import Verif.Spec.Discrete
import Mathlib.Tactic.Ring
import Mathlib.Tactic.NormNum

/-!
# The number of samples is polynomial: C108
-/

set_option linter.unusedSectionVars false

namespace Verif
open Spec

section exact
variable {K : Type} [Field K] [LinearOrder K] [IsStrictOrderedRing K] [Arith K] [ExactArith K]

/-- **C108.** Boolean operators add few samples, however deeply they are nested: if `m` predicates and temporal
subformulas below have `N` samples in all, the result has at most `N * (1 + m * (m - 1) / 2)` samples.
(`crossingBound` combines this with the temporal operators, which add no samples.) -/
theorem C108_crossings (nd : Bool) (fuel : Nat) (trace : Trace K) (sy : Bool) (t0 : K)
    (sig : String → List (K × K)) (count : String → Nat) (phi : Expr K) (hp : Plain phi)
    (hs : ∀ n, Uses n phi → ∃ x, trace.lookup n = some x ∧ Represents x (sig n) ∧ (sig n).length ≤ count n ∧
      ∃ v r, sig n = (t0, v) :: r) (z : Signal K) (h : computeRobustness nd fuel phi trace sy = .ok z) :
    z.samples.length ≤ crossingBound count phi := by
  obtain ⟨zs, L, hc⟩ := compute_cells nd fuel trace sy t0 sig count phi hp hs
  rw [hc.1, Outcome.ok.injEq] at h
  subst h
  have := congrArg List.length (represents_ofPts hc.2.1).2
  simp only [List.length_map] at this
  rw [this]
  exact hc.length_le

/-- **C108.** If the signals have at most `n` samples each, the formula has `p` predicates and its temporal
operators are nested at most `d` deep, then the result has at most `n * p ^ (2 d + 3)` samples. -/
theorem C108_polynomial (nd : Bool) (fuel : Nat) (trace : Trace K) (sy : Bool) (t0 : K)
    (sig : String → List (K × K)) (n : Nat) (phi : Expr K) (hp : Plain phi)
    (hs : ∀ m, Uses m phi → ∃ x, trace.lookup m = some x ∧ Represents x (sig m) ∧ (sig m).length ≤ n ∧
      ∃ v r, sig m = (t0, v) :: r) (z : Signal K) (h : computeRobustness nd fuel phi trace sy = .ok z) :
    z.samples.length ≤ n * predCount phi ^ (2 * temporalDepth phi + 3) := by
  refine (C108_crossings nd fuel trace sy t0 sig (fun _ => n) phi hp hs z h).trans ?_
  obtain ⟨h1, h2, h3⟩ := literalSamples_le n hp
  calc crossingBound (fun _ => n) phi
      ≤ (n * predCount phi * predCount phi ^ (2 * temporalDepth phi)) * predCount phi ^ 2 :=
        Nat.mul_le_mul (h3 _ le_rfl) (one_add_choose_le h2 h1)
    _ = _ := by ring

/-! The formula of C34 with all operators: 4 predicates, one level of temporal operators, 5 samples. -/
example : ∀ m, Uses m exFormula → ∃ x, exTrace.lookup m = some x ∧
    Represents x (if m = "x" then [(0, 0), (2, 4), (4, 0)] else [(0, 3), (3, 0), (4, 2)]) ∧
    (if m = "x" then [(0, 0), (2, 4), (4, 0)] else [(0, 3), (3, 0), (4, 2)] : List (ℚ × ℚ)).length ≤ 3 ∧
    ∃ v r, (if m = "x" then [(0, 0), (2, 4), (4, 0)] else [(0, 3), (3, 0), (4, 2)] : List (ℚ × ℚ)) = (0, v) :: r := by
  intro m hm
  have hm' : m = "x" ∨ m = "y" := by
    unfold exFormula at hm
    cases hm with
    | and he hm =>
      simp only [List.mem_cons, List.not_mem_nil, or_false] at he
      rcases he with rfl | rfl
      · cases hm with | not hm => cases hm; exact .inl rfl
      · cases hm with
        | or he hm =>
          simp only [List.mem_cons, List.not_mem_nil, or_false] at he
          rcases he with rfl | rfl
          · cases hm with
            | untl_left hm => cases hm; exact .inl rfl
            | untl_right hm => cases hm; exact .inr rfl
          · cases hm with | always hm => cases hm; exact .inr rfl
  rcases hm' with rfl | rfl
  · exact ⟨_, rfl, represents_ofPts (by simp [Increasing]; norm_num), by simp, 0, _, rfl⟩
  · exact ⟨_, rfl, represents_ofPts (by simp [Increasing]; norm_num), by simp, 3, _, rfl⟩
example : crossingBound (fun _ => 3) exFormula = 48 ∧ predCount exFormula = 4 ∧ temporalDepth exFormula = 1 := by
  decide +kernel
-- the bound of C63 doubles with each operand
example : crossingBound (fun _ => 10) (.and ((List.range 20).map fun i => .pred "x" .GE (.fin i)) : Expr ℚ) = 38200 := by
  decide +kernel
example : sampleBound (fun _ => 10) (.and ((List.range 20).map fun i => .pred "x" .GE (.fin i)) : Expr ℚ) = 15728620 := by
  decide +kernel

end exact
end Verif
