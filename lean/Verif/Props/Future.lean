import Verif.Proofs.Future
import Verif.Proofs.Binary64
import Verif.Props.AnyRound

/-!
# The past does not matter: C75
-/

set_option linter.unusedSectionVars false

namespace Verif
open Spec

/-! ## C75 -/

section any
variable {K : Type} [Field K] [LinearOrder K] [IsStrictOrderedRing K] [Arith K]

/-- **C75.** If all signals that the formula uses have a sample at time `t`, dropping all samples before `t`
from the trace drops the samples before `t` from the robustness, and changes no other.  For every rounding
that does not produce NaN; formulas without constants. -/
theorem C75_future [SaneArith K] (nd : Bool) (fuel : Nat) (phi : Expr K) (trace : Trace K) (sy : Bool)
    (ht : FiniteTimes trace) (hc : ConstFree phi) (ha : Arity phi) (t : K)
    (hs : ∀ n x, Uses n phi → trace.lookup n = some x → SampledAt (.fin t) x) (z : Signal K)
    (h : computeRobustness nd fuel phi trace sy = .ok z) :
    computeRobustness nd fuel phi (sinceTrace (.fin t) trace) sy = .ok (since (.fin t) z) ∧
      SampledAt (.fin t) z := by
  have ht' : TraceFin (sinceTrace (.fin t) trace) := by
    intro e he
    obtain ⟨e', he', rfl⟩ := List.mem_map.1 he
    intro a ha
    exact ht e' he' a (List.mem_of_mem_filter ha)
  obtain ⟨z', h1, h2⟩ := cut_compute (t := .fin t) (by simp) (allFin (nd := nd) (fuel := fuel) ht)
    (allFin (nd := nd) (fuel := fuel) ht') rfl rfl phi z hc ha hs h
  obtain ⟨rfl, h3⟩ := cut_since (allFin (nd := nd) (fuel := fuel) ht _ _ h) h2
  exact ⟨h1, h3⟩

/-- **C75.** Two traces that agree from time `t` on have, from `t` on, the same robustness. -/
theorem C75_same_future [SaneArith K] (nd : Bool) (fuel : Nat) (phi : Expr K) (trace trace' : Trace K) (sy : Bool)
    (ht : FiniteTimes trace) (ht' : FiniteTimes trace') (hc : ConstFree phi) (ha : Arity phi) (t : K)
    (hs : ∀ n x, Uses n phi → trace.lookup n = some x → SampledAt (.fin t) x)
    (hs' : ∀ n x, Uses n phi → trace'.lookup n = some x → SampledAt (.fin t) x)
    (he : sinceTrace (.fin t) trace = sinceTrace (.fin t) trace') (z z' : Signal K)
    (h : computeRobustness nd fuel phi trace sy = .ok z)
    (h' : computeRobustness nd fuel phi trace' sy = .ok z') :
    since (.fin t) z = since (.fin t) z' := by
  have h1 := (C75_future nd fuel phi trace sy ht hc ha t hs z h).1
  have h2 := (C75_future nd fuel phi trace' sy ht' hc ha t hs' z' h').1
  rw [he, h2] at h1
  injection h1 with h1
  exact h1.symm

end any

/-- With a constant the claim is false: the constant signal has samples at the ends of the trace only, and
And makes the samples in between NaN. -/
theorem C75_constant_refuted : ∃ (phi : Expr ℚ) (trace : Trace ℚ) (t : ℚ) (z : Signal ℚ), Arity phi ∧
    FiniteTimes trace ∧ (∀ n x, Uses n phi → trace.lookup n = some x → SampledAt (.fin t) x) ∧
    computeRobustness false 0 phi trace false = .ok z ∧
    computeRobustness false 0 phi (sinceTrace (.fin t) trace) false ≠ .ok (since (.fin t) z) := by
  refine ⟨.and [.const true, .pred "x" .GE 0], [("x", ofPts [((0 : ℚ), 1), (1, 2), (2, 0)])], 1, _,
    .and (by decide) ?_, ?_, ?_, rfl, by decide +kernel⟩
  · intro e he
    simp only [List.mem_cons, List.not_mem_nil, or_false] at he
    rcases he with rfl | rfl
    · exact .const _
    · exact .pred _ _ _
  · intro e he a ha
    simp only [List.mem_singleton] at he
    subst he
    simp [ofPts, lift] at ha
    rcases ha with rfl | rfl | rfl <;> exact ⟨_, rfl⟩
  · intro n x _ hx
    rw [List.lookup] at hx
    split at hx
    · simp only [Option.some.injEq] at hx
      subst hx
      exact ⟨⟨.fin 1, .fin 2, .fin (-2)⟩, by decide +kernel, rfl⟩
    · simp at hx

-- the crossing at 1/2 is dropped, the one at 3/2 is kept
example : let tr : Trace ℚ := [("x", ofPts [(0, 0), (1, 2), (2, 0)]), ("y", ofPts [(0, 1), (1, 1), (2, 1)])]
    let phi : Expr ℚ := .or [.pred "x" .GE 0, .pred "y" .GE 0]
    computeRobustness false 0 phi tr false = .ok (ofPts [(0, 1), (1/2, 1), (1, 2), (3/2, 1), (2, 1)]) ∧
    computeRobustness false 0 phi (sinceTrace (.fin 1) tr) false = .ok (ofPts [(1, 2), (3/2, 1), (2, 1)]) := by
  decide +kernel
-- binary64 is one of the roundings
example : SaneArith B64 := inferInstance

end Verif
