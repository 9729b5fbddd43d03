import Verif.Props.Polarity
import Verif.Proofs.Relax

/-!
# Formulas with other thresholds: C97
-/

set_option linter.unusedSectionVars false

namespace Verif
open Spec

section
variable {K : Type} [Field K] [LinearOrder K] [IsStrictOrderedRing K] [Arith K] [ExactArith K]

/-! ## C97 -/

/-- **C97.** Relaxing all predicates of a formula without Until by the same amount `d` (tightening them if `d` is
negative) raises all values of the robustness by exactly `d`, and changes nothing else: the same outcome, and if
it is a signal the same times and slopes.  Boolean constants, bounded intervals, infinite bounds and values are
allowed; the timestamps of the trace are finite. -/
theorem C97_relax (nd : Bool) (fuel : Nat) (phi : Expr K) (trace : Trace K) (sy : Bool) (d : K)
    (hp : NoUntil phi) (ht : FiniteTimes trace) :
    computeRobustness nd fuel (relax d phi) trace sy =
      (computeRobustness nd fuel phi trace sy).map' (raisedSignal d) := by
  have htf : TraceFin trace := ht
  have hmm : ((minMaxTime trace).1, (minMaxTime trace).2) = (.pinf, .ninf) ∨
      ∃ a b, ((minMaxTime trace).1, (minMaxTime trace).2) = (.fin a, .fin b) := minMaxTime_fin htf
  exact compute_relax ⟨nd, fuel, (minMaxTime trace).1, (minMaxTime trace).2, trace⟩ htf hmm d phi hp

/-- **C97.** So a finite value `v` of the robustness is the amount by which the predicates can be tightened: the
value of the formula relaxed by `d` at the same sample is positive if and only if `-d < v`, and is `0` for
`d = -v`. -/
theorem C97_margin (nd : Bool) (fuel : Nat) (phi : Expr K) (trace : Trace K) (sy : Bool) (d : K)
    (hp : NoUntil phi) (ht : FiniteTimes trace) (z : Signal K)
    (hz : computeRobustness nd fuel phi trace sy = .ok z) (i : Nat) (t : D K) (v : K) (sl : D K)
    (hi : z.samples[i]? = some ⟨t, .fin v, sl⟩) :
    ∃ z', computeRobustness nd fuel (relax d phi) trace sy = .ok z' ∧
      z'.samples[i]? = some ⟨t, .fin (v + d), sl⟩ ∧ (0 < v + d ↔ -d < v) ∧ (d = -v → v + d = 0) := by
  refine ⟨raisedSignal d z, ?_, ?_, neg_lt_iff_pos_add.symm, fun h => by rw [h]; ring⟩
  · rw [C97_relax nd fuel phi trace sy d hp ht, hz]; rfl
  · show (z.samples.map _)[i]? = _
    rw [List.getElem?_map, hi]; rfl

end

/-- The formula `(x >= 0) U (y >= 0)`. -/
def rxUntil : Expr ℚ := .untl (.pred "x" .GE (.fin 0)) (.pred "y" .GE (.fin 0)) Interval.default

def rxTrace : Trace ℚ := [("x", ofPts [(0, 1), (1, 2)]), ("y", ofPts [(0, -5), (1, -4)])]

/-- **C97.** Until has to be excluded: the value of `(x >= 0) U (y >= 0)` is 4 although `y` is never above
`-4` (the code takes the negated maximum of the right operand into the maximum), and *tightening* the predicates by
1 raises it to 5. -/
theorem C97_until : ¬ ∀ (nd : Bool) (fuel : Nat) (phi : Expr ℚ) (trace : Trace ℚ) (sy : Bool) (d : ℚ),
    FiniteTimes trace → computeRobustness nd fuel (relax d phi) trace sy =
      (computeRobustness nd fuel phi trace sy).map' (raisedSignal d) := by
  intro h
  have ht : FiniteTimes rxTrace := by
    intro e he s hs
    simp only [rxTrace, List.mem_cons, List.not_mem_nil, or_false] at he
    rcases he with rfl | rfl <;>
      simp [ofPts, lift] at hs <;> rcases hs with rfl | rfl <;> exact ⟨_, rfl⟩
  have := h false 0 rxUntil rxTrace false (-1) ht
  revert this
  decide +kernel

/-- **C97.** If every predicate gets easier by at least `lo` and at most `hi` - each by a different amount - the
first sample of the robustness rises by at least `lo` and at most `hi`, for the combinations of C61; and for
formulas without temporal operators the robustness does so at every time.  With `lo = 0`: relaxing a formula
does not lower its robustness; with `hi = -lo`: robustness changes by no more than the thresholds do. -/
theorem C97_thresholds (nd : Bool) (fuel : Nat) (phi phi' : Expr ℝ) (trace : Trace ℝ) (sy : Bool) (t0 T lo hi : ℝ)
    (sig : String → List (ℝ × ℝ)) (hp : Combination phi) (hp' : Combination phi') (he : Eased lo hi phi phi')
    (hs : Aligned trace t0 sig phi) (hs' : Aligned trace t0 sig phi')
    (hT : ∀ n, Uses n phi ∨ Uses n phi' → dom (sig n) = Set.Icc t0 T) :
    ∃ z zs z' zs', computeRobustness nd fuel phi trace sy = .ok z ∧ Represents z zs ∧
      computeRobustness nd fuel phi' trace sy = .ok z' ∧ Represents z' zs' ∧
      (eval zs t0 + lo ≤ eval zs' t0 ∧ eval zs' t0 ≤ eval zs t0 + hi) ∧
      (Propositional phi → Propositional phi' → ∀ t ∈ Set.Icc t0 T,
        eval zs t + lo ≤ eval zs' t ∧ eval zs' t ≤ eval zs t + hi) := by
  have hT1 := fun n hn => hT n (.inl hn)
  have hT2 := fun n hn => hT n (.inr hn)
  obtain ⟨z, zs, e, hr, h0, hd⟩ := C34_total nd fuel trace sy t0 sig phi hp.plain hs
  obtain ⟨z', zs', e', hr', -, hd'⟩ := C34_total nd fuel trace sy t0 sig phi' hp'.plain hs'
  have hD := dom_common hp.plain hT1 hd
  have hD' := dom_common hp'.plain hT2 hd'
  have key : ∀ t, ((eval zs t : ℝ) : EReal) = rob T (fun n => eval (sig n)) phi t →
      ((eval zs' t : ℝ) : EReal) = rob T (fun n => eval (sig n)) phi' t →
      eval zs t + lo ≤ eval zs' t ∧ eval zs' t ≤ eval zs t + hi := by
    intro t h1 h2
    have a := rob_eased (T := T) (x := fun n => eval (sig n)) he t
    rw [← h1, ← h2, ← EReal.coe_add, ← EReal.coe_add, EReal.coe_le_coe_iff, EReal.coe_le_coe_iff] at a
    exact a
  refine ⟨z, zs, z', zs', e, hr, e', hr', key t0
    (combination_exact nd fuel trace sy t0 T sig phi hp hs hT1 z zs e hr)
    (combination_exact nd fuel trace sy t0 T sig phi' hp' hs' hT2 z' zs' e' hr'), fun hpp hpp' t ht => ?_⟩
  obtain ⟨w, ws, e1, hw1, -, hv1⟩ := C38_boolean_fragment_exact nd fuel trace sy t0 T sig phi hpp hs
  obtain ⟨w', ws', e2, hw2, -, hv2⟩ := C38_boolean_fragment_exact nd fuel trace sy t0 T sig phi' hpp' hs'
  rw [e] at e1; rw [e'] at e2
  simp only [Outcome.ok.injEq] at e1 e2; subst e1; subst e2
  obtain rfl := represents_unique hr hw1
  obtain rfl := represents_unique hr' hw2
  exact key t (hv1 t (hD ▸ ht)) (hv2 t (hD' ▸ ht))

/-- `G (F (p >= 0 or q >= c) or r >= 0)` -/
def rxPhi (c : ℚ) : Expr ℚ :=
  .always (.or [.eventually (.or [.pred "p" .GE 0, .pred "q" .GE (.fin c)]) ⟨.dbl 0, .dbl .pinf⟩, .pred "r" .GE 0])
    ⟨.dbl 0, .dbl .pinf⟩

/-- **C97.** For other formulas the different amounts matter: `G (F (p >= 0 or q >= c) or r >= 0)` gets easier if
`c` falls from 0 to -15, but its robustness falls from 10/3 to 2. -/
theorem C97_other : Eased 0 15 (rxPhi 0) (rxPhi (-15)) ∧
    computeRobustness false 0 (rxPhi 0) (moTrace (-20)) false =
      .ok (ofPts [(0, 10/3), (20/3, 10/3), (10, 10), (20, 10)]) ∧
    computeRobustness false 0 (rxPhi (-15)) (moTrace (-20)) false =
      .ok (ofPts [(0, 2), (6, 2), (15/2, 5), (10, 10), (15, 10), (20, 10)]) := by
  refine ⟨?_, by decide +kernel, by decide +kernel⟩
  exact .always (.or (.cons (.eventually (.or (.cons (.ge "p" (c := 0) (c' := 0) (by norm_num) (by norm_num))
    (.cons (.ge "q" (by norm_num) (by norm_num)) .nil))))
    (.cons (.ge "r" (c := 0) (c' := 0) (by norm_num) (by norm_num)) .nil)))

/-! Concrete cases meeting the hypotheses. -/

/-- `G[0,1] (x >= 1 and not (y > 1/2)) or false` -/
def exRelax : Expr ℚ :=
  .or [.always (.and [.pred "x" .GE (.fin 1), .not (.pred "y" .GT (.fin (1/2)))]) ⟨.ull 0, .dbl (.fin 1)⟩, .const false]

example : NoUntil exRelax := by
  refine .or fun e he => ?_
  simp only [List.mem_cons, List.not_mem_nil, or_false] at he
  rcases he with rfl | rfl
  · refine .always (.and fun e he => ?_)
    simp only [List.mem_cons, List.not_mem_nil, or_false] at he
    rcases he with rfl | rfl
    · exact .pred _ _ _
    · exact .not (.pred _ _ _)
  · exact .const _

-- the bounds move in opposite directions
example : relax 2 exRelax =
    .or [.always (.and [.pred "x" .GE (.fin (-1)), .not (.pred "y" .GT (.fin (5/2)))]) ⟨.ull 0, .dbl (.fin 1)⟩,
      .const false] := by
  simp only [exRelax, relax, relaxArgs, raised]
  norm_num

example : ((computeRobustness false 20 (.not (.and [.pred "x" .GE (.fin 1), .not (.pred "y" .GT (.fin (1/2)))]))
      exTrace false).map' Signal.size = .ok 4) ∧
    computeRobustness false 20 (.not (.and [.pred "x" .GE (.fin 3), .not (.pred "y" .GT (.fin (-3/2)))]))
      exTrace false =
      (computeRobustness false 20 (.not (.and [.pred "x" .GE (.fin 1), .not (.pred "y" .GT (.fin (1/2)))]))
      exTrace false).map' (raisedSignal 2) := by
  decide +kernel

-- x >= 0 is made easier by 1, y >= 3 by 2, under the negation harder by 0
example : Eased (K := ℝ) 0 2
    (.and [.eventually (.pred "x" .GE (.fin 0)) ⟨.dbl 0, .dbl .pinf⟩, .not (.pred "y" .GE (.fin 3))])
    (.and [.eventually (.pred "x" .GE (.fin (-1))) ⟨.dbl 0, .dbl .pinf⟩, .not (.pred "y" .GE (.fin 5))]) :=
  .and (.cons (.eventually (.ge "x" (by norm_num) (by norm_num)))
    (.cons (.not (.ge "y" (by norm_num) (by norm_num))) .nil))

end Verif
