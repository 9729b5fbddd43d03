import Verif.Props.Start
import Verif.Proofs.Polarity

/-!
# Better signals, better robustness: C76
-/

set_option linter.unusedSectionVars false

namespace Verif
open Spec

/-- The claim of C76: if the signals get better for the formula at every time, the robustness at the start of
the trace does not get worse. -/
def Improvement (K : Type) [Field K] [LinearOrder K] [Arith K] : Prop :=
  ∀ (nd : Bool) (fuel : Nat) (up : String → Bool) (phi : Expr K) (trace trace' : Trace K) (sy : Bool) (t0 T : K)
    (sig sig' : String → List (K × K)), Plain phi → Polar up true phi →
    (∀ n, Uses n phi → ∃ x x', trace.lookup n = some x ∧ Represents x (sig n) ∧
      trace'.lookup n = some x' ∧ Represents x' (sig' n) ∧
      dom (sig n) = Set.Icc t0 T ∧ dom (sig' n) = Set.Icc t0 T ∧
      ∀ t ∈ Set.Icc t0 T, (up n = true → eval (sig n) t ≤ eval (sig' n) t) ∧
        (up n = false → eval (sig' n) t ≤ eval (sig n) t)) →
    ∀ z z' zs zs', computeRobustness nd fuel phi trace sy = .ok z → Represents z zs →
      computeRobustness nd fuel phi trace' sy = .ok z' → Represents z' zs' → eval zs t0 ≤ eval zs' t0

/-! ## C76 -/

/-- `G (F (p >= 0 or q >= 0) or r >= 0)` -/
def moPhi : Expr ℚ :=
  .always (.or [.eventually (.or [.pred "p" .GE 0, .pred "q" .GE 0]) ⟨.dbl 0, .dbl .pinf⟩, .pred "r" .GE 0])
    ⟨.dbl 0, .dbl .pinf⟩

/-- The signals; `q` is the constant `c`. -/
def moPts (c : ℚ) (n : String) : List (ℚ × ℚ) :=
  if n = "p" then [(0, 10), (10, -10), (20, 0)] else
  if n = "q" then [(0, c), (20, c)] else [(0, -10), (10, 10), (20, 10)]

def moTrace (c : ℚ) : Trace ℚ :=
  [("p", ofPts (moPts c "p")), ("q", ofPts (moPts c "q")), ("r", ofPts (moPts c "r"))]

theorem mo_uses {n : String} (h : Uses n moPhi) : n = "p" ∨ n = "q" ∨ n = "r" := by
  unfold moPhi at h
  cases h with | always h =>
  cases h with | or he h =>
  simp only [List.mem_cons, List.not_mem_nil, or_false] at he
  rcases he with rfl | rfl
  · cases h with | eventually h =>
    cases h with | or he h =>
    simp only [List.mem_cons, List.not_mem_nil, or_false] at he
    rcases he with rfl | rfl <;> cases h <;> simp
  · cases h; simp

theorem mo_incr (c : ℚ) (n : String) : Increasing (moPts c n) := by
  unfold moPts Increasing
  split
  · decide +kernel
  · split
    · simp
    · decide +kernel

theorem mo_dom (c : ℚ) (n : String) : dom (moPts c n) = Set.Icc 0 20 := by
  ext t
  unfold moPts
  split_ifs
  all_goals
    simp only [dom, List.mem_cons, List.not_mem_nil, or_false, exists_eq_or_imp, exists_eq_left,
      Set.mem_ofPred_eq, Set.mem_Icc]
    refine ⟨fun h => ⟨?_, ?_⟩, fun h => ⟨.inl h.1, by simp [h.2]⟩⟩
  · rcases h.1 with h | h | h <;> linarith
  · rcases h.2 with h | h | h <;> linarith
  · rcases h.1 with h | h <;> linarith
  · rcases h.2 with h | h <;> linarith
  · rcases h.1 with h | h | h <;> linarith
  · rcases h.2 with h | h | h <;> linarith

/-- **C76 is false**: if `q` rises from -20 to -5, the robustness of `G (F (p >= 0 or q >= 0) or r >= 0)` falls
from 10/3 to 2.  (The right value is 0 in both cases: because of the crossing of `p` and `q` the error of
Eventually between samples gets smaller.) -/
theorem C76_refuted : ¬ Improvement ℚ := by
  intro h
  have hr : ∀ c n, Represents (ofPts (moPts c n)) (moPts c n) := fun c n => represents_ofPts (mo_incr c n)
  have hz : computeRobustness false 0 moPhi (moTrace (-20)) false =
      .ok (ofPts [(0, 10/3), (20/3, 10/3), (10, 10), (20, 10)]) := by decide +kernel
  have hz' : computeRobustness false 0 moPhi (moTrace (-5)) false =
      .ok (ofPts [(0, 2), (6, 2), (15/2, 5), (10, 10), (15, 10), (20, 10)]) := by decide +kernel
  have hp : Plain moPhi := by
    refine .always (.inl rfl) (.or (by decide) ?_)
    intro e he
    simp only [List.mem_cons, List.not_mem_nil, or_false] at he
    rcases he with rfl | rfl
    · refine .eventually (.inl rfl) (.or (by decide) ?_)
      intro e he
      simp only [List.mem_cons, List.not_mem_nil, or_false] at he
      rcases he with rfl | rfl <;> exact .pred _ _ _
    · exact .pred _ _ _
  have hpo : Polar (fun _ => true) true moPhi := by
    refine .always (.or ?_)
    intro e he
    simp only [List.mem_cons, List.not_mem_nil, or_false] at he
    rcases he with rfl | rfl
    · refine .eventually (.or ?_)
      intro e he
      simp only [List.mem_cons, List.not_mem_nil, or_false] at he
      rcases he with rfl | rfl
      · exact Polar.ge (up := fun _ => true) "p" 0
      · exact Polar.ge (up := fun _ => true) "q" 0
    · exact Polar.ge (up := fun _ => true) "r" 0
  have := h false 0 (fun _ => true) moPhi (moTrace (-20)) (moTrace (-5)) false 0 20 (moPts (-20)) (moPts (-5)) hp hpo
    (by
      intro n hn
      refine ⟨ofPts (moPts (-20) n), ofPts (moPts (-5) n), ?_, hr _ _, ?_, hr _ _, mo_dom _ _, mo_dom _ _, ?_⟩
      · rcases mo_uses hn with rfl | rfl | rfl <;> rfl
      · rcases mo_uses hn with rfl | rfl | rfl <;> rfl
      · intro t ht
        refine ⟨fun _ => ?_, by simp⟩
        rcases mo_uses hn with rfl | rfl | rfl
        · exact le_rfl
        · change eval [((0 : ℚ), (-20 : ℚ)), (20, -20)] t ≤ eval [((0 : ℚ), (-5 : ℚ)), (20, -5)] t
          simp only [eval, line]
          norm_num
        · exact le_rfl)
    _ _ _ _ hz (represents_ofPts (by unfold Increasing; decide +kernel)) hz'
    (represents_ofPts (by unfold Increasing; decide +kernel))
  revert this
  decide +kernel

/-- What holds of **C76** (missing: temporal operators around And and Or of formulas with temporal operators):
for combinations by Not, And and Or of formulas in which the temporal operators are on top of the Boolean ones,
the first sample of the robustness does not get smaller, and for formulas without temporal operators no value
does. -/
theorem C76_improvement_partial (nd : Bool) (fuel : Nat) (up : String → Bool) (phi : Expr ℝ) (trace trace' : Trace ℝ)
    (sy : Bool) (t0 T : ℝ) (sig sig' : String → List (ℝ × ℝ)) (hp : Combination phi) (hpol : Polar up true phi)
    (hs : Aligned trace t0 sig phi) (hs' : Aligned trace' t0 sig' phi)
    (hT : ∀ n, Uses n phi → dom (sig n) = Set.Icc t0 T)
    (hT' : ∀ n, Uses n phi → dom (sig' n) = Set.Icc t0 T)
    (hi : ∀ n, Uses n phi → ∀ t ∈ Set.Icc t0 T, (up n = true → eval (sig n) t ≤ eval (sig' n) t) ∧
        (up n = false → eval (sig' n) t ≤ eval (sig n) t)) :
    ∃ z zs z' zs', computeRobustness nd fuel phi trace sy = .ok z ∧ Represents z zs ∧
      computeRobustness nd fuel phi trace' sy = .ok z' ∧ Represents z' zs' ∧
      eval zs t0 ≤ eval zs' t0 ∧
      (Propositional phi → ∀ t ∈ Set.Icc t0 T, eval zs t ≤ eval zs' t) := by
  have hw : ∀ i t t', IntervalBuilt i → t' ∈ window T i t → t ≤ t' ∧ t' ≤ T :=
    fun i t t' hi h => window_ge hi h
  have hmono := rob_mono hp.plain hw hpol
    (x := fun n => eval (sig n)) (y := fun n => eval (sig' n)) (t0 := t0) hi
  obtain ⟨z, zs, e, hr, h0, hd⟩ := C34_total nd fuel trace sy t0 sig phi hp.plain hs
  obtain ⟨z', zs', e', hr', -, hd'⟩ := C34_total nd fuel trace' sy t0 sig' phi hp.plain hs'
  obtain ⟨r, -, ht⟩ := eval_start h0 ((represents_iff _ _).1 hr).1
  have hD := dom_common hp.plain hT hd
  have hD' := dom_common hp.plain hT' hd'
  refine ⟨z, zs, z', zs', e, hr, e', hr', ?_, fun hpp t ht => ?_⟩
  · have := (hmono t0 (hD ▸ ht)).1 rfl
    rw [← combination_exact nd fuel trace sy t0 T sig phi hp hs hT z zs e hr,
      ← combination_exact nd fuel trace' sy t0 T sig' phi hp hs' hT' z' zs' e' hr'] at this
    exact EReal.coe_le_coe_iff.1 this
  · obtain ⟨w, ws, e1, hw1, -, hv1⟩ := C38_boolean_fragment_exact nd fuel trace sy t0 T sig phi hpp hs
    obtain ⟨w', ws', e2, hw2, -, hv2⟩ := C38_boolean_fragment_exact nd fuel trace' sy t0 T sig' phi hpp hs'
    rw [e] at e1; rw [e'] at e2
    simp only [Outcome.ok.injEq] at e1 e2; subst e1; subst e2
    obtain rfl := represents_unique hr hw1
    obtain rfl := represents_unique hr' hw2
    have := (hmono t ht).1 rfl
    rw [← hv1 t (hD ▸ ht), ← hv2 t (hD' ▸ ht)] at this
    exact EReal.coe_le_coe_iff.1 this

/-! Concrete cases meeting the hypotheses. -/

-- x >= 0 gets better with larger x, not (y >= 0) with smaller y
example : Polar (K := ℝ) (fun n => n == "x") true
    (.and [.eventually (.pred "x" .GE 0) Interval.default, .not (.pred "y" .GE 0)]) := by
  refine .and fun e he => ?_
  simp only [List.mem_cons, List.not_mem_nil, or_false] at he
  rcases he with rfl | rfl
  · exact .eventually (Polar.ge (up := fun n => n == "x") "x" 0)
  · exact .not (Polar.ge (up := fun n => n == "x") "y" 0)

example : Combination (K := ℝ) (.and [.eventually (.pred "x" .GE (.fin 0)) ⟨.dbl 0, .dbl .pinf⟩, .not (.pred "y" .GE (.fin 0))]) := by
  refine .and (by decide) fun e he => ?_
  simp only [List.mem_cons, List.not_mem_nil, or_false] at he
  rcases he with rfl | rfl
  · exact .stack (.eventually (.propositional (.pred _ _ _)))
  · exact .not (.stack (.propositional (.pred _ _ _)))

-- the smaller y and the larger x give the larger first sample
example : let phi : Expr ℚ := .and [.eventually (.pred "x" .GE (.fin 0)) Interval.default, .not (.pred "y" .GE (.fin 0))]
    computeRobustness false 0 phi [("x", ofPts [(0, 1), (1, 3), (2, 0)]), ("y", ofPts [(0, -2), (2, -4)])] false =
      .ok (ofPts [(0, 2), (1, 3), (2, 0)]) ∧
    computeRobustness false 0 phi [("x", ofPts [(0, 1), (1, 4), (2, 0)]), ("y", ofPts [(0, -3), (2, -4)])] false =
      .ok (ofPts [(0, 3), (1, 7/2), (10/9, 32/9), (2, 0)]) := by
  decide +kernel

end Verif
