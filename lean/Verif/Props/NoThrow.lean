import Verif.Proofs.NoThrow
import Verif.Props.AccuracySync

/-!
# C125: And and Or do not fail in binary64 on signals that differ clearly at their timestamps

C43 is false: a conjunction or disjunction of two binary64 signals can throw.  C125 says how far the operands must be
apart at the timestamps so that this cannot happen; then the result exists and has the accuracy of C119.
-/

set_option linter.unusedSectionVars false
set_option exponentiation.threshold 1100

namespace Verif
open Spec

/-- The time `b` is a timestamp of both signals, and the first one of at least one of them. -/
def Starts (b : ℚ) (xs ys : List (ℚ × ℚ)) : Prop :=
  b ∈ xs.map Prod.fst ∧ b ∈ ys.map Prod.fst ∧
  ((∀ t ∈ xs.map Prod.fst, b ≤ t) ∨ ∀ t ∈ ys.map Prod.fst, b ≤ t)

/-- After the time `b`, at all timestamps of one of the signals in the common domain, the difference of the signals is
more than `e`. -/
def ClearAfter (b e : ℚ) (xs ys : List (ℚ × ℚ)) : Prop :=
  ∀ t ∈ xs.map Prod.fst ++ ys.map Prod.fst, t ∈ dom xs → t ∈ dom ys → b < t → e < |eval xs t - eval ys t|

/-- **C125, disjunction.** -/
theorem C125_or (nd : Bool) (fuel : Nat) (phi psi : Expr B64) (trace : Trace B64) (sy : Bool)
    (x y : Signal B64) (xs ys : List (ℚ × ℚ)) (V H d b : ℚ)
    (hx : computeRobustness nd fuel phi trace sy = .ok x)
    (hy : computeRobustness nd fuel psi trace sy = .ok y)
    (rx : Represents (K := B64) x xs) (ry : Represents (K := B64) y ys)
    (hd : 0 < d) (tx : Gentle V H xs) (ty : Gentle V H ys) (ha : Apart d xs ys) (hb : Starts b xs ys)
    (hm : ClearAfter b (1 / 2 ^ 46 * V * (1 + H / d)) xs ys) :
    ∃ (z : Signal B64) (zs : List (ℚ × ℚ)), computeRobustness nd fuel (.or [phi, psi]) trace sy = .ok z ∧
      Represents (K := B64) z zs ∧ dom zs = dom xs ∩ dom ys ∧
      ∀ t ∈ dom zs, |eval zs t - max (eval xs t) (eval ys t)| ≤ 1 / 2 ^ 46 * V * (1 + H / d) := by
  obtain ⟨z, hz⟩ := B64.sync_ok B64.syncBudget_mild .max nd hd rx ry tx ty ha hb.1 hb.2.1 hb.2.2 hm
  have hz' : computeRobustness nd fuel (.or [phi, psi]) trace sy = .ok z := (compute_or_two hx hy).trans hz
  obtain ⟨zs, h⟩ := C119_or nd fuel phi psi trace sy x y z xs ys V H d hx hy hz' rx ry hd tx ty ha
  exact ⟨z, zs, hz', h⟩

/-- **C125, conjunction.** -/
theorem C125_and (nd : Bool) (fuel : Nat) (phi psi : Expr B64) (trace : Trace B64) (sy : Bool)
    (x y : Signal B64) (xs ys : List (ℚ × ℚ)) (V H d b : ℚ)
    (hx : computeRobustness nd fuel phi trace sy = .ok x)
    (hy : computeRobustness nd fuel psi trace sy = .ok y)
    (rx : Represents (K := B64) x xs) (ry : Represents (K := B64) y ys)
    (hd : 0 < d) (tx : Gentle V H xs) (ty : Gentle V H ys) (ha : Apart d xs ys) (hb : Starts b xs ys)
    (hm : ClearAfter b (1 / 2 ^ 46 * V * (1 + H / d)) xs ys) :
    ∃ (z : Signal B64) (zs : List (ℚ × ℚ)), computeRobustness nd fuel (.and [phi, psi]) trace sy = .ok z ∧
      Represents (K := B64) z zs ∧ dom zs = dom xs ∩ dom ys ∧
      ∀ t ∈ dom zs, |eval zs t - min (eval xs t) (eval ys t)| ≤ 1 / 2 ^ 46 * V * (1 + H / d) := by
  obtain ⟨z, hz⟩ := B64.sync_ok B64.syncBudget_mild .min nd hd rx ry tx ty ha hb.1 hb.2.1 hb.2.2 hm
  have hz' : computeRobustness nd fuel (.and [phi, psi]) trace sy = .ok z := (compute_and_two hx hy).trans hz
  obtain ⟨zs, h⟩ := C119_and nd fuel phi psi trace sy x y z xs ys V H d hx hy hz' rx ry hd tx ty ha
  exact ⟨z, zs, hz', h⟩

/-- The points of `lateX` and `lateY`. -/
def lateXs : List (ℚ × ℚ) := [(0, 1 / 2 ^ 60), (7 / 4, 2 - 1 / 2 ^ 52)]
def lateYs : List (ℚ × ℚ) := [(0, 0), (7 / 4, 2)]

theorem late_gentle : Gentle 2 (7 / 4) lateXs ∧ Gentle 2 (7 / 4) lateYs ∧ Apart (7 / 4) lateXs lateYs ∧
    Starts 0 lateXs lateYs := by
  have m : ∀ n : ℤ, |(n : ℚ) / 2 ^ 60| ≤ 2 ^ 40 → Mild (n / 2 ^ 60) := by
    intro n h
    refine ⟨⟨n * 2 ^ 40, ?_⟩, by exact_mod_cast h⟩
    have : (2 : ℚ) ^ (-100 : ℤ) = 1 / 2 ^ 100 := by rw [zpow_neg]; norm_num
    rw [this]; push_cast; ring
  have m0 : Mild 0 := by simpa using mild_int 0 (by norm_num)
  have m2 : Mild 2 := by simpa using mild_int 2 (by norm_num)
  have m1 : Mild (1 / 2 ^ 60) := by
    have := m 1 (by norm_num [abs_of_pos])
    simpa using this
  have m3 : Mild (7 / 4) := by
    have := m (7 * 2 ^ 58) (by norm_num [abs_of_pos])
    norm_num at this
    exact this
  have m4 : Mild (2 - 1 / 2 ^ 52) := by
    have := m (2 ^ 61 - 2 ^ 8) (by norm_num [abs_of_pos])
    norm_num at this ⊢
    exact this
  refine ⟨?_, ?_, ?_, ?_⟩
  · simp only [Gentle, lateXs, List.mem_cons, List.not_mem_nil, or_false, forall_eq_or_imp, forall_eq]
    exact ⟨⟨m0, m1, by norm_num, by norm_num [abs_of_pos]⟩, m3, m4, by norm_num [abs_of_pos], by norm_num [abs_of_pos]⟩
  · simp only [Gentle, lateYs, List.mem_cons, List.not_mem_nil, or_false, forall_eq_or_imp, forall_eq]
    exact ⟨⟨m0, m0, by norm_num, by norm_num⟩, m3, m2, by norm_num [abs_of_pos], by norm_num⟩
  · simp only [Apart, lateXs, lateYs, List.map_cons, List.map_nil, List.cons_append, List.nil_append, List.mem_cons,
      List.not_mem_nil, or_false, forall_eq_or_imp, forall_eq]
    norm_num
  · simp only [Starts, lateXs, lateYs, List.map_cons, List.map_nil, List.mem_cons, List.not_mem_nil, or_false,
      forall_eq_or_imp, forall_eq]
    norm_num

/-- **C125, a margin is needed.**  All hypotheses of `C125_or` but the last one hold, with `V = 2` and `H = d = 7/4`;
the signals differ by `2^-52` at the later timestamp instead of more than `2^-44`; and the disjunction throws. -/
theorem C125_margin (nd : Bool) :
    computeRobustness nd 0 (.pred "x" .GE 0) [("x", lateX), ("y", lateY)] false = .ok lateX ∧
    computeRobustness nd 0 (.pred "y" .GE 0) [("x", lateX), ("y", lateY)] false = .ok lateY ∧
    Represents (K := B64) lateX lateXs ∧ Represents (K := B64) lateY lateYs ∧
    Gentle 2 (7 / 4) lateXs ∧ Gentle 2 (7 / 4) lateYs ∧ Apart (7 / 4) lateXs lateYs ∧ Starts 0 lateXs lateYs ∧
    ClearAfter 0 (1 / 2 ^ 53) lateXs lateYs ∧
    computeRobustness nd 0 (.or [.pred "x" .GE 0, .pred "y" .GE 0]) [("x", lateX), ("y", lateY)] false =
      .throw .invalidArgument := by
  obtain ⟨h1, h2, h3, h4⟩ := late_gentle
  refine ⟨by cases nd <;> decide +kernel, by cases nd <;> decide +kernel,
    B64.represents_lq.2 ⟨by norm_num [Increasing, lateXs], rfl⟩,
    B64.represents_lq.2 ⟨by norm_num [Increasing, lateYs], rfl⟩, h1, h2, h3, h4, ?_, by cases nd <;> decide +kernel⟩
  simp only [ClearAfter, lateXs, lateYs, List.map_cons, List.map_nil, List.cons_append, List.nil_append, List.mem_cons,
    List.not_mem_nil, or_false, forall_eq_or_imp, forall_eq]
  norm_num [eval, line, abs_of_neg]

/-- **C43, a sufficient condition in binary64.**  For operands with the same timestamps whose times and values are
moderate numbers, neither the conjunction nor the disjunction can fail if the operands differ by more than
`2^-47 V (1 + H/d)` at all timestamps but the first one.  (The full claim, without this condition, is refuted by
`C43_refuted`.) -/
theorem C43_margin_partial (nd : Bool) (fuel : Nat) (phi psi : Expr B64) (trace : Trace B64) (sy : Bool)
    (x y : Signal B64) (xs ys : List (ℚ × ℚ)) (V H d : ℚ)
    (hx : computeRobustness nd fuel phi trace sy = .ok x)
    (hy : computeRobustness nd fuel psi trace sy = .ok y)
    (rx : Represents (K := B64) x xs) (ry : Represents (K := B64) y ys) (hne : xs ≠ [])
    (ht : xs.map Prod.fst = ys.map Prod.fst) (hd : 0 < d) (tx : Tame V H d xs) (ty : Tame V H d ys)
    (hm : ∀ p ∈ xs.tail, ∀ q ∈ ys.tail, p.1 = q.1 → 1 / 2 ^ 47 * V * (1 + H / d) < |p.2 - q.2|) :
    (∃ z, computeRobustness nd fuel (.and [phi, psi]) trace sy = .ok z) ∧
    (∃ z, computeRobustness nd fuel (.or [phi, psi]) trace sy = .ok z) := by
  obtain ⟨z, hz⟩ := B64.pair_ok B64.budget_moderate .min nd false hd rx ry ht tx ty hne hm
  obtain ⟨w, hw⟩ := B64.pair_ok B64.budget_moderate .max nd false hd rx ry ht tx ty hne hm
  exact ⟨⟨z, (compute_and_two hx hy).trans hz⟩, w, (compute_or_two hx hy).trans hw⟩

/-- Concrete case of `C43_margin_partial`: two signals that cross at the time 1/3, which is rounded. -/
example (nd : Bool) : ∃ z, computeRobustness nd 0 (.or [.pred "x" .GE 0, .pred "y" .GE 0])
      [("x", ofPts (K := B64) [((0 : ℚ), (1 : ℚ)), ((1 : ℚ), (0 : ℚ))]),
       ("y", ofPts (K := B64) [((0 : ℚ), (0 : ℚ)), ((1 : ℚ), (2 : ℚ))])] false = .ok z := by
  have m0 : Moderate 0 := by simpa using moderate_half 0 (by norm_num)
  have m1 : Moderate 1 := by simpa using moderate_half 2 (by norm_num)
  have m2 : Moderate 2 := by
    have := moderate_half 4 (by norm_num)
    norm_num at this ⊢; exact this
  exact (C43_margin_partial nd 0 (.pred "x" .GE 0) (.pred "y" .GE 0) _ false _ _
    [(0, 1), (1, 0)] [(0, 0), (1, 2)] 2 1 1 (by cases nd <;> decide +kernel) (by cases nd <;> decide +kernel)
    (B64.represents_lq.2 ⟨by simp [Increasing], rfl⟩) (B64.represents_lq.2 ⟨by simp [Increasing], rfl⟩) (by simp) rfl
    (by norm_num) ⟨by simp [m0, m1], by simp⟩ ⟨by simp [m0, m1, m2], by simp⟩ (by norm_num)).2

/-- Concrete case of C125: the first signal is interpolated at the time 1, and the signals cross before. -/
example (nd : Bool) : ∃ (z : Signal B64) (zs : List (ℚ × ℚ)), computeRobustness nd 0 (.and [.pred "x" .GE 0, .pred "y" .GE 0]) syncTrace false = .ok z ∧
    Represents (K := B64) z zs ∧ dom zs = dom syncX ∩ dom syncY ∧
    ∀ t ∈ dom zs, |eval zs t - min (eval syncX t) (eval syncY t)| ≤ 1 / 2 ^ 43 := by
  obtain ⟨g1, g2, g3⟩ := sync_gentle
  obtain ⟨z, zs, h0, h1, h2, h3⟩ := C125_and nd 0 (.pred "x" .GE 0) (.pred "y" .GE 0) syncTrace false _ _
    syncX syncY 2 3 1 0 (by cases nd <;> decide +kernel) (by cases nd <;> decide +kernel)
    (B64.represents_lq.2 ⟨by simp [Increasing, syncX], rfl⟩) (B64.represents_lq.2 ⟨by simp [Increasing, syncY], rfl⟩)
    (by norm_num) g1 g2 g3
    (by
      simp only [Starts, syncX, syncY, List.map_cons, List.map_nil, List.mem_cons, List.not_mem_nil, or_false,
        forall_eq_or_imp, forall_eq]
      norm_num)
    (by
      simp only [ClearAfter, syncX, syncY, List.map_cons, List.map_nil, List.cons_append, List.nil_append, List.mem_cons,
        List.not_mem_nil, or_false, forall_eq_or_imp, forall_eq]
      norm_num [eval, line, abs_of_neg])
  exact ⟨z, zs, h0, h1, h2, fun t ht => (h3 t ht).trans (by norm_num)⟩

end Verif
