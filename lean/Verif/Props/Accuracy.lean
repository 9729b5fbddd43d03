import Verif.Proofs.AccuracyPair

/-!
# The accuracy of And and Or in binary64: C98

The result of a conjunction or disjunction of two subformulas with the same timestamps is computed with
rounded slopes, rounded times of the crossings and rounded values at them.  Away from overflow and underflow
the computed function differs from the minimum or maximum of the two functions by at most
`2^-47 V (1 + H / d)` at every time, where `V` bounds the values, `H` the times, and `d` is the smallest
distance of successive timestamps.  The factor `H / d` is needed: for timestamps far from zero that are close to
each other the error can be as large as `V`, and the sign of the robustness of `Always` over a disjunction wrong.
-/

set_option linter.unusedSectionVars false
set_option exponentiation.threshold 1100

namespace Verif
open Spec

/-- **C98, disjunction.** -/
theorem C98_or (nd : Bool) (fuel : Nat) (phi psi : Expr B64) (trace : Trace B64) (sy : Bool)
    (x y z : Signal B64) (xs ys : List (ℚ × ℚ)) (V H d : ℚ)
    (hx : computeRobustness nd fuel phi trace sy = .ok x)
    (hy : computeRobustness nd fuel psi trace sy = .ok y)
    (hz : computeRobustness nd fuel (.or [phi, psi]) trace sy = .ok z)
    (rx : Represents (K := B64) x xs) (ry : Represents (K := B64) y ys) (hne : xs ≠ [])
    (ht : xs.map Prod.fst = ys.map Prod.fst) (hd : 0 < d) (tx : Tame V H d xs) (ty : Tame V H d ys) :
    ∃ zs : List (ℚ × ℚ), Represents (K := B64) z zs ∧ dom zs = dom xs ∧
      ∀ t ∈ dom xs, |eval zs t - max (eval xs t) (eval ys t)| ≤ 1 / 2 ^ 47 * V * (1 + H / d) := by
  have h : minmaxPair nd Sample.ge x y false = .ok z := (compute_or_two hx hy).symm.trans hz
  exact B64.pair_acc .max hd rx ry ht tx ty hne h

/-- **C98, conjunction.** -/
theorem C98_and (nd : Bool) (fuel : Nat) (phi psi : Expr B64) (trace : Trace B64) (sy : Bool)
    (x y z : Signal B64) (xs ys : List (ℚ × ℚ)) (V H d : ℚ)
    (hx : computeRobustness nd fuel phi trace sy = .ok x)
    (hy : computeRobustness nd fuel psi trace sy = .ok y)
    (hz : computeRobustness nd fuel (.and [phi, psi]) trace sy = .ok z)
    (rx : Represents (K := B64) x xs) (ry : Represents (K := B64) y ys) (hne : xs ≠ [])
    (ht : xs.map Prod.fst = ys.map Prod.fst) (hd : 0 < d) (tx : Tame V H d xs) (ty : Tame V H d ys) :
    ∃ zs : List (ℚ × ℚ), Represents (K := B64) z zs ∧ dom zs = dom xs ∧
      ∀ t ∈ dom xs, |eval zs t - min (eval xs t) (eval ys t)| ≤ 1 / 2 ^ 47 * V * (1 + H / d) := by
  have h : minmaxPair nd Sample.le x y false = .ok z := (compute_and_two hx hy).symm.trans hz
  exact B64.pair_acc .min hd rx ry ht tx ty hne h

/-! ## The spacing of the timestamps matters -/

/-- Two lines that cross in the middle between the timestamps `2^52` and `2^52 + 1`. -/
def farX : List (ℚ × ℚ) := [(2 ^ 52, 1 / 2), (2 ^ 52 + 1, -3 / 2)]
def farY : List (ℚ × ℚ) := [(2 ^ 52, -3 / 2), (2 ^ 52 + 1, 1 / 2)]
def farTrace : Trace B64 := [("x", ofPts (K := B64) farX), ("y", ofPts (K := B64) farY)]

theorem moderate_half (n : ℤ) (h : |(n : ℚ)| ≤ 2 ^ 99) : Moderate (n / 2) := by
  refine ⟨⟨n * 2 ^ 149, ?_⟩, ?_⟩
  · have : (2 : ℚ) ^ (-150 : ℤ) = 1 / 2 ^ 150 := by rw [zpow_neg]; norm_num
    rw [this]; push_cast; norm_num; ring
  · rw [abs_div]
    have : (2 : ℚ) ^ (100 : ℤ) = 2 * 2 ^ 99 := by norm_num
    rw [this, abs_of_pos (by norm_num : (0 : ℚ) < 2)]
    have : (0 : ℚ) ≤ 2 ^ 99 := by positivity
    linarith

theorem far_tame : Tame (3 / 2) (2 ^ 52 + 1) 1 farX ∧ Tame (3 / 2) (2 ^ 52 + 1) 1 farY := by
  have m1 : Moderate (2 ^ 52) := by
    have := moderate_half (2 ^ 53) (by norm_num)
    norm_num at this ⊢; exact this
  have m2 : Moderate (2 ^ 52 + 1) := by
    have := moderate_half (2 ^ 53 + 2) (by norm_num)
    norm_num at this ⊢; exact this
  have m3 : Moderate (1 / 2) := by simpa using moderate_half 1 (by norm_num)
  have m4 : Moderate (-3 / 2) := by simpa using moderate_half (-3) (by norm_num)
  constructor <;> refine ⟨?_, ?_⟩
  · simp only [farX, List.mem_cons, List.not_mem_nil, or_false, forall_eq_or_imp, forall_eq]
    exact ⟨⟨m1, m3, by norm_num [abs_of_pos], by norm_num [abs_of_pos]⟩, m2, m4, by norm_num [abs_of_pos],
      by norm_num [abs_of_neg]⟩
  · simp [farX]
  · simp only [farY, List.mem_cons, List.not_mem_nil, or_false, forall_eq_or_imp, forall_eq]
    exact ⟨⟨m1, m4, by norm_num [abs_of_pos], by norm_num [abs_of_neg]⟩, m2, m3, by norm_num [abs_of_pos],
      by norm_num [abs_of_pos]⟩
  · simp [farY]

/-- **C98, the factor `H / d` is needed.**  With values of magnitude at most 3/2 and timestamps at distance 1,
the computed disjunction is 1/2 throughout although it should be -1/2 in the middle. -/
theorem C98_spacing (nd : Bool) :
    Tame (3 / 2) (2 ^ 52 + 1) 1 farX ∧ Tame (3 / 2) (2 ^ 52 + 1) 1 farY ∧
    computeRobustness nd 0 (.pred "x" .GE 0) farTrace false = .ok (ofPts (K := B64) farX) ∧
    computeRobustness nd 0 (.pred "y" .GE 0) farTrace false = .ok (ofPts (K := B64) farY) ∧
    ∃ zs : List (ℚ × ℚ),
      computeRobustness nd 0 (.or [.pred "x" .GE 0, .pred "y" .GE 0]) farTrace false = .ok (ofPts (K := B64) zs) ∧
      (2 ^ 52 + 1 / 2 : ℚ) ∈ dom zs ∧ eval zs (2 ^ 52 + 1 / 2) = 1 / 2 ∧
      eval farX (2 ^ 52 + 1 / 2) = -1 / 2 ∧ eval farY (2 ^ 52 + 1 / 2) = -1 / 2 := by
  refine ⟨far_tame.1, far_tame.2, by cases nd <;> decide +kernel, by cases nd <;> decide +kernel,
    [(2 ^ 52, 1 / 2), (2 ^ 52 + 1, 1 / 2)], by cases nd <;> decide +kernel, ?_, ?_, ?_, ?_⟩
  · simp only [dom, Set.mem_ofPred_eq]
    exact ⟨⟨_, List.mem_cons_self, by norm_num⟩, (2 ^ 52 + 1, 1 / 2), by simp, by norm_num⟩
  · norm_num [eval, line]
  · norm_num [farX, eval, line]
  · norm_num [farY, eval, line]

/-- **C98, and so soundness is lost.**  The computed robustness of `Always(x >= 0 or y >= 0)` is 1/2, although
both signals are -1/2 at the time `2^52 + 1/2`. -/
theorem C98_unsound (nd : Bool) :
    ∃ zs : List (ℚ × ℚ),
      computeRobustness nd 0 (.always (.or [.pred "x" .GE 0, .pred "y" .GE 0]) .default) farTrace false =
        .ok (ofPts (K := B64) zs) ∧
      zs.head? = some (2 ^ 52, 1 / 2) ∧
      (2 ^ 52 + 1 / 2 : ℚ) ∈ dom farX ∧ (2 ^ 52 + 1 / 2 : ℚ) ∈ dom farY ∧
      eval farX (2 ^ 52 + 1 / 2) = -1 / 2 ∧ eval farY (2 ^ 52 + 1 / 2) = -1 / 2 := by
  obtain ⟨_, _, _, _, _, _, _, _, h1, h2⟩ := C98_spacing nd
  refine ⟨[(2 ^ 52, 1 / 2), (2 ^ 52 + 1, 1 / 2)], by cases nd <;> decide +kernel, rfl, ?_, ?_, h1, h2⟩
  · simp only [dom, Set.mem_ofPred_eq]
    exact ⟨⟨_, List.mem_cons_self, by norm_num⟩, (2 ^ 52 + 1, -3 / 2), by simp [farX], by norm_num⟩
  · simp only [dom, Set.mem_ofPred_eq]
    exact ⟨⟨_, List.mem_cons_self, by norm_num⟩, (2 ^ 52 + 1, 1 / 2), by simp [farY], by norm_num⟩

/-- A conjunction whose crossing is rounded; the theorem says how accurate the result is. -/
example (nd : Bool) : ∃ zs : List (ℚ × ℚ),
    (∃ z, computeRobustness nd 0 (.and [.pred "x" .GE 0, .pred "y" .GE 0])
      [("x", ofPts (K := B64) [((0 : ℚ), (1 : ℚ)), ((1 : ℚ), (0 : ℚ))]),
       ("y", ofPts (K := B64) [((0 : ℚ), (0 : ℚ)), ((1 : ℚ), (2 : ℚ))])] false = .ok z ∧
      Represents (K := B64) z zs) ∧
    ∀ t ∈ dom [((0 : ℚ), (1 : ℚ)), (1, 0)],
      |eval zs t - min (eval [(0, 1), (1, 0)] t) (eval [(0, 0), (1, 2)] t)| ≤ 1 / 2 ^ 45 := by
  have m0 : Moderate 0 := by simpa using moderate_half 0 (by norm_num)
  have m1 : Moderate 1 := by simpa using moderate_half 2 (by norm_num)
  have m2 : Moderate 2 := by
    have := moderate_half 4 (by norm_num)
    norm_num at this ⊢; exact this
  have hz : ∃ z, computeRobustness nd 0 (.and [.pred "x" .GE 0, .pred "y" .GE 0])
      [("x", ofPts (K := B64) [((0 : ℚ), (1 : ℚ)), ((1 : ℚ), (0 : ℚ))]),
       ("y", ofPts (K := B64) [((0 : ℚ), (0 : ℚ)), ((1 : ℚ), (2 : ℚ))])] false = .ok z :=
    ⟨ofPts (K := B64) [((0 : ℚ), (0 : ℚ)), ((6004799503160661 / 2 ^ 54 : ℚ), (6004799503160661 / 2 ^ 53 : ℚ)), ((1 : ℚ), (0 : ℚ))],
      by cases nd <;> decide +kernel⟩
  obtain ⟨z, hz⟩ := hz
  obtain ⟨zs, h1, -, h3⟩ := C98_and nd 0 (.pred "x" .GE 0) (.pred "y" .GE 0) _ false _ _ z
    [(0, 1), (1, 0)] [(0, 0), (1, 2)] 2 1 1 (by cases nd <;> decide +kernel) (by cases nd <;> decide +kernel) hz
    (B64.represents_lq.2 ⟨by simp [Increasing], rfl⟩) (B64.represents_lq.2 ⟨by simp [Increasing], rfl⟩) (by simp) rfl
    (by norm_num)
    ⟨by simp [m0, m1], by simp⟩ ⟨by simp [m0, m1, m2], by simp⟩
  exact ⟨zs, ⟨z, hz, h1⟩, fun t ht => (h3 t ht).trans (by norm_num)⟩

end Verif
