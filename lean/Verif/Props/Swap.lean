import Verif.Proofs.Swap
import Verif.Props.Binary64

/-!
# The order of the operands of And and Or: C91
-/

set_option linter.unusedSectionVars false

namespace Verif
open Spec

/-- The statement of C91 for two operands in binary64: exchanging them does not change the signal. -/
def SwapClaim (op : Expr B64 → Expr B64 → Expr B64) : Prop :=
  ∀ (nd : Bool) (fuel : Nat) (x y : Signal B64) (sy : Bool),
    WF x → WF y → Representable x → Representable y →
    x.samples.map Sample.time = y.samples.map Sample.time →
    computeRobustness nd fuel (op (.pred "x" .GE 0) (.pred "y" .GE 0)) [("x", x), ("y", y)] sy =
      computeRobustness nd fuel (op (.pred "y" .GE 0) (.pred "x" .GE 0)) [("x", x), ("y", y)] sy

/-- The doubles 0.1 and 1.1. -/
def tenth : ℚ := 3602879701896397 / 2 ^ 55
def elevenTenths : ℚ := 4953959590107546 / 2 ^ 52

/-- Two signals that start with the same value. -/
def tieX : Signal B64 := ofPts (K := B64) [(tenth, (0 : ℚ)), (elevenTenths, (1 : ℚ))]
def tieY : Signal B64 := ofPts (K := B64) [(tenth, (0 : ℚ)), (elevenTenths, (-2 : ℚ))]

/-- The statement of C91 for any number of operands in exact arithmetic: permuting them does not change the
samples. -/
def PermClaim (op : List (Expr ℚ) → Expr ℚ) : Prop :=
  ∀ (trace : Trace ℚ) (args args' : List (Expr ℚ)), args.Perm args' →
    computeRobustness false 0 (op args) trace false = computeRobustness false 0 (op args') trace false

/-- Three signals; the first two cross above the third one. -/
def permTrace : Trace ℚ := [("x", ofPts [(0, 1), (2, 3)]), ("y", ofPts [(0, 3), (2, 1)]), ("z", ofPts [(0, 0), (2, 0)])]
def permTrace' : Trace ℚ := [("x", ofPts [(0, 1), (2, 3)]), ("y", ofPts [(0, 3), (2, 1)]), ("z", ofPts [(0, 9), (2, 9)])]

/-- **C91 is false:** in binary64 a tie of two operands makes the order of the operands visible, as the crossing
is computed to be after the tie; and for three operands the order is visible without rounding, as crossings of the first
two are kept. -/
theorem C91_refuted : (¬ SwapClaim (fun a b => .and [a, b]) ∧ ¬ SwapClaim (fun a b => .or [a, b])) ∧
    ¬ PermClaim .and ∧ ¬ PermClaim .or := by
  have w : ∀ p : ℚ × ℚ, ∀ q : ℚ × ℚ, p.1 < q.1 → WF (ofPts (K := B64) [p, q]) := by
    intro p q h
    refine (wf_iff _).2 ⟨_, ?_, rfl⟩
    refine ⟨?_, trivial⟩
    show D.le (.fin (q.1 : B64)) (.fin p.1) = false
    rw [D.le_fin]; exact decide_eq_false (not_le.2 h)
  have r : ∀ p q : ℚ × ℚ, IsB64 p.1 → IsB64 p.2 → IsB64 q.1 → IsB64 q.2 →
      Representable (ofPts (K := B64) [p, q]) := by
    intro p q h1 h2 h3 h4
    refine representable_ofPts fun s hs => ?_
    rcases List.mem_cons.1 hs with rfl | hs
    · exact ⟨h1, h2⟩
    · rw [List.mem_singleton.1 hs]; exact ⟨h3, h4⟩
  have b1 : IsB64 tenth := ⟨3602879701896397, -55, by norm_num [tenth], by norm_num, by norm_num, by norm_num⟩
  have b2 : IsB64 elevenTenths :=
    ⟨4953959590107546, -52, by norm_num [elevenTenths], by norm_num, by norm_num, by norm_num⟩
  have b3 : IsB64 1 := ⟨1, 0, by norm_num, by norm_num, by norm_num, by norm_num⟩
  have b4 : IsB64 (-2) := ⟨-2, 0, by norm_num, by norm_num, by norm_num, by norm_num⟩
  have lt : tenth < elevenTenths := by norm_num [tenth, elevenTenths]
  refine ⟨⟨fun H => ?_, fun H => ?_⟩, fun H => ?_, fun H => ?_⟩
  · have := H false 0 tieX tieY false (w _ _ lt) (w _ _ lt) (r _ _ b1 isB64_zero b2 b3) (r _ _ b1 isB64_zero b2 b4)
      (by decide +kernel)
    revert this; decide +kernel
  · have := H false 0 tieY tieX false (w _ _ lt) (w _ _ lt) (r _ _ b1 isB64_zero b2 b4) (r _ _ b1 isB64_zero b2 b3)
      (by decide +kernel)
    revert this; decide +kernel
  · have := H permTrace [.pred "x" .GE 0, .pred "y" .GE 0, .pred "z" .GE 0]
      [.pred "z" .GE 0, .pred "x" .GE 0, .pred "y" .GE 0] (List.perm_append_comm (l₁ := [_, _]) (l₂ := [_]))
    revert this; decide +kernel
  · have := H permTrace' [.pred "x" .GE 0, .pred "y" .GE 0, .pred "z" .GE 0]
      [.pred "z" .GE 0, .pred "x" .GE 0, .pred "y" .GE 0] (List.perm_append_comm (l₁ := [_, _]) (l₂ := [_]))
    revert this; decide +kernel

section any
variable {K : Type} [Field K] [LinearOrder K] [IsStrictOrderedRing K] [Arith K]

/-- **C91 for every rounding, without ties:** if the robustness signals of the operands have finite timestamps
and the same first one, they can be synchronised, in either order alike; and if then no two
values at the same instant are equal (or NaN), exchanging the operands changes neither the signal nor the exception.
(Missing: ties, for which it is false.) -/
theorem C91_rounded_partial (nd : Bool) (fuel : Nat) (phi psi : Expr K) (trace : Trace K) (sy : Bool) (x y : Signal K)
    (hx : computeRobustness nd fuel phi trace sy = .ok x) (hy : computeRobustness nd fuel psi trace sy = .ok y)
    (hne : x.samples ≠ []) (hne' : y.samples ≠ []) (fx : ∀ s ∈ x.samples, ∃ t : K, s.time = .fin t)
    (fy : ∀ s ∈ y.samples, ∃ t : K, s.time = .fin t) (hb : x.beginTime = y.beginTime) :
    ∃ x' y', synchronize x y = .ok (x', y') ∧ synchronize y x = .ok (y', x') ∧
      ((∀ p ∈ x'.samples.zip y'.samples, p.1.value.lt p.2.value = true ∨ p.2.value.lt p.1.value = true) →
        computeRobustness nd fuel (.and [phi, psi]) trace sy = computeRobustness nd fuel (.and [psi, phi]) trace sy ∧
        computeRobustness nd fuel (.or [phi, psi]) trace sy = computeRobustness nd fuel (.or [psi, phi]) trace sy) := by
  have wx := C42_robustness_well_formed nd fuel phi trace sy x hx
  have wy := C42_robustness_well_formed nd fuel psi trace sy y hy
  obtain ⟨x', y', h1, h2⟩ := sync_swap ⟨wx, fx⟩ ⟨wy, fy⟩ hne hne' hb
  refine ⟨x', y', h1, h2, fun h => ?_⟩
  have sym : ∀ a b : D K, a.eq b = b.eq a := by
    intro a b; cases a <;> cases b <;> simp [D.eq, eq_comm]
  have main : ∀ comp : Cmp K, (∀ p ∈ x'.samples.zip y'.samples, comp p.1 p.2 = !comp p.2 p.1) →
      minmaxPair nd comp x y false = minmaxPair nd comp y x false := by
    intro comp hc
    simp only [minmaxPair, Bool.false_eq_true, if_false, h1, h2, Outcome.bind_ok]
    rw [pairLoop_swap comp _ _ _ _ _ _ hc, sym x'.beginTime, sym x'.endTime,
      show (x'.size == y'.size) = (y'.size == x'.size) from by simp [Bool.beq_comm]]
    rfl
  unfold computeRobustness at hx hy ⊢
  simp only at hx hy ⊢
  rw [compute_and_two hx hy, compute_or_two hx hy, compute_and_two hy hx, compute_or_two hy hx]
  constructor
  · refine main _ fun p hp => ?_
    rcases h p hp with e | e
    · simp [Sample.le, Sample.gt, Sample.lt, e, D.lt_asymm e]
    · simp [Sample.le, Sample.gt, Sample.lt, e, D.lt_asymm e]
  · refine main _ fun p hp => ?_
    rcases h p hp with e | e
    · simp [Sample.ge, Sample.lt, e, D.lt_asymm e]
    · simp [Sample.ge, Sample.lt, e, D.lt_asymm e]

end any

section exact
variable {K : Type} [Field K] [LinearOrder K] [IsStrictOrderedRing K] [Arith K] [ExactArith K]

/-- **C91 for two operands in exact arithmetic:** exchanging them does not change a single sample, ties
included.  (Missing: three operands, for which it is false; their order does not change the function, C24.) -/
theorem C91_exact_partial (nd : Bool) (fuel : Nat) (phi psi : Expr K) (trace : Trace K) (sy : Bool) (x y : Signal K)
    (xs ys : List (K × K)) (hx : computeRobustness nd fuel phi trace sy = .ok x) (rx : Represents x xs)
    (hy : computeRobustness nd fuel psi trace sy = .ok y) (ry : Represents y ys) (z : Signal K) :
    (computeRobustness nd fuel (.and [phi, psi]) trace sy = .ok z ↔
      computeRobustness nd fuel (.and [psi, phi]) trace sy = .ok z) ∧
    (computeRobustness nd fuel (.or [phi, psi]) trace sy = .ok z ↔
      computeRobustness nd fuel (.or [psi, phi]) trace sy = .ok z) := by
  obtain ⟨ix, rfl⟩ := (represents_iff x xs).1 rx
  obtain ⟨iy, rfl⟩ := (represents_iff y ys).1 ry
  unfold computeRobustness at hx hy ⊢
  simp only at hx hy ⊢
  rw [compute_and_two hx hy, compute_or_two hx hy, compute_and_two hy hx, compute_or_two hy hx]
  exact ⟨⟨pair_swap_exact orders_le ix iy, pair_swap_exact orders_le iy ix⟩,
    ⟨pair_swap_exact orders_ge ix iy, pair_swap_exact orders_ge iy ix⟩⟩

end exact

/-- Two crossing signals that tie at an inner sample, in exact arithmetic. -/
example : ∀ z, computeRobustness false 0 (.and [.pred "x" .GE 0, .pred "y" .GE 0])
      [("x", ofPts [(0, 1), (1, 2), (2, 0), (3, 3)]), ("y", ofPts [(0, 0), (1, 2), (2, 3), (3, 0)])] false = .ok z ↔
    computeRobustness false 0 (.and [.pred "y" .GE 0, .pred "x" .GE 0])
      [("x", ofPts [((0 : ℚ), (1 : ℚ)), (1, 2), (2, 0), (3, 3)]), ("y", ofPts [(0, 0), (1, 2), (2, 3), (3, 0)])] false =
        .ok z := fun z =>
  (C91_exact_partial false 0 (.pred "x" .GE 0) (.pred "y" .GE 0) _ false
    (ofPts [((0 : ℚ), (1 : ℚ)), (1, 2), (2, 0), (3, 3)]) (ofPts [((0 : ℚ), (0 : ℚ)), (1, 2), (2, 3), (3, 0)])
    _ _ (by decide +kernel) (represents_ofPts (by simp [Increasing]; norm_num)) (by decide +kernel)
    (represents_ofPts (by simp [Increasing]; norm_num)) z).1

/-- The hypotheses of `C91_rounded_partial` hold of two crossing signals in binary64. -/
example : (synchronize (ofPts (K := B64) [((0 : ℚ), (1 : ℚ)), ((3 : ℚ), (0 : ℚ))])
      (ofPts (K := B64) [((0 : ℚ), (0 : ℚ)), ((1 : ℚ), (1/2 : ℚ)), ((3 : ℚ), (5 : ℚ))])).map' (fun r =>
        (r.1.samples.zip r.2.samples).all fun p => p.1.value.lt p.2.value || p.2.value.lt p.1.value) = .ok true ∧
    computeRobustness false 0 (.and [.pred "x" .GE 0, .pred "y" .GE 0])
      [("x", ofPts (K := B64) [((0 : ℚ), (1 : ℚ)), ((3 : ℚ), (0 : ℚ))]),
        ("y", ofPts (K := B64) [((0 : ℚ), (0 : ℚ)), ((1 : ℚ), (1/2 : ℚ)), ((3 : ℚ), (5 : ℚ))])] false =
    computeRobustness false 0 (.and [.pred "y" .GE 0, .pred "x" .GE 0])
      [("x", ofPts (K := B64) [((0 : ℚ), (1 : ℚ)), ((3 : ℚ), (0 : ℚ))]),
        ("y", ofPts (K := B64) [((0 : ℚ), (0 : ℚ)), ((1 : ℚ), (1/2 : ℚ)), ((3 : ℚ), (5 : ℚ))])] false :=
  ⟨by decide +kernel, by decide +kernel⟩

/-- The counterexample: the crossing is computed to be after the tie. -/
example : (computeRobustness false 0 (.and [.pred "x" .GE 0, .pred "y" .GE 0]) [("x", tieX), ("y", tieY)] false).map'
      (fun z => z.samples.length) = .ok 3 ∧
    (computeRobustness false 0 (.and [.pred "y" .GE 0, .pred "x" .GE 0]) [("x", tieX), ("y", tieY)] false).map'
      (fun z => z.samples.length) = .ok 2 := ⟨by decide +kernel, by decide +kernel⟩

end Verif
