import Verif.Proofs.SyncAcc
import Verif.Props.Accuracy
import Mathlib.Algebra.Order.Group.MinMax

/-!
# Rounding errors of And and Or on signals with different timestamps: C119

When the timestamps differ, `compute_minmax_pair` first calls `synchronize`, which samples each operand at the
timestamps of the other one by linear interpolation.  The interpolated values are within `15 * 2^-53 V` of the exact
ones, and the minimum or maximum is within `2^-46 V (1 + H / d)`, where `d` is the smallest distance of two different
timestamps of the operands.
-/

set_option linter.unusedSectionVars false
set_option exponentiation.threshold 1100

namespace Verif
open Spec

/-- **C119, synchronisation.** The results have the timestamps of both operands within the common domain, and their
values are within `15 * 2^-53 V` of the operands at every time of it. -/
theorem C119_synchronize (x y x' y' : Signal B64) (xs ys : List (ℚ × ℚ)) (V H : ℚ)
    (h : synchronize x y = .ok (x', y')) (rx : Represents (K := B64) x xs) (ry : Represents (K := B64) y ys)
    (tx : Gentle V H xs) (ty : Gentle V H ys) :
    ∃ xs' ys' : List (ℚ × ℚ), Represents (K := B64) x' xs' ∧ Represents (K := B64) y' ys' ∧
      xs'.map Prod.fst = ys'.map Prod.fst ∧
      (∀ t, t ∈ xs'.map Prod.fst ↔
        (t ∈ xs.map Prod.fst ∨ t ∈ ys.map Prod.fst) ∧ t ∈ dom xs ∧ t ∈ dom ys) ∧
      dom xs' = dom xs ∩ dom ys ∧
      ∀ t ∈ dom xs ∩ dom ys, |eval xs' t - eval xs t| ≤ 15 / 2 ^ 53 * V ∧
        |eval ys' t - eval ys t| ≤ 15 / 2 ^ 53 * V := by
  obtain ⟨ts, f, g, _, h1, h2, h3, h4, _, h6⟩ := B64.synchronize_acc B64.syncBudget_mild rx ry
    (fun p hp => ⟨(tx p hp).1, (tx p hp).2.1, (tx p hp).2.2.2⟩)
    (fun p hp => ⟨(ty p hp).1, (ty p hp).2.1, (ty p hp).2.2.2⟩) h
  have e : ∀ f : ℚ → ℚ, (sampleAt f ts).map Prod.fst = ts := fun f => by simp [sampleAt, Function.comp_def]
  refine ⟨sampleAt f ts, sampleAt g ts, h2, h3, (e f).trans (e g).symm, fun t => by rw [e f]; exact h1 t, h4,
    fun t ht => ?_⟩
  have e2 : 15 / 2 ^ 53 * V = 1 / 2 ^ 53 * (15 * V) := by ring
  rw [e2]
  exact h6 t ht

/-- **C119, disjunction.** -/
theorem C119_or (nd : Bool) (fuel : Nat) (phi psi : Expr B64) (trace : Trace B64) (sy : Bool)
    (x y z : Signal B64) (xs ys : List (ℚ × ℚ)) (V H d : ℚ)
    (hx : computeRobustness nd fuel phi trace sy = .ok x)
    (hy : computeRobustness nd fuel psi trace sy = .ok y)
    (hz : computeRobustness nd fuel (.or [phi, psi]) trace sy = .ok z)
    (rx : Represents (K := B64) x xs) (ry : Represents (K := B64) y ys)
    (hd : 0 < d) (tx : Gentle V H xs) (ty : Gentle V H ys) (ha : Apart d xs ys) :
    ∃ zs : List (ℚ × ℚ), Represents (K := B64) z zs ∧ dom zs = dom xs ∩ dom ys ∧
      ∀ t ∈ dom zs, |eval zs t - max (eval xs t) (eval ys t)| ≤ 1 / 2 ^ 46 * V * (1 + H / d) := by
  have h : minmaxPair nd Sample.ge x y false = .ok z := (compute_or_two hx hy).symm.trans hz
  refine B64.sync_acc B64.syncBudget_mild .max ?_ hd rx ry tx ty ha h
  exact fun a b a' b' e h1 h2 => (abs_max_sub_max_le_max a b a' b').trans (max_le h1 h2)

/-- **C119, conjunction.** -/
theorem C119_and (nd : Bool) (fuel : Nat) (phi psi : Expr B64) (trace : Trace B64) (sy : Bool)
    (x y z : Signal B64) (xs ys : List (ℚ × ℚ)) (V H d : ℚ)
    (hx : computeRobustness nd fuel phi trace sy = .ok x)
    (hy : computeRobustness nd fuel psi trace sy = .ok y)
    (hz : computeRobustness nd fuel (.and [phi, psi]) trace sy = .ok z)
    (rx : Represents (K := B64) x xs) (ry : Represents (K := B64) y ys)
    (hd : 0 < d) (tx : Gentle V H xs) (ty : Gentle V H ys) (ha : Apart d xs ys) :
    ∃ zs : List (ℚ × ℚ), Represents (K := B64) z zs ∧ dom zs = dom xs ∩ dom ys ∧
      ∀ t ∈ dom zs, |eval zs t - min (eval xs t) (eval ys t)| ≤ 1 / 2 ^ 46 * V * (1 + H / d) := by
  have h : minmaxPair nd Sample.le x y false = .ok z := (compute_and_two hx hy).symm.trans hz
  refine B64.sync_acc B64.syncBudget_mild .min ?_ hd rx ry tx ty ha h
  exact fun a b a' b' e h1 h2 => (abs_min_sub_min_le_max a b a' b').trans (max_le h1 h2)

theorem mild_int (n : ℤ) (h : |(n : ℚ)| ≤ 2 ^ 40) : Mild n := by
  refine ⟨⟨n * 2 ^ 100, ?_⟩, by exact_mod_cast h⟩
  have : (2 : ℚ) ^ (-100 : ℤ) = 1 / 2 ^ 100 := by rw [zpow_neg]; norm_num
  rw [this]; push_cast; field_simp; norm_num

/-- The signals of the examples: the first one is interpolated at the time 1, where its value is 2/3. -/
def syncX : List (ℚ × ℚ) := [(0, 1), (3, 0)]
def syncY : List (ℚ × ℚ) := [(0, 0), (1, 1), (3, 2)]
def syncTrace : Trace B64 := [("x", ofPts (K := B64) syncX), ("y", ofPts (K := B64) syncY)]

theorem sync_gentle : Gentle 2 3 syncX ∧ Gentle 2 3 syncY ∧ Apart 1 syncX syncY := by
  have m0 : Mild 0 := by simpa using mild_int 0 (by norm_num)
  have m1 : Mild 1 := by simpa using mild_int 1 (by norm_num)
  have m2 : Mild 2 := by simpa using mild_int 2 (by norm_num)
  have m3 : Mild 3 := by simpa using mild_int 3 (by norm_num)
  refine ⟨?_, ?_, ?_⟩
  · simp only [Gentle, syncX, List.mem_cons, List.not_mem_nil, or_false, forall_eq_or_imp, forall_eq]
    norm_num [m0, m1, m3]
  · simp only [Gentle, syncY, List.mem_cons, List.not_mem_nil, or_false, forall_eq_or_imp, forall_eq]
    norm_num [m0, m1, m2, m3]
  · simp only [Apart, syncX, syncY, List.map_cons, List.map_nil, List.cons_append, List.nil_append, List.mem_cons,
      List.not_mem_nil, or_false, forall_eq_or_imp, forall_eq]
    norm_num

/-- The conjunction of two signals with different timestamps.  The interpolated value and the crossing are rounded. -/
example (nd : Bool) : ∃ zs : List (ℚ × ℚ),
    (∃ z, computeRobustness nd 0 (.and [.pred "x" .GE 0, .pred "y" .GE 0]) syncTrace false = .ok z ∧
      Represents (K := B64) z zs) ∧ dom zs = dom syncX ∩ dom syncY ∧
    ∀ t ∈ dom zs, |eval zs t - min (eval syncX t) (eval syncY t)| ≤ 1 / 2 ^ 43 := by
  have hz : ∃ z, computeRobustness nd 0 (.and [.pred "x" .GE 0, .pred "y" .GE 0]) syncTrace false = .ok z := by
    refine ⟨(match computeRobustness (K := B64) nd 0 (.and [.pred "x" .GE 0, .pred "y" .GE 0]) syncTrace false with
      | .ok z => z
      | _ => .empty), ?_⟩
    cases nd <;> decide +kernel
  obtain ⟨z, hz⟩ := hz
  obtain ⟨g1, g2, g3⟩ := sync_gentle
  obtain ⟨zs, h1, h2, h3⟩ := C119_and nd 0 (.pred "x" .GE 0) (.pred "y" .GE 0) _ false _ _ z
    syncX syncY 2 3 1 (by cases nd <;> decide +kernel) (by cases nd <;> decide +kernel) hz
    (B64.represents_lq.2 ⟨by simp [Increasing, syncX], rfl⟩) (B64.represents_lq.2 ⟨by simp [Increasing, syncY], rfl⟩)
    (by norm_num) g1 g2 g3
  exact ⟨zs, ⟨z, hz, h1⟩, h2, fun t ht => (h3 t ht).trans (by norm_num)⟩

/-- The interpolated value really is rounded, so the error bound cannot be zero. -/
example : ∃ x' y', synchronize (ofPts (K := B64) syncX) (ofPts (K := B64) syncY) = .ok (x', y') ∧
    x'.samples[1]?.map (·.value) = some (B64.fq (3002399751580331 / 2 ^ 52)) ∧
    (3002399751580331 / 2 ^ 52 : ℚ) ≠ 2 / 3 := by
  refine ⟨_, _, rfl, ?_, by norm_num⟩
  decide +kernel

end Verif
