import Verif.Proofs.SyncFin
import Verif.Proofs.Binary64
import Verif.Model.Exact
import Verif.Model.Reals
import Mathlib.Analysis.SpecialFunctions.Integrals.Basic

/-!
# Lines through samples: C71 and C72
-/

set_option linter.unusedSectionVars false

namespace Verif
open Spec

/-! ## C71 -/

theorem integral_line (t0 t v d : ℝ) :
    (∫ u in t0..t, (v + d * (u - t0))) = (v + (v + d * (t - t0))) * (t - t0) / 2 := by
  have h : ∀ u ∈ Set.uIcc t0 t, HasDerivAt (fun u => v * u + d * (u - t0) ^ 2 / 2) (v + d * (u - t0)) u := by
    intro u _
    have h1 : HasDerivAt (fun u : ℝ => u - t0) 1 u := (hasDerivAt_id u).sub_const t0
    have h2 := ((h1.pow 2).const_mul d).div_const 2
    have h3 := ((hasDerivAt_id u).const_mul v).add h2
    refine (h3.congr_deriv ?_)
    simp; ring
  rw [intervalIntegral.integral_eq_sub_of_hasDerivAt h
    (Continuous.intervalIntegrable (by fun_prop) _ _)]
  ring

/-- **C71.** `area(t)` is the integral of the line through the sample up to time `t`, and 0 for `t` not after
the sample. -/
theorem C71_area (t0 v d t : ℝ) :
    Sample.area (⟨.fin t0, .fin v, .fin d⟩ : Sample ℝ) (.fin t) =
      .fin (if t0 < t then ∫ u in t0..t, (v + d * (u - t0)) else 0) := by
  unfold Sample.area
  simp only [D.lt_fin, decide_eq_true_eq]
  split
  · rw [integral_line]; simp [Sample.interpolate, D.div_fin]
  · rfl

/-- The sum of the areas from each sample to the next. -/
theorem areas_core : ∀ (p : ℝ × ℝ) (l : List (ℝ × ℝ)), Increasing (p :: l) →
    ∃ as : List ℝ, as.length = l.length ∧
      (∀ i (h : i < as.length) (q : ℝ × ℝ), l[i]? = some q →
        (ofPts (p :: l)).areaIdx (.fin q.1) i = .ok (.fin as[i])) ∧
      IntervalIntegrable (eval (p :: l)) MeasureTheory.volume p.1 ((p :: l).getLast (by simp)).1 ∧
      as.sum = ∫ t in p.1..((p :: l).getLast (by simp)).1, eval (p :: l) t
  | p, [], _ => ⟨[], rfl, by simp, by simp, by simp⟩
  | p, q :: l, h => by
    have hpq : p.1 < q.1 := by
      unfold Increasing at h; simp only [List.map_cons, List.pairwise_cons] at h
      exact h.1 q.1 (by simp)
    have h' : Increasing (q :: l) := by
      unfold Increasing at h ⊢; simp only [List.map_cons] at h ⊢; exact h.of_cons
    obtain ⟨as, hl, ha, hint, hs⟩ := areas_core q l h'
    have hlast : q.1 ≤ ((q :: l).getLast (by simp)).1 := by
      rcases List.mem_cons.1 (List.getLast_mem (l := q :: l) (by simp)) with e | e
      · rw [e]
      · unfold Increasing at h'; simp only [List.map_cons, List.pairwise_cons] at h'
        exact (h'.1 _ (List.mem_map_of_mem (f := Prod.fst) e)).le
    have e1 : Set.EqOn (fun u => p.2 + (q.2 - p.2) / (q.1 - p.1) * (u - p.1)) (eval (p :: q :: l))
        (Set.uIoo p.1 q.1) := by
      intro u hu
      rw [Set.uIoo_of_le hpq.le] at hu
      simp only [eval, if_pos hu.2.le, line]; ring
    have e2 : Set.EqOn (eval (q :: l)) (eval (p :: q :: l))
        (Set.uIoo q.1 ((q :: l).getLast (by simp)).1) := by
      intro u hu
      rw [Set.uIoo_of_le hlast] at hu
      simp only [eval, if_neg (not_le.2 hu.1)]
    have i1 : IntervalIntegrable (eval (p :: q :: l)) MeasureTheory.volume p.1 q.1 :=
      IntervalIntegrable.congr_uIoo (Continuous.intervalIntegrable (by fun_prop) _ _) e1
    have i2 := hint.congr_uIoo e2
    have hd : q.1 - p.1 ≠ 0 := (sub_pos.2 hpq).ne'
    refine ⟨(∫ u in p.1..q.1, (p.2 + (q.2 - p.2) / (q.1 - p.1) * (u - p.1))) :: as, by simp [hl], ?_, ?_, ?_⟩
    · intro i hi r hr
      cases i with
      | zero =>
        simp only [List.getElem?_cons_zero, Option.some.injEq] at hr
        subst hr
        have := C71_area p.1 p.2 ((q.2 - p.2) / (q.1 - p.1)) q.1
        rw [if_pos hpq] at this
        simp only [Signal.areaIdx, Signal.atIdx, ofPts, List.map_cons, build, lift, List.getElem?_cons_zero,
          D.sub_fin, D.div_fin _ _ hd, List.getElem_cons_zero]
        show Outcome.ok _ = _
        rw [this]
      | succ i =>
        simp only [List.getElem?_cons_succ] at hr
        have := ha i (by simpa using hi) r hr
        rw [← List.getElem_cons_succ (a := ∫ u in p.1..q.1, (p.2 + (q.2 - p.2) / (q.1 - p.1) * (u - p.1)))
          (h := hi)] at this
        rw [← this]
        simp [Signal.areaIdx, Signal.atIdx, ofPts, build]
    · simpa using i1.trans i2
    · rw [List.sum_cons, hs, intervalIntegral.integral_congr_uIoo e1, intervalIntegral.integral_congr_uIoo e2,
        intervalIntegral.integral_add_adjacent_intervals i1 i2]
      simp

/-- **C71.** The areas from each sample of a signal to the next add up to the integral of the signal over its
domain. -/
theorem C71_integral (s : Signal ℝ) (p : ℝ × ℝ) (l : List (ℝ × ℝ)) (h : Represents s (p :: l)) :
    ∃ as : List ℝ, as.length = l.length ∧
      (∀ i (h : i < as.length) (q : ℝ × ℝ), l[i]? = some q → s.areaIdx (.fin q.1) i = .ok (.fin as[i])) ∧
      as.sum = ∫ t in p.1..((p :: l).getLast (by simp)).1, eval (p :: l) t := by
  obtain ⟨hi, rfl⟩ := (represents_iff _ _).1 h
  obtain ⟨as, h1, h2, -, h3⟩ := areas_core p l hi
  exact ⟨as, h1, h2, h3⟩

/-- The triangle with the corners (0, 0), (1, 2), (3, 0). -/
example : let s : Signal ℚ := ofPts [(0, 0), (1, 2), (3, 0)]
    s.areaIdx (.fin 1) 0 = .ok (.fin 1) ∧ s.areaIdx (.fin 3) 1 = .ok (.fin 2) ∧
    s.areaIdx (.fin 0) 1 = .ok 0 ∧ s.areaIdx (.fin 4) 3 = .throw .outOfRange := by decide +kernel

/-! ## C72 -/

/-- **C71**, **C72**: the functions of a signal with an index are those of the sample with this index, and
throw `std::out_of_range` if there is none; for every rounding. -/
theorem C72_indexed {K : Type} [Field K] [LinearOrder K] [Arith K] (s : Signal K) (i : Nat) (t : D K)
    (q : Sample K) :
    (∀ p, s.samples[i]? = some p → s.interpolateIdx t i = .ok (p.interpolate t) ∧
      s.timeIntersectIdx q i = .ok (p.timeIntersect q) ∧ s.areaIdx t i = .ok (p.area t)) ∧
    (s.samples.length ≤ i → s.interpolateIdx t i = .throw .outOfRange ∧
      s.timeIntersectIdx q i = .throw .outOfRange ∧ s.areaIdx t i = .throw .outOfRange) := by
  constructor
  · intro p hp
    simp [Signal.interpolateIdx, Signal.timeIntersectIdx, Signal.areaIdx, Signal.atIdx, hp]
  · intro h
    have : s.samples[i]? = none := List.getElem?_eq_none h
    simp [Signal.interpolateIdx, Signal.timeIntersectIdx, Signal.areaIdx, Signal.atIdx, this]

example : (ofPts [((0 : ℚ), 1), (1, 3), (2, 0)]).interpolateIdx (.fin (3/2)) 1 = .ok (.fin (3/2)) := by
  decide +kernel

section exact
variable {K : Type} [Field K] [LinearOrder K] [IsStrictOrderedRing K] [Arith K] [ExactArith K]

/-- **C72.** If the lines through two samples are not parallel, `time_intersect` is the only time at which
they have the same value; it does not depend on the order of the two samples. -/
theorem C72_intersect (p q : Sample K) (t0 v d t1 w e : K) (hp : p = ⟨.fin t0, .fin v, .fin d⟩)
    (hq : q = ⟨.fin t1, .fin w, .fin e⟩) (hne : d ≠ e) :
    ∃ t : K, p.timeIntersect q = .fin t ∧ q.timeIntersect p = .fin t ∧
      ∀ u : K, p.interpolate (.fin u) = q.interpolate (.fin u) ↔ u = t := by
  subst hp hq
  have h1 : e - d ≠ 0 := sub_ne_zero.2 (Ne.symm hne)
  have h2 : d - e ≠ 0 := sub_ne_zero.2 hne
  refine ⟨(v - w + e * t1 - d * t0) / (e - d), ?_, ?_, fun u => ?_⟩
  · simp [Sample.timeIntersect, D.div_fin _ _ h1]
  · simp only [Sample.timeIntersect, D.sub_fin, D.mul_fin, D.add_fin, D.div_fin _ _ h2]
    congr 1
    field_simp
    ring
  · simp only [Sample.interpolate, D.sub_fin, D.mul_fin, D.add_fin, D.fin.injEq]
    rw [eq_div_iff h1]
    constructor <;> intro h <;> linear_combination -h

/-- **C72.** If they are parallel it is not a finite number: NaN if the lines are the same, otherwise
infinite. -/
theorem C72_parallel (p q : Sample K) (t0 v d t1 w : K) (hp : p = ⟨.fin t0, .fin v, .fin d⟩)
    (hq : q = ⟨.fin t1, .fin w, .fin d⟩) :
    (p.timeIntersect q = .nan ↔ ∀ u : K, p.interpolate (.fin u) = q.interpolate (.fin u)) ∧
    ((p.timeIntersect q).isinf = true ↔ ∀ u : K, p.interpolate (.fin u) ≠ q.interpolate (.fin u)) := by
  subst hp hq
  have hi : ∀ u : K, Sample.interpolate (⟨.fin t0, .fin v, .fin d⟩ : Sample K) (.fin u) =
      Sample.interpolate (⟨.fin t1, .fin w, .fin d⟩ : Sample K) (.fin u) ↔ v - w + d * t1 - d * t0 = 0 := by
    intro u
    simp only [Sample.interpolate, D.sub_fin, D.mul_fin, D.add_fin, D.fin.injEq]
    constructor <;> intro h <;> linear_combination h
  have ht : Sample.timeIntersect (⟨.fin t0, .fin v, .fin d⟩ : Sample K) ⟨.fin t1, .fin w, .fin d⟩ =
      .fin (v - w + d * t1 - d * t0) / .fin 0 := by
    simp [Sample.timeIntersect]
  rw [ht]
  simp only [ne_eq, hi, forall_const]
  generalize v - w + d * t1 - d * t0 = x
  have hd : (.fin x : D K) / .fin 0 = if x = 0 then .nan else if 0 < x then .pinf else .ninf := by
    show D.div _ _ = _
    simp only [D.div, if_true]
  rw [hd]
  by_cases h0 : x = 0
  · simp [h0, D.isinf]
  · by_cases h1 : 0 < x <;> simp [h0, h1, D.isinf]

end exact

example : Sample.timeIntersect (⟨.fin 0, .fin 0, .fin 1⟩ : Sample ℚ) ⟨.fin 1, .fin 2, .fin (-1)⟩ = .fin (3/2) ∧
    Sample.timeIntersect (⟨.fin 0, .fin 0, .fin 1⟩ : Sample ℚ) ⟨.fin 1, .fin 2, .fin 1⟩ = .ninf ∧
    Sample.timeIntersect (⟨.fin 0, .fin 0, .fin 1⟩ : Sample ℚ) ⟨.fin 2, .fin 2, .fin 1⟩ = .nan := by
  decide +kernel

/-- **C72** needs exact arithmetic: with the rounding of binary64 the two orders of the operands of
`time_intersect` can give two different numbers. -/
theorem C72_binary64_order : ∃ p q : Sample B64, p.timeIntersect q ≠ q.timeIntersect p ∧
    (∃ t, p.timeIntersect q = .fin t) ∧ ∃ t, q.timeIntersect p = .fin t := by
  refine ⟨⟨.fin (2 : ℚ), .fin (-2 : ℚ), B64.rnd (2 / 3)⟩, ⟨.fin (2 : ℚ), .fin (-5 : ℚ), B64.rnd (1 / 10)⟩,
    by decide +kernel, ⟨(-1854423375976087 / 2 ^ 49 : ℚ), by decide +kernel⟩,
    ⟨(-7417693503904347 / 2 ^ 51 : ℚ), by decide +kernel⟩⟩

end Verif
