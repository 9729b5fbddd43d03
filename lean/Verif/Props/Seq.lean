import Verif.Props.AnyRound
import Verif.Props.Temporal

/-! # The functions `compute_max_seq` and `compute_min_seq` of one signal, and access to the elements: C104 -/

set_option linter.unusedSectionVars false

namespace Verif
open Spec

section any
variable {K : Type} [Field K] [LinearOrder K] [IsStrictOrderedRing K] [Arith K]

/-- **C104.** For every rounding: `compute_max_seq(x)` of a well-formed non-empty signal without NaN values has the
timestamps of `x`, and its value at each sample is the greatest of the values at this sample and the later ones. -/
theorem C104_max_seq (x : Signal K) (hw : WF x) (hne : x.samples ≠ []) (hn : ∀ a ∈ x.samples, a.value ≠ .nan) :
    ∃ z, maxSeq x = .ok z ∧ z.samples.map Sample.time = x.samples.map Sample.time ∧
      ∀ k (hk : k < z.samples.length),
        (∃ s ∈ x.samples.drop k, z.samples[k].value = s.value) ∧
        ∀ s ∈ x.samples.drop k, s.value.le z.samples[k].value = true := by
  have hop : ∀ a b : D K, a ≠ .nan → b ≠ .nan → a.le (D.max a b) = true ∧ b.le (D.max a b) = true := by
    intro a b ha hb
    unfold D.max
    split
    · rename_i hlt; exact ⟨D.le_of_lt hlt, D.le_refl hb⟩
    · rename_i hlt
      refine ⟨D.le_refl ha, ?_⟩
      rw [D.le_eq_not_lt hb ha]; simpa using hlt
  exact minmaxSeq_best (x := x) selects_ge (R := fun v w => w.le v = true)
    (fun a b => by unfold D.max; split <;> simp) hop (fun a h => D.le_refl h)
    (fun a b c h1 h2 => D.le_trans h2 h1) hw hne hn

/-- **C104.** `compute_min_seq(x)`: the smallest. -/
theorem C104_min_seq (x : Signal K) (hw : WF x) (hne : x.samples ≠ []) (hn : ∀ a ∈ x.samples, a.value ≠ .nan) :
    ∃ z, minSeq x = .ok z ∧ z.samples.map Sample.time = x.samples.map Sample.time ∧
      ∀ k (hk : k < z.samples.length),
        (∃ s ∈ x.samples.drop k, z.samples[k].value = s.value) ∧
        ∀ s ∈ x.samples.drop k, z.samples[k].value.le s.value = true := by
  have hop : ∀ a b : D K, a ≠ .nan → b ≠ .nan → (D.min a b).le a = true ∧ (D.min a b).le b = true := by
    intro a b ha hb
    unfold D.min
    split
    · rename_i hlt; exact ⟨D.le_of_lt hlt, D.le_refl hb⟩
    · rename_i hlt
      refine ⟨D.le_refl ha, ?_⟩
      rw [D.le_eq_not_lt ha hb]; simpa using hlt
  exact minmaxSeq_best (x := x) selects_le (R := fun v w => v.le w = true)
    (fun a b => by unfold D.min; split <;> simp) hop (fun a h => D.le_refl h)
    (fun a b c h1 h2 => D.le_trans h1 h2) hw hne hn

/-- **C104.** Of the empty signal both read `back()` of an empty vector. -/
theorem C104_empty : maxSeq (Signal.empty : Signal K) = .ub .emptyAccess ∧
    minSeq (Signal.empty : Signal K) = .ub .emptyAccess := ⟨rfl, rfl⟩

/-- **C104.** The first and the last element: `front()` and `back()` are the elements with the first and the last index,
their times are `begin_time()` and `end_time()`; they are undefined exactly if the signal is empty, and an index is
rejected exactly if it is not less than `size()`. -/
theorem C104_access (s : Signal K) :
    (s.samples = [] → s.front = .ub .emptyAccess ∧ s.back = .ub .emptyAccess ∧ s.beginTime = 0 ∧ s.endTime = 0) ∧
    (s.samples ≠ [] → ∃ a b, s.front = .ok a ∧ s.back = .ok b ∧ s.atIdx 0 = .ok a ∧ s.atIdx (s.size - 1) = .ok b ∧
      s.beginTime = a.time ∧ s.endTime = b.time) ∧
    ∀ i, (∃ a, s.atIdx i = .ok a ∧ s.samples[i]? = some a ∧ i < s.size) ∨
      (s.atIdx i = .throw .outOfRange ∧ s.size ≤ i) := by
  refine ⟨fun h => ?_, fun h => ?_, fun i => ?_⟩
  · obtain ⟨l⟩ := s
    obtain rfl : l = [] := h
    exact ⟨rfl, rfl, rfl, rfl⟩
  · have h1 := List.head?_eq_some_head h
    have h2 := List.getLast?_eq_some_getLast h
    have h3 : s.samples[0]? = some (s.samples.head h) := by rw [← List.head?_eq_getElem?, h1]
    have h4 : s.samples[s.samples.length - 1]? = some (s.samples.getLast h) := by rw [← List.getLast?_eq_getElem?, h2]
    refine ⟨s.samples.head h, s.samples.getLast h, ?_, ?_, ?_, ?_, ?_, ?_⟩
    · simp only [Signal.front, h1]
    · simp only [Signal.back, h2]
    · simp only [Signal.atIdx, h3]
    · simp only [Signal.atIdx, Signal.size, h4]
    · simp only [Signal.beginTime, h1]
    · simp only [Signal.endTime, h2]
  · by_cases hi : i < s.size
    · left
      have : s.samples[i]? = some (s.samples[i]'hi) := List.getElem?_eq_getElem hi
      exact ⟨s.samples[i]'hi, by simp only [Signal.atIdx, this], this, hi⟩
    · right
      have : s.samples[i]? = none := List.getElem?_eq_none (not_lt.1 hi)
      exact ⟨by simp only [Signal.atIdx, this], not_lt.1 hi⟩

end any

section exact
variable {K : Type} [Field K] [LinearOrder K] [IsStrictOrderedRing K] [Arith K] [ExactArith K]

/-- **C104.** In dense time: the value of `compute_max_seq(x)` at each of its samples is the greatest value of the
function `x` from then on, that of `compute_min_seq(x)` the least. -/
theorem C104_dense (x : Signal K) (xs : List (K × K)) (hx : Represents x xs) (hne : xs ≠ []) :
    ∃ z zs w ws, maxSeq x = .ok z ∧ Represents z zs ∧ minSeq x = .ok w ∧ Represents w ws ∧
      zs.map Prod.fst = xs.map Prod.fst ∧ ws.map Prod.fst = xs.map Prod.fst ∧
      (∀ p ∈ zs, IsGreatest (valuesFrom xs p.1) p.2) ∧ ∀ p ∈ ws, IsLeast (valuesFrom xs p.1) p.2 := by
  obtain ⟨hinc, rfl⟩ := (represents_iff _ _).1 hx
  refine ⟨_, sufPts max xs, _, sufPts min xs, minmaxSeq_ge_pts hinc hne, represents_ofPts (increasing_sufPts.2 hinc),
    minmaxSeq_le_pts hinc hne, represents_ofPts (increasing_sufPts.2 hinc), sufPts_fst _ _, sufPts_fst _ _,
    fun p hp => sufPts_max_isGreatest hinc hp, fun p hp => ?_⟩
  rw [valuesFrom_negPts]
  rw [sufPts_min] at hp
  obtain ⟨q, hq, rfl⟩ := List.mem_map.1 hp
  have := sufPts_max_isGreatest (increasing_negPts.2 hinc) hq
  simpa [valuesFrom] using this

end exact

example : maxSeq (ofPts [((0 : ℚ), (1 : ℚ)), (1, 3), (2, -1), (4, 2)]) = .ok (ofPts [(0, 3), (1, 3), (2, 2), (4, 2)]) := by
  decide +kernel
example : minSeq (ofPts [((0 : ℚ), (1 : ℚ)), (1, 3), (2, -1), (4, 2)]) = .ok (ofPts [(0, -1), (1, -1), (2, -1), (4, 2)]) := by
  decide +kernel

end Verif
