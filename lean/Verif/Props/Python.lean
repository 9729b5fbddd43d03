import Verif.Model.Python
import Verif.Props.Container
import Verif.Model.Exact

/-!
# The Python classes: C83, and the comparison of samples: C84
-/

set_option linter.unusedSectionVars false

namespace Verif
open Spec

section
variable {K : Type} [Field K] [LinearOrder K]

/-! ## C83 -/

/-- What the attribute of the given name should be. -/
def attrOf (s : Sample K) : String → Option (D K)
  | "time" => some s.time
  | "value" => some s.value
  | "derivative" => some s.derivative
  | _ => none

/-- The full statement of **C83** for samples: every attribute is the member of that name. -/
def AttributesRight (s : Sample K) : Prop := ∀ n, Py.sampleAttr s n = attrOf s n

/-- **C83.** The attributes are right for a sample if and only if its derivative is its value; `time` and `value`
are always right, `derivative` is the value. -/
theorem C83_attributes_partial (s : Sample K) :
    (AttributesRight s ↔ s.derivative = s.value) ∧ Py.sampleAttr s "time" = some s.time ∧
      Py.sampleAttr s "value" = some s.value ∧ Py.sampleAttr s "derivative" = some s.value := by
  refine ⟨⟨fun h => ?_, fun h n => ?_⟩, rfl, rfl, rfl⟩
  · have := h "derivative"
    simpa [Py.sampleAttr, attrOf] using this.symm
  · unfold Py.sampleAttr attrOf
    split <;> simp_all

/-- **C83 is false**: in the signal with the values 0, 1 at the times 0, 1 the slope of the first segment is
1, but Python shows 0. -/
theorem C83_refuted : ∃ s : Signal ℚ, Py.signal [0, .fin 1] [0, .fin 1] = .ok s ∧
    ∃ a ∈ Py.iter s, a.derivative = .fin 1 ∧ Py.sampleAttr a "derivative" = some (.fin 0) ∧ ¬ AttributesRight a := by
  refine ⟨⟨[⟨0, 0, .fin 1⟩, ⟨.fin 1, .fin 1, 0⟩]⟩, by decide +kernel, ⟨0, 0, .fin 1⟩, by simp [Py.iter], rfl, rfl, ?_⟩
  rw [(C83_attributes_partial _).1]
  decide

/-- **C83.** Indexing, iteration and `len` agree: `s[i]` is the value of the sample number `i` of `list(s)`; an
index out of range raises IndexError, a negative one TypeError. -/
theorem C83_sequence_partial (s : Signal K) (i : ℤ) :
    Py.len s = (Py.iter s).length ∧
    (∀ n : Nat, i = n → ∀ h : n < (Py.iter s).length, n < 2 ^ 64 → Py.getitem s i = .ok ((Py.iter s)[n]).value) ∧
    ((Py.len s : ℤ) ≤ i → i < 2 ^ 64 → Py.getitem s i = .raise .indexError) ∧
    (i < 0 → Py.getitem s i = .raise .typeError) := by
  refine ⟨rfl, ?_, ?_, ?_⟩
  · rintro n rfl h hn
    unfold Py.getitem
    rw [if_neg (by push Not; exact ⟨by omega, by exact_mod_cast hn⟩)]
    have h' : s.samples[n]? = some (Py.iter s)[n] := List.getElem?_eq_getElem h
    simp [Signal.atIdx, h', Outcome.map', Py.call]
  · intro h1 h2
    unfold Py.getitem
    have h0 : 0 ≤ i := le_trans (by positivity) h1
    rw [if_neg (by push Not; exact ⟨h0, h2⟩)]
    have h' : s.samples[i.toNat]? = none := by
      rw [List.getElem?_eq_none_iff]
      have : (Py.len s : ℤ) ≤ i.toNat := by rw [Int.toNat_of_nonneg h0]; exact h1
      exact_mod_cast this
    simp [Signal.atIdx, h', Outcome.map', Py.call, Py.translate]
  · intro h
    unfold Py.getitem
    rw [if_pos (.inl h)]

/-- **C83.** `Signal(points, times)` gives back the points and times, and `s.at(t)` the point at each of the times;
a sequence that is not accepted raises ValueError. -/
theorem C83_construct_partial [IsStrictOrderedRing K] [Arith K] (points times : List (D K))
    (hn : ∀ t ∈ times, t ≠ .nan) :
    (∃ s, Py.signal points times = .ok s ∧ (Py.iter s).map Sample.time = times ∧
      (Py.iter s).map Sample.value = points ∧
      ∀ (i : Nat) (h : i < (Py.iter s).length), Py.at_ s ((Py.iter s)[i]).time = .ok ((Py.iter s)[i]).value) ∨
    Py.signal points times = .raise .valueError := by
  by_cases h : ∃ s, Signal.ofPoints points times = .ok s
  · obtain ⟨s, hs⟩ := h
    obtain ⟨h1, h2⟩ := C04_ofPoints_samples points times s hs
    refine .inl ⟨s, by unfold Py.signal; rw [hs]; rfl, h1, h2, fun i hi => ?_⟩
    have hnn : ∀ a ∈ s.samples, a.time ≠ .nan := fun a ha =>
      hn _ (by rw [← h1]; exact List.mem_map_of_mem ha)
    have hwf : WF s := by
      unfold Signal.ofPoints at hs
      split at hs
      · cases hs
      · exact wf_ofSamples hs
    have hst : StrictTimes s := ⟨hnn, sortedT_of_ordered _ hwf.1 hnn⟩
    unfold Py.at_
    have := C06_at_sample_time s hst i hi
    have e : (Py.iter s)[i] = s.samples[i] := rfl
    rw [e, this]
    rfl
  · refine .inr ?_
    unfold Py.signal
    rw [C04_ofPoints_throws points times h]
    rfl

/-! ## C84 -/

/-- The four comparisons of two samples are those of their values. -/
def ComparesValues (a b : Sample K) : Prop :=
  a.lt b = a.value.lt b.value ∧ a.gt b = b.value.lt a.value ∧ a.le b = a.value.le b.value ∧
    a.ge b = b.value.le a.value

/-- `<` is a strict weak order on a set of samples, as std::sort, std::min and std::max require. -/
def StrictWeak (p : Sample K → Prop) : Prop :=
  (∀ a, p a → a.lt a = false) ∧
  (∀ a b c, p a → p b → p c → a.lt b = true → b.lt c = true → a.lt c = true) ∧
  (∀ a b c, p a → p b → p c → a.lt b = false → b.lt a = false → b.lt c = false → c.lt b = false →
    a.lt c = false ∧ c.lt a = false)

/-- The full statement of **C84**. -/
def OrderedByValue (K : Type) [Field K] [LinearOrder K] : Prop :=
  (∀ a b : Sample K, ComparesValues a b) ∧ StrictWeak (K := K) fun _ => True

/-- **C84** holds for samples whose values are not NaN. -/
theorem C84_order_partial [IsStrictOrderedRing K] :
    (∀ a b : Sample K, a.value ≠ .nan → b.value ≠ .nan → ComparesValues a b) ∧
      StrictWeak (K := K) fun a => a.value ≠ .nan := by
  refine ⟨fun a b ha hb => ⟨rfl, rfl, ?_, ?_⟩, ?_, ?_, ?_⟩
  · exact (D.le_eq_not_lt ha hb).symm
  · exact (D.le_eq_not_lt hb ha).symm
  · intro a ha
    unfold Sample.lt
    rw [D.lt_eq_not_le ha ha, D.le_refl ha]; rfl
  · intro a b c _ _ _ h1 h2
    exact D.lt_trans h1 h2
  · intro a b c ha hb hc h1 h2 h3 h4
    have e1 : a.value = b.value := by
      rcases D.trichotomy ha hb with h | h | h
      · exact absurd h (by unfold Sample.lt at h1; simp [h1])
      · exact h
      · exact absurd h (by unfold Sample.lt at h2; simp [h2])
    have e2 : b.value = c.value := by
      rcases D.trichotomy hb hc with h | h | h
      · exact absurd h (by unfold Sample.lt at h3; simp [h3])
      · exact h
      · exact absurd h (by unfold Sample.lt at h4; simp [h4])
    unfold Sample.lt at *
    rw [e1, ← e2]
    have : b.value.lt b.value = false := by rw [D.lt_eq_not_le hb hb, D.le_refl hb]; rfl
    exact ⟨this, this⟩

/-- **C84.** A sample with value NaN is neither less nor greater than any other, and both `<=` and `>=` it. -/
theorem C84_nan_partial (a b : Sample K) (h : a.value = .nan ∨ b.value = .nan) :
    a.lt b = false ∧ a.gt b = false ∧ a.le b = true ∧ a.ge b = true := by
  have hl : ∀ x : D K, D.lt .nan x = false := fun x => by cases x <;> rfl
  have hr : ∀ x : D K, D.lt x .nan = false := fun x => by cases x <;> rfl
  have h1 : a.value.lt b.value = false := by rcases h with h | h <;> rw [h] <;> first | exact hl _ | exact hr _
  have h2 : b.value.lt a.value = false := by rcases h with h | h <;> rw [h] <;> first | exact hl _ | exact hr _
  simp [Sample.lt, Sample.gt, Sample.le, Sample.ge, h1, h2]

end

/-- **C84 is false**: NaN is `<=` and `>=` everything, and incomparable with 1 and 2, though 1 < 2. -/
theorem C84_refuted : ¬ OrderedByValue ℚ ∧
    (∃ a b : Sample ℚ, ¬ ComparesValues a b) ∧ ¬ StrictWeak (K := ℚ) fun _ => True := by
  have h1 : ∃ a b : Sample ℚ, ¬ ComparesValues a b := by
    refine ⟨⟨0, .nan, 0⟩, ⟨0, 0, 0⟩, fun h => ?_⟩
    have := h.2.2.1
    revert this
    decide
  have h2 : ¬ StrictWeak (K := ℚ) fun _ => True := by
    intro h
    have := (h.2.2 ⟨0, .fin 1, 0⟩ ⟨0, .nan, 0⟩ ⟨0, .fin 2, 0⟩ trivial trivial trivial (by decide) (by decide) (by decide)
      (by decide)).1
    revert this
    decide
  exact ⟨fun h => h2 h.2, h1, h2⟩

/-! ## Examples -/

-- C83: a signal of two samples, seen from Python.
example : Py.signal [.fin 5, .fin 7] [.fin 1, .fin 2] =
    .ok (⟨[⟨.fin 1, .fin 5, .fin 2⟩, ⟨.fin 2, .fin 7, 0⟩]⟩ : Signal ℚ) := by decide +kernel
example : (Py.getitem (⟨[⟨.fin 1, .fin 5, .fin 2⟩, ⟨.fin 2, .fin 7, 0⟩]⟩ : Signal ℚ) 1) = .ok (.fin 7) := by
  decide +kernel
example : (Py.getitem (⟨[⟨.fin 1, .fin 5, .fin 2⟩, ⟨.fin 2, .fin 7, 0⟩]⟩ : Signal ℚ) 2) = .raise .indexError := by
  decide +kernel
example : Py.signal [.fin 5, .fin 7] [.fin 1, .fin 1] = (.raise .valueError : Py.Result (Signal ℚ)) := by
  decide +kernel

-- C84: two samples.
example : ComparesValues (⟨0, .fin 1, 0⟩ : Sample ℚ) ⟨.fin 3, .pinf, 0⟩ :=
  C84_order_partial.1 _ _ (by decide) (by decide)

end Verif
