import Verif.Proofs.Sync
import Verif.Model.Exact

/-!
# The signal container: C01 - C06, C08 - C10

Times, values and derivatives are arbitrary doubles (infinities and NaN included unless excluded) and
the rounding of the arithmetic is arbitrary.
-/

set_option linter.unusedSectionVars false

namespace Verif
open Spec

variable {K : Type} [Field K] [LinearOrder K] [Arith K]

/-! ## C02: push_back -/

/-- **C02**: `push_back` accepts a sample iff the signal is empty or the time is not `<=` the end
time. -/
theorem C02_pushBack_accepts (s : Signal K) (x : Sample K) :
    (s.pushBackStep x).2 = .ok () ↔ s.samples = [] ∨ x.time.le s.endTime = false := by
  unfold Signal.pushBackStep
  cases h : s.samples.getLast? with
  | none => simp [List.getLast?_eq_none_iff.1 h]
  | some a =>
    have hne : s.samples ≠ [] := by rintro hc; simp [hc] at h
    cases hle : x.time.le s.endTime <;> simp [hne]

/-- **C02**: on acceptance the new sequence of (time, value) pairs is the old one plus the new
pair. -/
theorem C02_pushBack_appends (s : Signal K) (x : Sample K) (h : (s.pushBackStep x).2 = .ok ()) :
    (s.pushBackStep x).1.samples.map tv = s.samples.map tv ++ [(x.time, x.value)] := by
  unfold Signal.pushBackStep at h ⊢
  cases hl : s.samples.getLast? with
  | none => simp [tv]
  | some a =>
    rw [hl] at h
    simp only at h ⊢
    split at h
    · simp at h
    · rename_i hle
      rw [if_neg hle]
      have hs : s.samples = s.samples.dropLast ++ [a] := (List.dropLast_append_getLast? a hl).symm
      conv_rhs => rw [hs]
      simp [tv]

/-- **C02**: otherwise it throws `std::invalid_argument` and the signal is unchanged. -/
theorem C02_pushBack_rejects (s : Signal K) (x : Sample K) (h : (s.pushBackStep x).2 ≠ .ok ()) :
    s.pushBackStep x = (s, .throw .invalidArgument) := by
  unfold Signal.pushBackStep at h ⊢
  cases hl : s.samples.getLast? with
  | none => simp [hl] at h
  | some a =>
    rw [hl] at h
    simp only at h ⊢
    split at h
    · rename_i hle; rw [if_pos hle]
    · simp at h

/-- The two presentations of `push_back` in the model agree. -/
theorem C02_pushBack_agrees (s : Signal K) (x : Sample K) :
    s.pushBack x = (s.pushBackStep x).2 >>= fun _ => .ok (s.pushBackStep x).1 := by
  unfold Signal.pushBackStep Signal.pushBack
  cases hl : s.samples.getLast? with
  | none => simp [List.getLast?_eq_none_iff.1 hl]
  | some a =>
    simp only
    split <;> simp

-- a rejected and an accepted sample
example : ((Signal.history [(.fin 0, .fin 1), (.fin 1, .fin 5)] : Signal ℚ).pushBackStep
    ⟨.fin 1, .fin 7, 0⟩).2 = .throw .invalidArgument := by decide +kernel
example : ((Signal.history [(.fin 0, .fin 1), (.fin 1, .fin 5)] : Signal ℚ).pushBackStep
    ⟨.fin 2, .fin 7, 0⟩).2 = .ok () := by decide +kernel

/-! ## C01, C03: histories of push_back calls -/

theorem history_step (s : Signal K) (x : Sample K) (h : WF s) : WF (s.pushBackStep x).1 ∧
    ((s.pushBackStep x).1.samples.map tv = s.samples.map tv ∨
     (s.pushBackStep x).1.samples.map tv = s.samples.map tv ++ [tv x]) := by
  by_cases hok : (s.pushBackStep x).2 = .ok ()
  · have e := C02_pushBack_agrees s x
    rw [hok, Outcome.bind_ok] at e
    exact ⟨(wf_pushBack h e).1, .inr (wf_pushBack h e).2⟩
  · rw [C02_pushBack_rejects s x hok]; exact ⟨h, .inl rfl⟩

theorem history_wf_aux (ops : List (D K × D K)) : ∀ s : Signal K, WF s →
    (∀ a ∈ s.samples, a.time ≠ .nan) → (∀ p ∈ ops, p.1 ≠ .nan) →
    WF (ops.foldl (fun s p => (s.pushBackStep ⟨p.1, p.2, 0⟩).1) s) ∧
    ∀ a ∈ (ops.foldl (fun s p => (s.pushBackStep ⟨p.1, p.2, 0⟩).1) s).samples, a.time ≠ .nan := by
  induction ops with
  | nil => intro s h hn _; exact ⟨h, hn⟩
  | cons p ops ih =>
    intro s h hn hp
    obtain ⟨h1, h2⟩ := history_step s ⟨p.1, p.2, 0⟩ h
    refine ih _ h1 ?_ (fun q hq => hp q (List.mem_cons_of_mem _ hq))
    intro a ha
    have : tv a ∈ (s.pushBackStep ⟨p.1, p.2, 0⟩).1.samples.map tv := List.mem_map_of_mem ha
    rcases h2 with h2 | h2 <;> rw [h2] at this
    · obtain ⟨b, hb, e⟩ := List.mem_map.1 this
      rw [← show b.time = a.time from congrArg Prod.fst e]; exact hn b hb
    · rcases List.mem_append.1 this with h3 | h3
      · obtain ⟨b, hb, e⟩ := List.mem_map.1 h3
        rw [← show b.time = a.time from congrArg Prod.fst e]; exact hn b hb
      · simp only [List.mem_singleton] at h3
        have := hp p (by simp)
        rw [show a.time = p.1 from congrArg Prod.fst h3]; exact this

/-- **C01**: after any history of `push_back` calls, accepted or rejected, the timestamps are strictly
increasing (if no NaN timestamp was handed in). -/
theorem C01_times_increasing (ops : List (D K × D K)) (h : ∀ p ∈ ops, p.1 ≠ .nan) :
    ((Signal.history ops).samples.map Sample.time).Pairwise (fun a b => a.lt b = true) := by
  obtain ⟨h1, h2⟩ := history_wf_aux ops Signal.empty ⟨trivial, trivial⟩ (by simp [Signal.empty]) h
  exact sortedT_of_ordered _ h1.1 h2

/-- **C03**: after any history the derivatives are the slopes, the last one is 0. -/
theorem C03_derivatives_are_slopes (ops : List (D K × D K)) :
    Slopes (Signal.history ops).samples := by
  suffices ∀ s : Signal K, WF s →
      WF (ops.foldl (fun s p => (s.pushBackStep ⟨p.1, p.2, 0⟩).1) s) from
    (this Signal.empty ⟨trivial, trivial⟩).2
  induction ops with
  | nil => intro s h; exact h
  | cons p ops ih => intro s h; exact ih _ (history_step s ⟨p.1, p.2, 0⟩ h).1

/-- **C03**, for the constructors. -/
theorem C03_derivatives_ofSamples (xs : List (Sample K)) (s : Signal K)
    (h : Signal.ofSamples xs = .ok s) : Slopes s.samples := (wf_ofSamples h).2

/-- **C03**, for the constructors. -/
theorem C03_derivatives_ofPoints (points times : List (D K)) (s : Signal K)
    (h : Signal.ofPoints points times = .ok s) : Slopes s.samples := by
  unfold Signal.ofPoints at h
  split at h
  · simp at h
  · exact (wf_ofSamples h).2

-- a history with a rejected call, and the stored samples with their slopes
example : (Signal.history [(.fin 0, .fin 1), (.fin 2, .fin 5), (.fin 1, .fin 9), (.fin 3, .fin 4)]
    : Signal ℚ) = ⟨[⟨.fin 0, .fin 1, .fin 2⟩, ⟨.fin 2, .fin 5, .fin (-1)⟩, ⟨.fin 3, .fin 4, .fin 0⟩]⟩ := by
  decide +kernel

/-! ## C04: construction from points and times -/

theorem incr_iff_getElem (l : List (D K × D K)) :
    Incr l ↔ ∀ (i : Nat) (h : i + 1 < l.length), (l[i + 1]).1.le (l[i]).1 = false := by
  induction l with
  | nil => simp [Incr]
  | cons p l ih =>
    cases l with
    | nil => simp [Incr]
    | cons q r =>
      rw [incr_cons₂, ih]
      constructor
      · rintro ⟨h1, h2⟩ i hi
        cases i with
        | zero => simpa using h1
        | succ i => exact h2 i (by simpa using hi)
      · intro h
        exact ⟨by simpa using h 0 (by simp), fun i hi => h (i + 1) (by simpa using hi)⟩

theorem ofPoints_eq (points times : List (D K)) :
    Signal.ofPoints points times =
      if points.length = times.length ∧ Incr (times.zip points)
      then .ok ⟨build (times.zip points)⟩ else .throw .invalidArgument := by
  unfold Signal.ofPoints
  by_cases hl : points.length = times.length
  · have : (List.map (fun p : D K × D K => (⟨p.1, p.2, 0⟩ : Sample K)) (times.zip points)).map tv =
        times.zip points := by
      rw [List.map_map]; exact List.map_id'' (fun p => rfl) _
    rw [if_neg (not_not.2 hl), ofSamples_eq, this]
    simp [hl]
  · rw [if_pos hl, if_neg (fun h => hl h.1)]

/-- **C04**: the constructor from two vectors succeeds exactly if they have the same length and no time
is `<=` its predecessor. -/
theorem C04_ofPoints_ok_iff (points times : List (D K)) :
    (∃ s, Signal.ofPoints points times = .ok s) ↔
      points.length = times.length ∧
      ∀ (i : Nat) (h : i + 1 < times.length), (times[i + 1]).le (times[i]) = false := by
  rw [ofPoints_eq]
  constructor
  · rintro ⟨s, h⟩
    split at h
    · rename_i hc
      refine ⟨hc.1, fun i hi => ?_⟩
      have := (incr_iff_getElem _).1 hc.2 i (by simp [hc.1]; exact hi)
      simpa using this
    · simp at h
  · rintro ⟨hl, h⟩
    refine ⟨_, if_pos ⟨hl, (incr_iff_getElem _).2 fun i hi => ?_⟩⟩
    simp only [List.getElem_zip]
    exact h i (by simp at hi; omega)

/-- **C04**: on success the samples are exactly the given pairs, in order. -/
theorem C04_ofPoints_samples (points times : List (D K)) (s : Signal K)
    (h : Signal.ofPoints points times = .ok s) :
    s.samples.map Sample.time = times ∧ s.samples.map Sample.value = points := by
  rw [ofPoints_eq] at h
  split at h
  · rename_i hc
    simp only [Outcome.ok.injEq] at h; subst h
    have e : (build (times.zip points)).map tv = times.zip points := build_map_tv _
    constructor
    · rw [show Sample.time = Prod.fst ∘ (tv : Sample K → _) from rfl, ← List.map_map, e]
      exact List.map_fst_zip (by omega)
    · rw [show Sample.value = Prod.snd ∘ (tv : Sample K → _) from rfl, ← List.map_map, e]
      exact List.map_snd_zip (by omega)
  · simp at h

/-- **C04**: otherwise it throws `std::invalid_argument`. -/
theorem C04_ofPoints_throws (points times : List (D K))
    (h : ¬ ∃ s, Signal.ofPoints points times = .ok s) :
    Signal.ofPoints points times = .throw .invalidArgument := by
  rw [ofPoints_eq] at h ⊢
  split
  · rename_i hc; exact absurd ⟨_, if_pos hc⟩ h
  · rfl

example : ∃ s, Signal.ofPoints [.fin 3, .pinf, .nan] [.fin 0, .fin 1, (.fin 5 : D ℚ)] = .ok s := by
  exact ⟨_, rfl⟩
example : Signal.ofPoints [.fin 3, .fin 4] [.fin 1, (.fin 1 : D ℚ)] = .throw .invalidArgument := by
  decide +kernel

/-! ## C05: copies -/

/-- **C05**: copying a signal that was constructed by any constructor yields the same samples, with the
same derivatives. -/
theorem C05_copy (xs : List (Sample K)) (s : Signal K) (h : Signal.ofSamples xs = .ok s) :
    s.copy = .ok s ∧ Signal.ofSamples s.samples = .ok s :=
  ⟨ofSamples_wf (wf_ofSamples h), ofSamples_wf (wf_ofSamples h)⟩

/-- **C05**: and so for signals built by `push_back` calls, some of them rejected. -/
theorem C05_copy_history (ops : List (D K × D K)) :
    (Signal.history ops).copy = .ok (Signal.history ops) := by
  refine ofSamples_wf ?_
  suffices ∀ s : Signal K, WF s →
      WF (ops.foldl (fun s p => (s.pushBackStep ⟨p.1, p.2, 0⟩).1) s) from
    this Signal.empty ⟨trivial, trivial⟩
  induction ops with
  | nil => intro s h; exact h
  | cons p ops ih => intro s h; exact ih _ (history_step s ⟨p.1, p.2, 0⟩ h).1

example : (Signal.ofSamples [⟨.fin 0, .fin 1, .fin 99⟩, ⟨.fin 2, .pinf, .nan⟩] : Outcome (Signal ℚ)) =
    .ok ⟨[⟨.fin 0, .fin 1, .pinf⟩, ⟨.fin 2, .pinf, .fin 0⟩]⟩ := by decide +kernel

/-! ## C06: at(t) at a sample time -/

/-- A signal with strictly increasing timestamps (none of them NaN). -/
def StrictTimes (s : Signal K) : Prop :=
  (∀ a ∈ s.samples, a.time ≠ .nan) ∧
  (s.samples.map Sample.time).Pairwise (fun a b => a.lt b = true)

theorem StrictTimes.sorted {s : Signal K} (h : StrictTimes s) : SortedT s.samples :=
  h.2

theorem at_guard (s : Signal K) (hs : StrictTimes s) (t : D K) :
    (t.lt s.beginTime && s.endTime.lt t) = false := by
  rw [Bool.and_eq_false_iff]
  by_contra hc
  rw [not_or, Bool.not_eq_false, Bool.not_eq_false] at hc
  have h1 := D.lt_trans hc.2 hc.1
  have hso := hs.sorted
  rcases s with ⟨l⟩
  simp only [Signal.beginTime, Signal.endTime] at h1
  cases l with
  | nil => simp [D.lt_irrefl] at h1
  | cons a l =>
    rcases List.eq_nil_or_concat l with rfl | ⟨l', b, rfl⟩
    · simp [D.lt_irrefl] at h1
    · have hl : (a :: l'.concat b).getLast? = some b := by simp [List.getLast?_cons]
      rw [hl] at h1
      simp only [List.head?_cons] at h1
      have := (sortedT_cons.1 hso).1 b (by simp)
      rw [D.lt_asymm this] at h1; simp at h1

theorem at_split (s : Signal K) (hs : StrictTimes s) (t : D K) (l₁ l₂ : List (Sample K))
    (e : s.samples = l₁ ++ l₂) (h1 : ∀ a ∈ l₁, a.time.lt t = true)
    (h2 : ∀ a ∈ l₂, a.time.lt t = false) :
    s.at_ t = match (generalizing := false) l₂ with
      | [] => .ub .derefEnd
      | it :: _ => if it.time.eq t then .ok it else .ok ⟨t, it.interpolate t, it.derivative⟩ := by
  have e1 : lowerBound (fun a : Sample K => a.time.lt t) s.samples = .ok l₁.length := by
    rw [e]; exact lowerBound_time l₁ l₂ t h1 h2
  have e2 : s.samples[l₁.length]? = l₂.head? := by
    rw [e, List.getElem?_append_right (Nat.le_refl _)]; cases l₂ <;> simp
  unfold Signal.at_
  rw [at_guard s hs t]
  simp only [Bool.false_eq_true, if_false]
  rw [e1, Outcome.bind_ok, e2]
  cases l₂ with
  | nil => rfl
  | cons it r => simp only [List.head?_cons, Outcome.pure_eq_ok]

/-- **C06**: `at(t)` for a timestamp `t` of the signal is the stored sample. -/
theorem C06_at_sample_time (s : Signal K) (hs : StrictTimes s) (i : Nat) (hi : i < s.samples.length) :
    s.at_ (s.samples[i]).time = .ok s.samples[i] := by
  have e : s.samples = s.samples.take i ++ s.samples[i] :: s.samples.drop (i + 1) := by
    rw [← List.drop_eq_getElem_cons hi, List.take_append_drop]
  have hso := hs.sorted
  have hn : (s.samples[i]).time ≠ .nan := hs.1 _ (List.getElem_mem hi)
  rw [e] at hso
  obtain ⟨-, h2, h3⟩ := sortedT_append.1 hso
  rw [at_split s hs _ _ _ e (fun a ha => h3 a ha _ (List.mem_cons_self ..))]
  · have : D.eq (s.samples[i]).time (s.samples[i]).time = true := D.eq_iff.2 ⟨rfl, hn⟩
    simp [this]
  · intro a ha
    rcases List.mem_cons.1 ha with rfl | ha
    · exact D.lt_irrefl _
    · exact D.lt_asymm ((sortedT_cons.1 h2).1 a ha)

example : StrictTimes (⟨[⟨.fin 0, .fin 1, .fin 2⟩, ⟨.fin 2, .fin 5, .fin 0⟩]⟩ : Signal ℚ) := by
  constructor
  · decide +kernel
  · decide +kernel

/-! ## C08: at(t) outside of the domain

The guard at signal.cc:15 tests `begin_time() > t && end_time() < t`, which is never true. -/

/-- Full statement of **C08**. -/
def C08_statement (K : Type) [Field K] [LinearOrder K] [Arith K] : Prop :=
  ∀ (s : Signal K) (t : D K), StrictTimes s → s.samples ≠ [] →
    (t.lt s.beginTime = true ∨ s.endTime.lt t = true) → s.at_ t = .throw .invalidArgument

/-- **C08** is false: `at(2)` of a signal on [0, 1] dereferences `end()`. -/
theorem C08_refuted : ¬ C08_statement ℚ := by
  intro h
  have := h ⟨[⟨.fin 0, .fin 1, .fin 2⟩, ⟨.fin 1, .fin 3, .fin 0⟩]⟩ (.fin 2)
    ⟨by decide +kernel, by decide +kernel⟩ (by decide) (by decide +kernel)
  revert this; decide +kernel

/-- What holds instead of **C08**, for all signals: `at(t)` never throws; after the end it has undefined
behaviour, before the begin it extrapolates from the first sample. -/
theorem C08_at_outside_partial (s : Signal K) (hs : StrictTimes s) (t : D K) :
    (∀ e, s.at_ t ≠ .throw e) ∧
    (s.samples ≠ [] → s.endTime.lt t = true → s.at_ t = .ub .derefEnd) ∧
    (∀ a l, s.samples = a :: l → t.lt a.time = true →
      s.at_ t = .ok ⟨t, a.interpolate t, a.derivative⟩) := by
  refine ⟨?_, ?_, ?_⟩
  · intro e
    unfold Signal.at_
    rw [at_guard s hs t]
    simp only [Bool.false_eq_true, if_false]
    unfold lowerBound
    split
    · rw [Outcome.bind_ok]
      split
      · simp
      · split <;> simp
    · simp
  · intro hne hlt
    have hall : ∀ a ∈ s.samples, a.time.lt t = true := by
      intro a ha
      have hso := hs.sorted
      rcases List.eq_nil_or_concat s.samples with h | ⟨l, b, h⟩
      · exact absurd h hne
      · have he : s.endTime = b.time := by simp [Signal.endTime, h]
        rw [he] at hlt
        rw [h, List.concat_eq_append] at ha hso
        rcases List.mem_append.1 ha with ha | ha
        · exact D.lt_trans ((sortedT_append.1 hso).2.2 a ha b (by simp)) hlt
        · simp at ha; subst ha; exact hlt
    rw [at_split s hs t s.samples [] (by simp) hall (by simp)]
  · intro a l e hlt
    have hso := hs.sorted
    rw [e] at hso
    rw [at_split s hs t [] (a :: l) (by simpa using e) (by simp)]
    · have : a.time.eq t = false := by
        by_contra hc
        rw [Bool.not_eq_false, D.eq_iff] at hc
        rw [hc.1, D.lt_irrefl] at hlt; simp at hlt
      simp [this]
    · intro b hb
      rcases List.mem_cons.1 hb with rfl | hb
      · exact D.lt_asymm hlt
      · exact D.lt_asymm (D.lt_trans hlt ((sortedT_cons.1 hso).1 b hb))

/-! ## C09: begin_at -/

/-- **C09**: `begin_at(t)` splits the samples into those before `t` and those at or after `t`. -/
theorem C09_beginAt (s : Signal K) (hs : StrictTimes s) (t : D K) (ht : t ≠ .nan) :
    ∃ i, s.beginAt t = .ok i ∧ i ≤ s.samples.length ∧
      (∀ a ∈ s.samples.take i, a.time.lt t = true) ∧
      (∀ a ∈ s.samples.drop i, t.le a.time = true) := by
  obtain ⟨l₁, l₂, e, h1, h2⟩ := split_at s.samples hs.sorted t ht hs.1
  have hge : ∀ a ∈ l₂, t.le a.time = true := by
    intro a ha
    rw [D.le_eq_not_lt ht (hs.1 a (by rw [e]; simp [ha])), h2 a ha]; rfl
  unfold Signal.beginAt
  split
  · rename_i hb
    refine ⟨0, rfl, Nat.zero_le _, by simp, ?_⟩
    cases hl : s.samples with
    | nil => simp
    | cons a l =>
      have hba : s.beginTime = a.time := by simp [Signal.beginTime, hl]
      have hso := hs.sorted
      rw [hl] at hso
      intro b hb'
      rw [hba] at hb
      rcases List.mem_cons.1 hb' with rfl | hb'
      · exact hb
      · exact D.le_trans hb (D.le_of_lt ((sortedT_cons.1 hso).1 b hb'))
  · refine ⟨l₁.length, ?_, by rw [e]; simp, ?_, ?_⟩
    · rw [e]; exact lowerBound_time l₁ l₂ t h1 h2
    · rw [e, List.take_left]; exact h1
    · rw [e, List.drop_left]; exact hge

/-! ## C10: end_at

The loop at signal.hpp:152-154 starts at `end()` and reads `it->time`. -/

/-- Full statement of **C10**. -/
def C10_statement (K : Type) [Field K] [LinearOrder K] [Arith K] : Prop :=
  ∀ (s : Signal K) (t : D K), StrictTimes s → t ≠ .nan →
    ∃ i, s.endAt t = .ok i ∧ i ≤ s.samples.length ∧
      (∀ a ∈ s.samples.take i, a.time.le t = true) ∧
      (∀ a ∈ s.samples.drop i, t.lt a.time = true)

/-- **C10** is false: `end_at(0)` of a signal on [0, 1] has undefined behaviour. -/
theorem C10_refuted : ¬ C10_statement ℚ := by
  intro h
  obtain ⟨i, hi, -⟩ := h ⟨[⟨.fin 0, .fin 1, .fin 2⟩, ⟨.fin 1, .fin 3, .fin 0⟩]⟩ (.fin 0)
    ⟨by decide +kernel, by decide +kernel⟩ (by simp)
  have : (⟨[⟨.fin 0, .fin 1, .fin 2⟩, ⟨.fin 1, .fin 3, .fin 0⟩]⟩ : Signal ℚ).endAt (.fin 0) =
    .ub .derefEnd := by decide +kernel
  rw [this] at hi; simp at hi

/-- What holds of **C10**: it is right for `t >= end_time()`; for all `t < end_time()` the behaviour is
undefined. -/
theorem C10_endAt_partial (s : Signal K) (hs : StrictTimes s) (t : D K) (ht : t ≠ .nan)
    (hne : s.samples ≠ []) :
    (s.endTime.le t = true → s.endAt t = .ok s.samples.length ∧
      ∀ a ∈ s.samples, a.time.le t = true) ∧
    (t.lt s.endTime = true → s.endAt t = .ub .derefEnd) := by
  rcases List.eq_nil_or_concat s.samples with h | ⟨l, b, h⟩
  · exact absurd h hne
  rw [List.concat_eq_append] at h
  have hend : s.endTime = b.time := by simp [Signal.endTime, h]
  have hso := hs.sorted
  have hnb : b.time ≠ .nan := hs.1 b (by rw [h]; simp)
  constructor
  · intro hle
    refine ⟨by simp [Signal.endAt, hle, Signal.size], ?_⟩
    intro a ha
    rw [hend] at hle
    rw [h] at ha hso
    rcases List.mem_append.1 ha with ha | ha
    · exact D.le_trans (D.le_of_lt ((sortedT_append.1 hso).2.2 a ha b (by simp))) hle
    · simp at ha; subst ha; exact hle
  · intro hlt
    have : s.endTime.le t = false := by
      rw [D.le_eq_not_lt (by rw [hend]; exact hnb) ht, hlt]; rfl
    simp [Signal.endAt, this]

end Verif
