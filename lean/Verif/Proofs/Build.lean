import Verif.Proofs.Num
import Verif.Spec.Pwl

/-! # Closed form of a sequence of `push_back`s -/

set_option linter.unusedSectionVars false

namespace Verif
open Spec

variable {K : Type} [Field K] [LinearOrder K]

/-- Samples through the given points, with the slopes as derivatives. -/
def build [Arith K] : List (D K × D K) → List (Sample K)
  | [] => []
  | [p] => [⟨p.1, p.2, 0⟩]
  | p :: q :: rest => ⟨p.1, p.2, (q.2 - p.2) / (q.1 - p.1)⟩ :: build (q :: rest)

/-- No time is `<=` its predecessor. -/
def Incr : List (D K × D K) → Prop
  | [] => True
  | [_] => True
  | p :: q :: rest => q.1.le p.1 = false ∧ Incr (q :: rest)

instance decIncr : (l : List (D K × D K)) → Decidable (Incr l)
  | [] => isTrue trivial
  | [_] => isTrue trivial
  | p :: q :: rest =>
    have := decIncr (q :: rest)
    (inferInstance : Decidable (q.1.le p.1 = false ∧ Incr (q :: rest)))

@[simp] theorem incr_nil : Incr ([] : List (D K × D K)) := trivial
@[simp] theorem incr_single (p : D K × D K) : Incr [p] := trivial
@[simp] theorem incr_cons₂ (p q : D K × D K) (r) :
    Incr (p :: q :: r) ↔ q.1.le p.1 = false ∧ Incr (q :: r) := Iff.rfl

theorem incr_tail {p : D K × D K} {l} (h : Incr (p :: l)) : Incr l := by
  cases l with
  | nil => trivial
  | cons q r => exact h.2

section
variable [Arith K]

@[simp] theorem build_nil : build ([] : List (D K × D K)) = [] := rfl
@[simp] theorem build_single (p : D K × D K) : build [p] = [⟨p.1, p.2, 0⟩] := rfl
@[simp] theorem build_cons₂ (p q : D K × D K) (r) : build (p :: q :: r) =
    ⟨p.1, p.2, (q.2 - p.2) / (q.1 - p.1)⟩ :: build (q :: r) := rfl

@[simp] theorem build_map_tv : (l : List (D K × D K)) → (build l).map tv = l
  | [] => rfl
  | [p] => rfl
  | p :: q :: r => by simp [build_map_tv (q :: r), tv]

@[simp] theorem build_length (l : List (D K × D K)) : (build l).length = l.length := by
  rw [← List.length_map (as := build l) (f := tv), build_map_tv]

@[simp] theorem build_eq_nil {l : List (D K × D K)} : build l = [] ↔ l = [] := by
  constructor
  · intro h; have := build_length l; rw [h] at this; simpa using this.symm
  · rintro rfl; rfl

theorem build_inj {l l' : List (D K × D K)} (h : build l = build l') : l = l' := by
  rw [← build_map_tv l, h, build_map_tv]

theorem build_cons (p : D K × D K) (l) : ∃ d, build (p :: l) = ⟨p.1, p.2, d⟩ :: build l := by
  cases l with
  | nil => exact ⟨0, rfl⟩
  | cons q r => exact ⟨_, rfl⟩

theorem build_head? (l : List (D K × D K)) : (build l).head?.map tv = l.head? := by
  cases l with
  | nil => rfl
  | cons p l => obtain ⟨d, h⟩ := build_cons p l; simp [h, tv]

theorem build_append_singleton (l : List (D K × D K)) (p : D K × D K) :
    (build (l ++ [p])).getLast? = some ⟨p.1, p.2, 0⟩ := by
  induction l with
  | nil => rfl
  | cons q l ih =>
    cases l with
    | nil => simp
    | cons r l => rw [List.cons_append, List.cons_append, build_cons₂, ← List.cons_append]
                  rw [List.getLast?_cons, ih]; rfl

theorem build_getLast? (l : List (D K × D K)) :
    (build l).getLast? = l.getLast?.map (fun p => ⟨p.1, p.2, 0⟩) := by
  rcases List.eq_nil_or_concat l with rfl | ⟨l, p, rfl⟩
  · rfl
  · simp [build_append_singleton]

/-- Appending a point only changes the derivative of the last sample. -/
theorem build_append₂ (l : List (D K × D K)) (p q : D K × D K) :
    build (l ++ [p, q]) =
      (build (l ++ [p])).dropLast ++ [⟨p.1, p.2, (q.2 - p.2) / (q.1 - p.1)⟩, ⟨q.1, q.2, 0⟩] := by
  induction l with
  | nil => simp
  | cons r l ih =>
    cases l with
    | nil => simp
    | cons s l =>
      simp only [List.cons_append] at *
      rw [build_cons₂, ih, build_cons₂ r s, List.dropLast_cons_of_ne_nil]
      · simp
      · obtain ⟨d, h⟩ := build_cons s (l ++ [p]); simp [h]

theorem incr_append_singleton (l : List (D K × D K)) (p : D K × D K) :
    Incr (l ++ [p]) ↔ Incr l ∧ ∀ q, l.getLast? = some q → p.1.le q.1 = false := by
  induction l with
  | nil => simp
  | cons r l ih =>
    cases l with
    | nil => simp
    | cons s l =>
      rw [List.cons_append, List.cons_append, incr_cons₂, ← List.cons_append, ih, incr_cons₂]
      simp [List.getLast?_cons, and_assoc]

/-- `push_back` on a signal with points `l`. -/
theorem pushBack_build (l : List (D K × D K)) (x : Sample K) :
    Signal.pushBack ⟨build l⟩ x =
      if (∀ q, l.getLast? = some q → x.time.le q.1 = false)
      then .ok ⟨build (l ++ [tv x])⟩ else .throw .invalidArgument := by
  rcases List.eq_nil_or_concat l with rfl | ⟨l, p, rfl⟩
  · simp [Signal.pushBack, tv]
  · rw [Signal.pushBack]
    simp only [build_getLast?, Signal.endTime]
    simp only [List.concat_eq_append, List.getLast?_append_of_ne_nil, ne_eq, List.cons_ne_nil,
      not_false_eq_true, List.getLast?_singleton, Option.map_some, Option.some.injEq,
      forall_eq', List.append_assoc, List.cons_append, List.nil_append, build_append₂, tv]
    cases x.time.le p.1 <;> simp

theorem incr_append {l l' : List (D K × D K)} : Incr (l ++ l') →  Incr l := by
  induction l with
  | nil => simp
  | cons a l ih =>
    intro h
    cases l with
    | nil => trivial
    | cons b l => exact ⟨h.1, ih h.2⟩

theorem pushAll_build (xs : List (Sample K)) : ∀ l : List (D K × D K), Incr l →
    Signal.pushAll ⟨build l⟩ xs =
      if Incr (l ++ xs.map tv) then .ok ⟨build (l ++ xs.map tv)⟩ else .throw .invalidArgument := by
  induction xs with
  | nil => intro l h; simp [Signal.pushAll, h]
  | cons x xs ih =>
    intro l h
    rw [Signal.pushAll, pushBack_build]
    by_cases hx : ∀ q, l.getLast? = some q → x.time.le q.1 = false
    · rw [if_pos hx, Outcome.bind_ok, ih _ ((incr_append_singleton l (tv x)).2 ⟨h, hx⟩)]
      simp
    · rw [if_neg hx, if_neg]; · rfl
      intro hc
      have : Incr (l ++ [tv x]) := by
        apply incr_append (l' := xs.map tv); simpa using hc
      exact hx ((incr_append_singleton l (tv x)).1 this).2

/-- Closed form of the constructor from a sequence of samples. -/
theorem ofSamples_eq (xs : List (Sample K)) :
    Signal.ofSamples xs =
      if Incr (xs.map tv) then .ok ⟨build (xs.map tv)⟩ else .throw .invalidArgument := by
  have := pushAll_build xs [] incr_nil
  simpa [Signal.ofSamples, Signal.empty] using this

theorem ofSamples_ok_iff (xs : List (Sample K)) (s : Signal K) :
    Signal.ofSamples xs = .ok s ↔ Incr (xs.map tv) ∧ s = ⟨build (xs.map tv)⟩ := by
  rw [ofSamples_eq]; split <;> simp_all [eq_comm]

/-! ## Relation to `Spec.WF` -/

theorem ordered_iff : (l : List (Sample K)) → (Ordered l ↔ Incr (l.map tv))
  | [] => Iff.rfl
  | [_] => Iff.rfl
  | a :: b :: l => by
    have := ordered_iff (b :: l)
    simp only [Ordered, List.map_cons, incr_cons₂, tv] at *
    rw [this]

theorem slopes_iff : (l : List (Sample K)) → (Slopes l ↔ l = build (l.map tv))
  | [] => by simp [Slopes]
  | [a] => by
    obtain ⟨t, v, d⟩ := a
    simp [Slopes, tv]
  | ⟨t, v, d⟩ :: b :: l => by
    have := slopes_iff (b :: l)
    simp only [Slopes, List.map_cons, build_cons₂, tv, List.cons.injEq, Sample.mk.injEq,
      true_and] at *
    rw [this]

theorem wf_iff (s : Signal K) : WF s ↔ ∃ l, Incr l ∧ s = ⟨build l⟩ := by
  constructor
  · rintro ⟨h1, h2⟩
    refine ⟨s.samples.map tv, (ordered_iff _).1 h1, ?_⟩
    cases s; congr; exact (slopes_iff _).1 h2
  · rintro ⟨l, h, rfl⟩
    refine ⟨(ordered_iff _).2 (by simpa using h), (slopes_iff _).2 (by simp)⟩

theorem wf_ofSamples {xs : List (Sample K)} {s : Signal K} (h : Signal.ofSamples xs = .ok s) :
    WF s := (wf_iff s).2 ⟨_, (ofSamples_ok_iff _ _).1 h⟩

theorem wf_build {l : List (D K × D K)} (h : Incr l) : WF (⟨build l⟩ : Signal K) :=
  (wf_iff _).2 ⟨l, h, rfl⟩

theorem ofSamples_wf {s : Signal K} (h : WF s) : Signal.ofSamples s.samples = .ok s := by
  obtain ⟨l, h1, rfl⟩ := (wf_iff s).1 h
  simp [ofSamples_eq, h1]

theorem wf_ext {s s' : Signal K} (h : WF s) (h' : WF s')
    (e : s.samples.map tv = s'.samples.map tv) : s = s' := by
  obtain ⟨l, h1, rfl⟩ := (wf_iff s).1 h
  obtain ⟨l', h1', rfl⟩ := (wf_iff s').1 h'
  simp at e; rw [e]

theorem wf_pushBack {s s' : Signal K} {x : Sample K} (h : WF s) (e : s.pushBack x = .ok s') :
    WF s' ∧ s'.samples.map tv = s.samples.map tv ++ [tv x] := by
  obtain ⟨l, h1, rfl⟩ := (wf_iff s).1 h
  rw [pushBack_build] at e
  split at e
  · cases e
    refine ⟨(wf_iff _).2 ⟨_, ?_, rfl⟩, by simp⟩
    rw [incr_append_singleton]; exact ⟨h1, by assumption⟩
  · cases e

/-! ## Finite points -/

/-- The signal through finite points. -/
def ofPts (pts : List (K × K)) : Signal K := ⟨build (pts.map lift)⟩

theorem incr_lift : (pts : List (K × K)) → (Incr (pts.map lift) ↔ Increasing pts)
  | [] => by simp [Increasing]
  | [p] => by simp [Increasing]
  | p :: q :: r => by
    have := incr_lift (q :: r)
    simp only [List.map_cons, incr_cons₂, lift, D.le_fin, decide_eq_false_iff_not, not_le] at *
    rw [this]
    simp only [Increasing, List.map_cons, List.pairwise_cons, List.mem_cons, forall_eq_or_imp]
    constructor
    · rintro ⟨h1, h2, h3⟩; exact ⟨⟨h1, fun a ha => h1.trans (h2 a ha)⟩, h2, h3⟩
    · rintro ⟨⟨h1, _⟩, h2, h3⟩; exact ⟨h1, h2, h3⟩

theorem represents_iff (s : Signal K) (pts : List (K × K)) :
    Represents s pts ↔ Increasing pts ∧ s = ofPts pts := by
  constructor
  · rintro ⟨h, e⟩
    obtain ⟨l, h1, rfl⟩ := (wf_iff s).1 h
    simp only [build_map_tv] at e; subst e
    exact ⟨(incr_lift _).1 h1, rfl⟩
  · rintro ⟨h, rfl⟩
    exact ⟨wf_build ((incr_lift _).2 h), by simp [ofPts]⟩

end
end Verif
