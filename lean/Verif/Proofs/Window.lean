import Verif.Model.MinMax
import Verif.Proofs.Records
import Verif.Proofs.WF

/-!
# The windowed running extremum with `a = 0` ends in undefined behaviour
-/

set_option linter.unusedSectionVars false

namespace Verif
open Spec

variable {K : Type} [Field K] [LinearOrder K] [IsStrictOrderedRing K] [Arith K] [ExactArith K]

theorem popExpired_ok (bound : D K) : ∀ (w w' : List (Sample K)), popExpired bound w = .ok w' →
    ∃ f l, w' = f :: l ∧ f.time.le bound = false ∧ w'.Sublist w
  | [], w', h => by simp [popExpired] at h
  | f :: w, w', h => by
    rw [popExpired] at h
    split at h
    · obtain ⟨g, l, h1, h2, h3⟩ := popExpired_ok bound w w' h
      exact ⟨g, l, h1, h2, h3.cons f⟩
    · next hf => cases h; exact ⟨f, w, rfl, by simpa using hf, .refl _⟩

theorem popExpired_cases (bound : D K) : ∀ (w : List (Sample K)),
    (∃ w', popExpired bound w = .ok w') ∨ ∃ u, popExpired bound w = .ub u
  | [] => .inr ⟨_, rfl⟩
  | f :: w => by
    rw [popExpired]
    split
    · exact popExpired_cases bound w
    · exact .inl ⟨_, rfl⟩

/-- The while loop drops exactly the expired samples from the front. -/
theorem popExpired_dropWhile (bound : D K) : ∀ (w : List (Sample K)),
    w.dropWhile (fun s => s.time.le bound) ≠ [] →
      popExpired bound w = .ok (w.dropWhile (fun s => s.time.le bound))
  | [], h => by simp at h
  | f :: w, h => by
    rw [popExpired]
    rw [List.dropWhile_cons] at h ⊢
    split
    · next hf => rw [if_pos hf] at h; exact popExpired_dropWhile bound w h
    · rfl

theorem windowLoop_ub (comp : Cmp K) (i : Sample K) (ti : K) (hi : i.time = .fin ti) (rest : List (Sample K)) :
    ∀ (fuel : Nat) (prev : Sample K) (f : Sample K) (w : List (Sample K)) (z : Signal K) (tf : K),
      f.time = .fin tf → (∀ e ∈ f :: w, ∃ t, e.time = .fin t ∧ t < ti) →
      (f :: w).countP (fun e => (D.fin tf).lt e.time) < fuel →
      (z.samples = [] ∨ ∃ te, z.endTime = .fin te ∧ te < tf) →
      ∃ u, windowLoop comp 0 fuel (some prev) (i :: rest) (f :: w) z = .ub u := by
  intro fuel
  induction fuel with
  | zero => intro prev f w z tf _ _ h; omega
  | succ fuel ih =>
    intro prev f w z tf hf hw hc hz
    obtain ⟨t, ht, hlt⟩ := hw f (by simp)
    have : t = tf := by rw [hf] at ht; cases ht; rfl
    subst this
    rw [windowLoop]
    have hins : f.time.lt (i.time - 0) = true := by
      rw [hf, hi, D.zero_def, D.sub_fin]; simpa using hlt
    have ht0 : f.time + 0 = .fin t := by rw [hf, D.zero_def, D.add_fin]; simp
    simp only [vback, List.head?_cons, Option.toList_some, List.getLast?_singleton, Outcome.bind_ok, hins,
      if_true, derefPrev, Outcome.map', ht0]
    generalize hi' : (⟨D.fin t, prev.interpolate (D.fin t), 0⟩ : Sample K) = i'
    have hit : i'.time = .fin t := by subst hi'; rfl
    rcases monoWedgeUpdate_ne comp i' (f :: w) with ⟨k, hk⟩ | ⟨u, hk⟩
    swap
    · exact ⟨u, by rw [hk]; rfl⟩
    rw [hk, Outcome.bind_ok]
    have hb : (D.fin t : D K) - 0 = .fin t := by rw [D.zero_def, D.sub_fin]; simp
    rw [hb]
    rcases popExpired_cases (.fin t) ((f :: w).take k ++ [i']) with ⟨w', hp⟩ | ⟨u, hp⟩
    swap
    · exact ⟨u, by rw [hp]; rfl⟩
    rw [hp, Outcome.bind_ok]
    obtain ⟨g, l, rfl, hg, hsub⟩ := popExpired_ok _ _ _ hp
    -- the new front is an old sample after `t`
    have hgm : g ∈ f :: w := by
      have : g ∈ (f :: w).take k ++ [i'] := hsub.subset (by simp)
      rcases List.mem_append.1 this with h | h
      · exact List.mem_of_mem_take h
      · simp at h; subst h
        rw [hit] at hg; simp at hg
    obtain ⟨tg, htg, hgi⟩ := hw g hgm
    have htt : t < tg := by rw [htg] at hg; simpa using hg
    have hpush : ∃ z', z.pushBackTV (.fin t) (prev.interpolate (.fin t)) = .ok z' ∧ z'.endTime = .fin t := by
      unfold Signal.pushBackTV Signal.pushBack
      rcases hz with hz | ⟨te, hte, hlt'⟩
      · rw [hz]; exact ⟨_, rfl, rfl⟩
      · cases hl : z.samples.getLast? with
        | none => exact ⟨_, rfl, rfl⟩
        | some last =>
          simp only [hte]
          rw [if_neg (by simpa using hlt')]
          exact ⟨_, rfl, by simp [Signal.endTime]⟩
    obtain ⟨z', hz', hze⟩ := hpush
    rw [hz', Outcome.bind_ok]
    refine ih i' g l z' tg htg ?_ ?_ (.inr ⟨t, hze, htt⟩)
    · intro e he
      have : e ∈ (f :: w).take k ++ [i'] := hsub.subset he
      rcases List.mem_append.1 this with h | h
      · exact hw e (List.mem_of_mem_take h)
      · simp at h; subst h; exact ⟨t, hit, hlt⟩
    · have h1 : (g :: l).countP (fun e => (D.fin tg).lt e.time) ≤
          ((f :: w).take k ++ [i']).countP (fun e => (D.fin tg).lt e.time) := hsub.countP_le
      have h2 : ((f :: w).take k ++ [i']).countP (fun e => (D.fin tg).lt e.time) =
          ((f :: w).take k).countP (fun e => (D.fin tg).lt e.time) := by
        rw [List.countP_append]
        simp [hit, htt.le]
      have h3 : ((f :: w).take k).countP (fun e => (D.fin tg).lt e.time) ≤
          (f :: w).countP (fun e => (D.fin tg).lt e.time) := (List.take_sublist k _).countP_le
      have h4 : (f :: w).countP (fun e => (D.fin tg).lt e.time) <
          (f :: w).countP (fun e => (D.fin t).lt e.time) := by
        have hmono : ∀ e ∈ f :: w, (D.fin tg).lt e.time = true → (D.fin t).lt e.time = true := by
          intro e he h
          obtain ⟨te, hte, -⟩ := hw e he
          rw [hte] at h ⊢; simp at h ⊢; exact htt.trans h
        rcases (List.countP_mono_left hmono).lt_or_eq with h | h
        · exact h
        · exfalso
          have hgt : (fun e : Sample K => (D.fin t).lt e.time) g = true := by
            simp [htg, htt]
          have hgf : (fun e : Sample K => (D.fin tg).lt e.time) g = false := by
            simp [htg]
          obtain ⟨l1, l2, hl⟩ := List.append_of_mem hgm
          rw [hl] at h hmono
          rw [List.countP_append, List.countP_append, List.countP_cons, List.countP_cons] at h
          have m1 := List.countP_mono_left (l := l1) (fun e he => hmono e (by simp [he]))
          have m2 := List.countP_mono_left (l := l2) (fun e he => hmono e (by simp [he]))
          simp only [hgt, hgf, if_true] at h
          simp at h
          omega
      omega

theorem windowFill_cases (comp : Cmp K) (limit : K) : ∀ (l : List (Sample K)) (prev : Option (Sample K))
    (w : List (Sample K)), (∀ e ∈ l, ∃ t, e.time = .fin t) →
    (∀ e ∈ w, ∃ t, e.time = .fin t ∧ t < limit) → (w ≠ [] → prev ≠ none) → 
    (∃ u, windowFill comp (.fin limit) prev l w = .ub u) ∨
    ∃ prev' i rest w' ti, windowFill comp (.fin limit) prev l w = .ok (prev', i :: rest, w') ∧
      i.time = .fin ti ∧ limit ≤ ti ∧ (∀ e ∈ w', ∃ t, e.time = .fin t ∧ t < limit) ∧
      (w ≠ [] → w' ≠ []) ∧ (w' ≠ [] → prev' ≠ none) ∧ w'.length ≤ w.length + l.length
  | [], prev, w, _, _, _ => .inl ⟨_, rfl⟩
  | i :: l, prev, w, hl, hw, hp => by
    obtain ⟨ti, hti⟩ := hl i (by simp)
    rw [windowFill]
    by_cases h : ti < limit
    · have : i.time.lt (.fin limit) = true := by rw [hti]; simpa using h
      rw [if_pos this]
      rcases monoWedgeUpdate_ne comp i w with ⟨k, hk⟩ | ⟨u, hk⟩
      swap
      · exact .inl ⟨u, by rw [hk]; rfl⟩
      rw [hk, Outcome.bind_ok]
      have hw' : ∀ e ∈ w.take k ++ [i], ∃ t, e.time = .fin t ∧ t < limit := by
        intro e he
        rcases List.mem_append.1 he with he | he
        · exact hw e (List.mem_of_mem_take he)
        · simp at he; subst he; exact ⟨ti, hti, h⟩
      rcases windowFill_cases comp limit l (some i) (w.take k ++ [i]) (fun e he => hl e (by simp [he])) hw'
        (by simp) with h' | ⟨prev', j, rest, w', tj, h1, h2, h3, h4, h5, h6, h7⟩
      · exact .inl h'
      · refine .inr ⟨prev', j, rest, w', tj, h1, h2, h3, h4, fun _ => h5 (by simp), h6, ?_⟩
        simp only [List.length_append, List.length_take, List.length_cons, List.length_nil] at h7 ⊢
        omega
    · have : i.time.lt (.fin limit) = false := by rw [hti]; simpa using h
      rw [if_neg (by simp [this])]
      exact .inr ⟨prev, i, l, w, ti, rfl, hti, not_lt.1 h, hw, id, hp, by omega⟩

/-- With `a = 0` and `b > 0` the windowed version runs into undefined behaviour on every non-empty signal
with finite timestamps. -/
theorem minmaxSeqWindow_ub (comp : Cmp K) (x : Signal K) (b : K) (hb : 0 < b) (hne : x.samples ≠ [])
    (ht : ∀ e ∈ x.samples, ∃ t, e.time = .fin t) (fuel : Nat) (hfuel : x.samples.length ≤ fuel) :
    ∃ u, minmaxSeqWindow fuel comp x 0 (.fin b) = .ub u := by
  rw [minmaxSeqWindow_eq]
  have h0 : (0 : D K).eq 0 = true := by simp [D.zero_def]
  rw [if_pos h0, Outcome.bind_ok]
  obtain ⟨s, l, hs⟩ := List.exists_cons_of_ne_nil hne
  obtain ⟨t0, ht0⟩ := ht s (by rw [hs]; simp)
  have hlim : x.beginTime + (.fin b - 0) = .fin (t0 + b) := by
    rw [Signal.beginTime, hs]; simp [ht0, D.zero_def]
  rw [hlim, hs, windowFill]
  have hlt : s.time.lt (.fin (t0 + b)) = true := by rw [ht0]; simpa using hb
  rw [if_pos hlt]
  have hu : monoWedgeUpdate comp [] s = .ok [s] := rfl
  rw [hu, Outcome.bind_ok]
  rcases windowFill_cases comp (t0 + b) l (some s) [s] (fun e he => ht e (by rw [hs]; simp [he]))
    (by intro e he; simp at he; subst he; exact ⟨t0, ht0, by linarith⟩) (by simp) with
    ⟨u, h⟩ | ⟨prev', i, rest, w', ti, h1, h2, h3, h4, h5, h6, h7⟩
  · exact ⟨u, by rw [h]; rfl⟩
  · rw [h1, Outcome.bind_ok]
    have hw' := h5 (by simp)
    obtain ⟨f, w, rfl⟩ := List.exists_cons_of_ne_nil hw'
    obtain ⟨p, rfl⟩ := Option.ne_none_iff_exists'.1 (h6 hw')
    obtain ⟨tf, htf, -⟩ := h4 f (by simp)
    have hcount : (f :: w).countP (fun e => (D.fin tf).lt e.time) < fuel := by
      rw [List.countP_cons_of_neg (by simp [htf])]
      have := List.countP_le_length (p := fun e : Sample K => (D.fin tf).lt e.time) (l := w)
      rw [hs] at hfuel
      simp only [List.length_cons, List.length_nil] at h7 hfuel
      omega
    obtain ⟨u, hu⟩ := windowLoop_ub comp i ti h2 rest fuel p f w Signal.empty tf htf
      (fun e he => by obtain ⟨t, h, h'⟩ := h4 e he; exact ⟨t, h, lt_of_lt_of_le h' h3⟩) hcount (.inl rfl)
    exact ⟨u, by simp only; rw [hu]; rfl⟩

end Verif
