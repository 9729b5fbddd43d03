import Verif.Proofs.Window
import Verif.Proofs.Pwl
import Verif.Model.Exact

/-!
# The monotonic wedge and windowed extrema: C50, C51
-/

set_option linter.unusedSectionVars false

namespace Verif
open Spec

/-! ## C50 -/

section wedge
variable {α : Type}

theorem records_getLast (comp : α → α → Bool) (l : List α) :
    (records comp l).getLast? = l.getLast? := by
  rcases List.eq_nil_or_concat l with rfl | ⟨l', v, rfl⟩
  · rfl
  · rw [List.concat_eq_append, records_snoc]; simp

theorem afterOptimum_split (comp : α → α → Bool) : ∀ (l : List α) (f : α),
    (records comp l).head? = some f → ∃ old, l = old ++ f :: afterOptimum comp l
  | [], f, h => by simp [records] at h
  | a :: l, f, h => by
    rw [records] at h
    rw [afterOptimum]
    split at h
    · next hall =>
      simp at h; subst h
      exact ⟨[], by rw [if_pos hall]; rfl⟩
    · next hall =>
      obtain ⟨old, e⟩ := afterOptimum_split comp l f h
      refine ⟨a :: old, ?_⟩
      rw [if_neg hall, List.cons_append, ← e]

theorem windowAfter_mem (P : α → Prop) (comp : α → α → Bool) (ops : List (WedgeOp α)) :
    ∀ (win : List α), (∀ a ∈ win, P a) → (∀ v, .push v ∈ ops → P v) → ∀ a ∈ windowAfter comp win ops, P a := by
  induction ops with
  | nil => intro win h _; exact h
  | cons op ops ih =>
    intro win h hp
    cases op with
    | push v =>
      refine ih _ ?_ fun u hu => hp u (by simp [hu])
      intro a ha
      rcases List.mem_append.1 ha with ha | ha
      · exact h a ha
      · simp at ha; subst ha; exact hp a (by simp)
    | popFront =>
      exact ih _ (fun a ha => h a (afterOptimum_subset comp win a ha)) fun u hu => hp u (by simp [hu])

/-- **C50.** Any sequence of updates and `pop_front`s of a wedge that is empty at first, where the front is
dropped only if the window is not empty.  All values that occur satisfy `P`, and on these `comp` is a
total preorder (as `<=` and `>=` are on samples whose values are not NaN).  Then no operation fails; the
wedge is sorted, is empty only if the window is, its values are taken from the window in order, its last
value is the latest one, and its front is related by `comp` to all values in the window; a `pop_front`
makes the window lose the front and what is older, nothing else. -/
theorem C50_wedge (P : α → Prop) (comp : α → α → Bool)
    (htr : ∀ a b c, P a → P b → P c → comp a b = true → comp b c = true → comp a c = true)
    (htot : ∀ a b, P a → P b → comp a b = true ∨ comp b a = true)
    (ops : List (WedgeOp α)) (hP : ∀ v, .push v ∈ ops → P v) (hpop : PopsOk comp [] ops) :
    ∃ w, wedgeAfter comp [] ops = .ok w ∧
      (w = [] ↔ windowAfter comp [] ops = []) ∧
      w.Pairwise (fun a b => comp a b = true) ∧
      w.Sublist (windowAfter comp [] ops) ∧
      w.getLast? = (windowAfter comp [] ops).getLast? ∧
      ∀ f, w.head? = some f →
        (∀ v ∈ windowAfter comp [] ops, comp f v = true) ∧
        ∃ old, windowAfter comp [] ops = old ++ f :: windowAfter comp [] (ops ++ [.popFront]) := by
  have hpopsn : ∀ (ops : List (WedgeOp α)) (win : List α),
      windowAfter comp win (ops ++ [.popFront]) = afterOptimum comp (windowAfter comp win ops) := by
    intro ops
    induction ops with
    | nil => intro win; rfl
    | cons op ops ih => intro win; cases op <;> exact ih _
  have hw := wedgeAfter_records P comp htr ops [] (by simp) hP hpop
  refine ⟨_, hw, records_ne_nil _ _, records_pairwise _ _, records_sublist _ _, records_getLast _ _, ?_⟩
  intro f hf
  refine ⟨records_front_total P comp htr htot _ (windowAfter_mem P comp ops [] (by simp) hP) f hf, ?_⟩
  rw [hpopsn]
  exact afterOptimum_split comp _ f hf

/-- **C50** for a strict weak ordering (`min_wedge_update`, `max_wedge_update` of the header): no value in
the window is before the front. -/
theorem C50_wedge_strict (comp : α → α → Bool)
    (htr : ∀ a b c, comp a b = true → comp b c = true → comp a c = true)
    (hirr : ∀ a, comp a a = false)
    (hneg : ∀ a b c, comp a b = false → comp b c = false → comp a c = false)
    (ops : List (WedgeOp α)) (hpop : PopsOk comp [] ops) :
    ∃ w, wedgeAfter comp [] ops = .ok w ∧
      (w = [] ↔ windowAfter comp [] ops = []) ∧
      w.Pairwise (fun a b => comp a b = true) ∧
      w.Sublist (windowAfter comp [] ops) ∧
      w.getLast? = (windowAfter comp [] ops).getLast? ∧
      ∀ f, w.head? = some f → ∀ v ∈ windowAfter comp [] ops, comp v f = false := by
  have hw := wedgeAfter_records (fun _ => True) comp (fun a b c _ _ _ => htr a b c) ops [] (by simp)
    (by simp) hpop
  refine ⟨_, hw, records_ne_nil _ _, records_pairwise _ _, records_sublist _ _, records_getLast _ _, ?_⟩
  intro f hf
  exact records_front_strict (fun _ => True) comp (fun a b c _ _ _ => htr a b c) (fun a _ => hirr a)
    (fun a b c _ _ _ => hneg a b c) _ (by simp) f hf

/-- **C50**: dropping the front of an empty window is the only failure. -/
theorem C50_wedge_failure (comp : α → α → Bool)
    (htr : ∀ a b c, comp a b = true → comp b c = true → comp a c = true)
    (ops : List (WedgeOp α)) (hpop : ¬ PopsOk comp [] ops) :
    wedgeAfter comp [] ops = .ub .emptyAccess :=
  wedgeAfter_bad_pop (fun _ => True) comp (fun a b c _ _ _ => htr a b c) ops [] (by simp) (by simp) hpop

/-- **C50**, sliding window: if the older values `old` of the window are expired and the others, `new`, are
not, then dropping expired values from the front of the wedge leaves a wedge of `new`: sorted, and with an
optimum of `new` at the front. -/
theorem C50_expire (P : α → Prop) (comp : α → α → Bool)
    (htr : ∀ a b c, P a → P b → P c → comp a b = true → comp b c = true → comp a c = true)
    (htot : ∀ a b, P a → P b → comp a b = true ∨ comp b a = true)
    (ops : List (WedgeOp α)) (hP : ∀ v, .push v ∈ ops → P v) (hpop : PopsOk comp [] ops)
    (old new : List α) (hwin : windowAfter comp [] ops = old ++ new)
    (expired : α → Bool) (ho : ∀ a ∈ old, expired a = true) (hn : ∀ a ∈ new, expired a = false)
    (w : List α) (hw : wedgeAfter comp [] ops = .ok w) :
    (w.dropWhile expired = [] ↔ new = []) ∧
    (w.dropWhile expired).Pairwise (fun a b => comp a b = true) ∧
    (w.dropWhile expired).Sublist new ∧
    (w.dropWhile expired).getLast? = new.getLast? ∧
    ∀ f, (w.dropWhile expired).head? = some f → ∀ v ∈ new, comp f v = true := by
  have hPn : ∀ a ∈ new, P a := fun a ha =>
    windowAfter_mem P comp ops [] (by simp) hP a (by rw [hwin]; simp [ha])
  have hr := wedgeAfter_records P comp htr ops [] (by simp) hP hpop
  rw [records, hw, hwin] at hr
  cases hr
  rw [records_expire comp expired new hn old ho]
  exact ⟨records_ne_nil _ _, records_pairwise _ _, records_sublist _ _, records_getLast _ _,
    fun f hf => records_front_total P comp htr htot new hPn f hf⟩

-- feed 3, 1, 4, 1, 5, drop the front (the first 1), feed 2, with `<=`: the window is 4, 1, 5, 2
example : wedgeAfter (fun a b : Nat => decide (a ≤ b)) []
    [.push 3, .push 1, .push 4, .push 1, .push 5, .popFront, .push 2] = .ok [1, 2] := by decide +kernel
example : windowAfter (fun a b : Nat => decide (a ≤ b)) []
    [.push 3, .push 1, .push 4, .push 1, .push 5, .popFront, .push 2] = [4, 1, 5, 2] := by decide +kernel
example : PopsOk (fun a b : Nat => decide (a ≤ b)) []
    [.push 3, .push 1, .push 4, .push 1, .push 5, .popFront, .push 2] := by
  simp [PopsOk, afterOptimum]
-- with `<` the later 1 is the front and 5, 2 remain
example : wedgeAfter (fun a b : Nat => decide (a < b)) []
    [.push 3, .push 1, .push 4, .push 1, .push 5, .popFront, .push 2] = .ok [2] := by decide +kernel

end wedge

section samples
variable {K : Type} [Field K] [LinearOrder K]

/-- The comparisons used by the code satisfy the hypotheses of C50 on samples whose values are not NaN. -/
theorem C50_samples (comp : Cmp K) (hc : comp = Sample.le ∨ comp = Sample.ge) :
    (∀ a b c : Sample K, a.value ≠ .nan → b.value ≠ .nan → c.value ≠ .nan → comp a b = true →
      comp b c = true → comp a c = true) ∧
    ∀ a b : Sample K, a.value ≠ .nan → b.value ≠ .nan → comp a b = true ∨ comp b a = true := by
  have hle : ∀ a b : Sample K, a.value ≠ .nan → b.value ≠ .nan → Sample.le a b = a.value.le b.value := by
    intro a b ha hb
    simp [Sample.le, Sample.gt, Sample.lt, D.le_eq_not_lt ha hb]
  have hge : ∀ a b : Sample K, a.value ≠ .nan → b.value ≠ .nan → Sample.ge a b = b.value.le a.value := by
    intro a b ha hb
    simp [Sample.ge, Sample.lt, D.le_eq_not_lt hb ha]
  rcases hc with rfl | rfl
  · refine ⟨fun a b c ha hb hc h1 h2 => ?_, fun a b ha hb => ?_⟩
    · rw [hle _ _ ‹_› ‹_›] at *; exact D.le_trans h1 h2
    · rw [hle _ _ ha hb, hle _ _ hb ha]; exact D.le_total ha hb
  · refine ⟨fun a b c ha hb hc h1 h2 => ?_, fun a b ha hb => ?_⟩
    · rw [hge _ _ ‹_› ‹_›] at *; exact D.le_trans h2 h1
    · rw [hge _ _ ha hb, hge _ _ hb ha]; exact D.le_total hb ha

/-- NaN breaks it: `1 <= NaN <= 0`, and the update of a sorted wedge is undefined behaviour (the range
passed to `std::lower_bound` is not partitioned). -/
example : monoWedgeUpdate Sample.le [⟨0, .fin 1, 0⟩, ⟨0, .nan, 0⟩] (⟨0, .fin 0, 0⟩ : Sample ℚ) =
    .ub .unpartitioned := by decide +kernel

end samples

/-! ## C51 -/

section window
variable {K : Type} [Field K] [LinearOrder K] [IsStrictOrderedRing K] [Arith K] [ExactArith K]

/-- **C51 is false**, part 1: for `a = 0` and any `b > 0` the windowed version runs into undefined behaviour
on *every* non-empty signal with finite timestamps, for both comparisons (the loop of line 140 of minmax.cc
pops the sample it has just added, and then reads the front of an empty deque; or the loop of line 124 runs
past the end). -/
theorem C51_refuted_zero (x : Signal K) (b : K) (hb : 0 < b) (hne : x.samples ≠ [])
    (ht : ∀ e ∈ x.samples, ∃ t, e.time = .fin t) (fuel : Nat) (hfuel : x.samples.length ≤ fuel) :
    (∃ u, minSeqWindow fuel x 0 (.fin b) = .ub u) ∧ ∃ u, maxSeqWindow fuel x 0 (.fin b) = .ub u :=
  ⟨minmaxSeqWindow_ub _ x b hb hne ht fuel hfuel, minmaxSeqWindow_ub _ x b hb hne ht fuel hfuel⟩

/-- **C51 is false**, part 2: where a signal is returned it is wrong.  For the line through (0,1), (10,2) and
the window [1, 3] the minimum and the maximum at time 1 are both 13/10, while the line has the value 6/5 at
time 2 and 7/5 at time 4. -/
theorem C51_refuted_values :
    minSeqWindow 100 (ofPts [((0 : ℚ), 1), (10, 2)]) (.fin 1) (.fin 3) =
      .ok (ofPts [(1, 13/10), (7, 13/10), (8, 2)]) ∧
    maxSeqWindow 100 (ofPts [((0 : ℚ), 1), (10, 2)]) (.fin 1) (.fin 3) =
      .ok (ofPts [(1, 13/10), (7, 13/10), (8, 2)]) ∧
    eval [((0 : ℚ), 1), (10, 2)] 2 = 6/5 ∧ eval [((0 : ℚ), 1), (10, 2)] 4 = 7/5 := by decide +kernel

/-- **C51**, what holds: the first loop (minmax.cc:123-126).  If it ends before the end of the signal, the
samples read are those before `limit`, and the wedge is sorted, ends with the last of them and has an
optimum of them at the front.  (Values other than NaN.)  Missing: everything after the first window. -/
theorem C51_first_window_partial (comp : Cmp K) (hc : comp = Sample.le ∨ comp = Sample.ge) (limit : D K)
    (first rest : List (Sample K)) (i : Sample K)
    (h1 : ∀ s ∈ first, s.time.lt limit = true ∧ s.value ≠ .nan) (h2 : i.time.lt limit = false) :
    ∃ w, windowFill comp limit none (first ++ i :: rest) [] = .ok (first.getLast?, i :: rest, w) ∧
      w.Pairwise (fun a b => comp a b = true) ∧ w.getLast? = first.getLast? ∧ w.Sublist first ∧
      ∀ f, w.head? = some f → ∀ s ∈ first, comp f s = true := by
  obtain ⟨htr, htot⟩ := C50_samples comp hc
  have key : ∀ (l done : List (Sample K)) (prev : Option (Sample K)), (∀ s ∈ done ++ l, s.value ≠ .nan) →
      (∀ s ∈ l, s.time.lt limit = true) →
      windowFill comp limit prev (l ++ i :: rest) (records comp done) =
        .ok (l.getLast?.or prev, i :: rest, records comp (done ++ l)) := by
    intro l
    induction l with
    | nil =>
      intro done prev _ _
      rw [List.nil_append, windowFill, if_neg (by simp [h2])]
      simp
    | cons a l ih =>
      intro done prev hn ht
      rw [List.cons_append, windowFill, if_pos (ht a (by simp)),
        update_records (fun s : Sample K => s.value ≠ .nan) comp htr done (fun s hs => hn s (by simp [hs])) a
          (hn a (by simp)), Outcome.bind_ok, ih (done ++ [a]) (some a) (by simpa using hn)
          (fun s hs => ht s (by simp [hs]))]
      rw [List.append_assoc, List.singleton_append]
      congr 2
      rcases List.eq_nil_or_concat l with rfl | ⟨l', v, rfl⟩
      · rfl
      · rw [List.concat_eq_append, ← List.cons_append, List.getLast?_append, List.getLast?_append]; simp
  have := key first [] none (fun s hs => (h1 s (by simpa using hs)).2) (fun s hs => (h1 s hs).1)
  rw [List.nil_append, Option.or_none] at this
  refine ⟨_, this, records_pairwise _ _, records_getLast _ _, records_sublist _ _, fun f hf => ?_⟩
  exact records_front_total (fun s : Sample K => s.value ≠ .nan) comp htr htot first
    (fun s hs => (h1 s hs).2) f hf

example : windowFill Sample.le (.fin 2) none
    (ofPts [((0 : ℚ), 3), (1/2, 1), (1, 2), (3/2, 1), (2, 0), (3, 5)]).samples [] =
    .ok ((ofPts [((0 : ℚ), 3), (1/2, 1), (1, 2), (3/2, 1), (2, 0), (3, 5)]).samples[3]?,
      (ofPts [((0 : ℚ), 3), (1/2, 1), (1, 2), (3/2, 1), (2, 0), (3, 5)]).samples.drop 4,
      [⟨.fin (1/2), .fin 1, .fin 2⟩, ⟨.fin (3/2), .fin 1, .fin (-2)⟩]) := by decide +kernel
example : minSeqWindow 10 (ofPts [((0 : ℚ), 3), (1/2, 1), (1, 2), (3/2, 1), (2, 0), (3, 5)]) 0 (.fin 2) =
    .ub .emptyAccess := by decide +kernel

end window

end Verif
