import Verif.Proofs.Keep
import Verif.Proofs.EvalCost
import Verif.Props.Lattice

/-! # The flag `synchronized` for any number of operands -/

set_option linter.unusedSectionVars false

namespace Verif
open Spec

variable {K : Type} [Field K] [LinearOrder K] [IsStrictOrderedRing K] [Arith K]

theorem SyncedSignals.sub {xs ys : List (Signal K)} (h : SyncedSignals xs) (hs : ∀ y ∈ ys, y ∈ xs) :
    SyncedSignals ys := fun x hx =>
  ⟨(h x (hs x hx)).1, (h x (hs x hx)).2.1, (h x (hs x hx)).2.2.1, fun y hy => (h x (hs x hx)).2.2.2 y (hs y hy)⟩

theorem SyncedSignals.size {xs : List (Signal K)} (h : SyncedSignals xs) {x y : Signal K} (hx : x ∈ xs) (hy : y ∈ xs) :
    x.size = y.size := by
  have := congrArg List.length ((h x hx).2.2.2 y hy)
  simpa [Signal.size] using this

theorem pair_flag (nd : Bool) (comp : Cmp K) {x y : Signal K} (h : SyncedSignals [x, y]) :
    minmaxPair nd comp x y true = minmaxPair nd comp x y false := by
  obtain ⟨wx, hne, hn, ht⟩ := h x (by simp)
  obtain ⟨wy, -, -, -⟩ := h y (by simp)
  have hs := synchronize_same_times wx wy hne hn (ht y (by simp))
  simp only [minmaxPair_eq, hs]
  rfl

/-- The result of two synchronized signals has all their timestamps, and so no others if it has no more samples. -/
theorem pair_synced {nd : Bool} {comp : Cmp K} {x y z : Signal K} (h : SyncedSignals [x, y])
    (hz : minmaxPair nd comp x y true = .ok z) (hs : z.size = x.size) : times z = times x := by
  rw [minmaxPair_eq] at hz
  simp only [if_true, Outcome.bind_ok, Outcome.bind_eq_ok] at hz
  obtain ⟨_, -, _, -, _, -, hz⟩ := hz
  obtain ⟨-, -, h3⟩ := pairLoop_times comp _ _ _ _ _ _ _ hz (.inl rfl) ((h x (by simp)).2.2.2 y (by simp))
  have h3' : (times x).Sublist (times z) := h3
  exact (h3'.eq_of_length (by simpa [times, Signal.size] using hs.symm)).symm

theorem synced_next {nd : Bool} {comp : Cmp K} {acc x z : Signal K} {xs : List (Signal K)}
    (h : SyncedSignals (acc :: x :: xs)) (hz : minmaxPair nd comp acc x true = .ok z) (hs : z.size = acc.size) :
    SyncedSignals (z :: xs) := by
  have hp : SyncedSignals [acc, x] := h.sub (by simp +contextual)
  have ht := pair_synced hp hz hs
  obtain ⟨wa, ha, hn, hta⟩ := h acc (by simp)
  have wz : WF z := wf_minmaxPair hz
  have hz0 : z.samples ≠ [] := by
    intro e
    have : times z = [] := by simp [times, e]
    rw [ht] at this
    exact ha (List.map_eq_nil_iff.1 this)
  have hnz : ∀ a ∈ z.samples, a.time ≠ .nan := by
    intro a hza e
    have : a.time ∈ times z := List.mem_map_of_mem hza
    rw [ht] at this
    obtain ⟨b, hb, e'⟩ := List.mem_map.1 this
    exact hn b hb (e'.trans e)
  have e : ∀ y ∈ acc :: x :: xs, times z = times y := fun y hy => ht.trans (hta y hy)
  intro w hw
  rcases List.mem_cons.1 hw with rfl | hw
  · refine ⟨wz, hz0, hnz, fun y hy => ?_⟩
    rcases List.mem_cons.1 hy with rfl | hy
    · rfl
    · exact e y (by simp [hy])
  · obtain ⟨h1, h2, h3, h4⟩ := h w (by simp [hw])
    refine ⟨h1, h2, h3, fun y hy => ?_⟩
    rcases List.mem_cons.1 hy with e' | hy
    · rw [e']
      exact (e w (List.mem_cons_of_mem _ (List.mem_cons_of_mem _ hw))).symm
    · exact h4 y (by simp [hy])

/-- A debug build stops at operands of different sizes that are said to be synchronized. -/
theorem pair_abort {comp : Cmp K} {x y : Signal K} (h : x.size ≠ y.size) :
    minmaxPair false comp x y true = .abort := by
  rw [minmaxPair_eq]
  simp only [if_true, Outcome.bind_ok, assert_, Bool.false_or, beq_iff_eq, h, if_false]
  rfl

/-- The flag changes nothing as long as no intermediate result has a new timestamp. -/
theorem fold_flag (nd : Bool) (comp : Cmp K) : ∀ (xs : List (Signal K)) (acc : Signal K), SyncedSignals (acc :: xs) →
    (∀ k < xs.length, ∀ z, minmaxFold nd comp false acc (xs.take k) = .ok z → z.size = acc.size) →
    minmaxFold nd comp true acc xs = minmaxFold nd comp false acc xs
  | [], _, _, _ => rfl
  | x :: xs, acc, h, hk => by
    rw [minmaxFold, minmaxFold, ← pair_flag nd comp (h.sub (by simp +contextual) : SyncedSignals [acc, x])]
    refine Outcome.bind_congr_ok fun z hz => ?_
    cases xs with
    | nil => rfl
    | cons y ys =>
    have hz' : minmaxPair nd comp acc x false = .ok z := by
      rw [← pair_flag nd comp (h.sub (by simp +contextual) : SyncedSignals [acc, x])]; exact hz
    have hsz : z.size = acc.size := hk 1 (by simp) z (by simp [minmaxFold, hz'])
    refine fold_flag nd comp (y :: ys) z (synced_next h hz hsz) fun k hlt w hw => ?_
    rw [hsz]
    refine hk (k + 1) (by simpa using hlt) w ?_
    rw [List.take_succ_cons, minmaxFold, hz']
    exact hw

/-- Otherwise a debug build stops. -/
theorem fold_abort (comp : Cmp K) : ∀ (xs : List (Signal K)) (acc : Signal K), SyncedSignals (acc :: xs) →
    ∀ k < xs.length, ∀ z, minmaxFold false comp false acc (xs.take k) = .ok z → z.size ≠ acc.size →
    minmaxFold false comp true acc xs = .abort
  | [], _, _, _, hk, _, _, _ => by simp at hk
  | x :: xs, acc, h, k, hk, z, hz, hs => by
    cases k with
    | zero =>
      simp only [List.take_zero, minmaxFold, Outcome.ok.injEq] at hz
      exact absurd (by rw [hz]) hs
    | succ k =>
      rw [List.take_succ_cons, minmaxFold] at hz
      obtain ⟨a, ha, hz⟩ := Outcome.bind_eq_ok.1 hz
      have ha' : minmaxPair false comp acc x true = .ok a := by
        rw [pair_flag false comp (h.sub (by simp +contextual) : SyncedSignals [acc, x])]; exact ha
      rw [minmaxFold, ha', Outcome.bind_ok]
      by_cases hsz : a.size = acc.size
      · exact fold_abort comp xs a (synced_next h ha' hsz) k (by simpa using hk) z hz (by rwa [hsz])
      · cases xs with
        | nil => simp at hk
        | cons y ys =>
          have : a.size ≠ y.size := by
            rw [← h.size (x := acc) (y := y) (by simp) (by simp)]; exact hsz
          rw [minmaxFold, pair_abort this]
          rfl

end Verif
