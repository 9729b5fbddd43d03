import Verif.Proofs.WindowExact
import Verif.Proofs.Pwl
import Verif.Props.SignalOps
import Verif.Model.Exact
import Mathlib.Algebra.Order.Archimedean.Basic

/-!
# What the windowed extrema return: C51
-/

set_option linter.unusedSectionVars false

namespace Verif
open Spec

variable {K : Type} [Field K] [LinearOrder K] [IsStrictOrderedRing K] [Arith K] [ExactArith K]

/-- **C51**, the exact outcome for `0 < a < b`, for every finite signal and *any* comparison.  Let `s` be the time of
the first sample, and call a sample late if it is after `s + (b - a)`.

* Two late samples: `std::invalid_argument`.
* No late sample: undefined behaviour.
* One late sample, at `q.1`: undefined behaviour if `q.1 < s + 2 (b - a)`.  Otherwise the call returns the value
  `v` of the signal at `s + b`, held from `s + a` until the last multiple `s + k a` that is before the end
  `q.1 - (b - a)`, and there the last value of the signal.  The loop needs `k + 1` rounds.

The comparison occurs nowhere in the result: the windowed minimum and the windowed maximum are always the same.
(The values claimed by C51 are not returned.) -/
theorem C51_outcome_partial (comp : Cmp K) (x : Signal K) (p0 : K × K) (rest : List (K × K))
    (h : Represents x (p0 :: rest)) (a b : K) (ha : 0 < a) (hab : a < b) (fuel : Nat) :
    (2 ≤ ((p0 :: rest).filter fun p => decide (p0.1 + (b - a) < p.1)).length →
      minmaxSeqWindow fuel comp x (.fin a) (.fin b) = .throw .invalidArgument) ∧
    (((p0 :: rest).filter fun p => decide (p0.1 + (b - a) < p.1)) = [] →
      minmaxSeqWindow fuel comp x (.fin a) (.fin b) = .ub .derefEnd) ∧
    ∀ q, ((p0 :: rest).filter fun p => decide (p0.1 + (b - a) < p.1)) = [q] →
      (q.1 < p0.1 + (b - a) + (b - a) → minmaxSeqWindow fuel comp x (.fin a) (.fin b) = .ub .derefEnd) ∧
      ∀ k : Nat, p0.1 + (b - a) + (b - a) ≤ q.1 → p0.1 + k * a < q.1 - (b - a) →
        q.1 - (b - a) ≤ p0.1 + (k + 1) * a →
        minmaxSeqWindow fuel comp x (.fin a) (.fin b) =
          if fuel ≤ k then .diverge
          else .ok (ofPts (windowPts p0.1 a (eval (p0 :: rest) (p0.1 + b)) (q.1 - (b - a)) q.2 k)) := by
  obtain ⟨hinc, rfl⟩ := (represents_iff _ _).1 h
  have hw : 0 < b - a := sub_pos.2 hab
  obtain ⟨l, e, hl⟩ := split_late (p0.1 + (b - a)) (p0 :: rest) hinc
  have hl0 : l ≠ [] := by
    rintro rfl
    rw [List.nil_append] at e
    have : p0 ∈ (p0 :: rest).filter fun p => decide (p0.1 + (b - a) < p.1) := by rw [← e]; simp
    have := (List.mem_filter.1 this).2
    simp only [decide_eq_true_eq] at this
    linarith
  obtain ⟨l, p, rfl⟩ := (List.eq_nil_or_concat l).resolve_left hl0
  rw [List.concat_eq_append] at e hl
  have hp : p.1 ≤ p0.1 + (b - a) := hl p (by simp)
  have hlate : ∀ q ∈ (p0 :: rest).filter fun p => decide (p0.1 + (b - a) < p.1), p0.1 + (b - a) < q.1 := by
    intro q hq
    simpa using (List.mem_filter.1 hq).2
  generalize ((p0 :: rest).filter fun p => decide (p0.1 + (b - a) < p.1)) = late at e hlate
  have hend : ∀ l' q, p0 :: rest = l' ++ [q] → p0.1 ≤ q.1 := by
    intro l' q hq
    rcases List.mem_cons.1 (show q ∈ p0 :: rest by rw [hq]; simp) with rfl | hm
    · exact le_rfl
    · exact ((increasing_cons.1 hinc).1 q hm).le
  refine ⟨?_, ?_, ?_⟩
  · intro h2
    obtain ⟨q, r, late, rfl⟩ : ∃ q r l', late = q :: r :: l' := by
      match late, h2 with
      | q :: r :: l', _ => exact ⟨q, r, l', rfl⟩
    obtain ⟨l', z, hz⟩ : ∃ l' z, p0 :: rest = l' ++ [z] := by
      rcases List.eq_nil_or_concat (p0 :: rest) with h | ⟨l', z, h⟩
      · simp at h
      · exact ⟨l', z, by rw [h, List.concat_eq_append]⟩
    rw [minmaxSeqWindow_resized comp l' p0 z rest hz a b ha]
    have hzq : p0.1 + (b - a) < z.1 + (b - a) := by
      have h0 : q ∈ p0 :: rest := by rw [e]; simp
      have h3 : q.1 ≤ z.1 := by
        rw [hz] at h0
        rcases List.mem_append.1 h0 with h0 | h0
        · rw [hz] at hinc; exact ((increasing_append.1 hinc).2.2 q h0 z (by simp)).le
        · simp at h0; rw [h0]
      have := hlate q (by simp)
      linarith
    rw [C14_resize_throws (ofPts (p0 :: rest)) l late p q r
      ((represents_iff _ _).2 ⟨by rw [e] at hinc; simpa using hinc, by rw [e]; simp⟩) _ _ _ hzq hp (hlate q (by simp))]
    rfl
  · rintro rfl
    rw [List.append_nil] at e
    rw [minmaxSeqWindow_resized comp l p0 p rest e a b ha]
    obtain ⟨s', hs, hr⟩ : ∃ s', (ofPts (p0 :: rest)).resize (.fin (p0.1 + (b - a))) (.fin (p.1 + (b - a))) (.fin p.2) =
        .ok s' ∧ (s' = ofPts [] ∨ s' = ofPts [p] ∧ p.1 = p0.1 + (b - a)) := by
      by_cases hpp : p0.1 < p.1
      · obtain ⟨s', h1, h2⟩ := C14_resize_late (ofPts (p0 :: rest)) l p
          ((represents_iff _ _).2 ⟨e ▸ hinc, by rw [e]⟩) (p0.1 + (b - a)) (p.1 + (b - a)) p.2 (by linarith) hp
        refine ⟨s', h1, ?_⟩
        have := ((represents_iff _ _).1 h2).2
        split at this
        · exact .inr ⟨this, ‹_›⟩
        · exact .inl this
      · have hl : l = [] := by
          rcases l with _ | ⟨y, l⟩
          · rfl
          · exfalso
            rw [List.cons_append] at e
            injection e with e1 e2
            subst e1
            exact hpp ((increasing_cons.1 hinc).1 p (by rw [e2]; simp))
        subst hl
        rw [List.nil_append] at e
        injection e with e1 e2
        subst e1 e2
        refine ⟨ofPts [], ?_, .inl rfl⟩
        have e : (ofPts [p0]).samples = [⟨.fin p0.1, .fin p0.2, 0⟩] := rfl
        have h1 : p0.1 < p0.1 + (b - a) := by linarith
        unfold Signal.resize
        rw [ofPts_beginTime, e]
        simp [Signal.resizeLoop, h1.le, not_le.2 h1, not_lt.2 h1.le]
        rfl
    rw [hs]
    rcases hr with rfl | ⟨rfl, h3⟩
    · rfl
    · rw [Outcome.map'_ok, addTime_ofPts _ _ (by simp [increasing_single]), Outcome.bind_ok]
      have h4 : (ofPts (shiftPts (-(b - a)) [p])).samples = [⟨.fin p0.1, .fin p.2, 0⟩] := by
        have : p.1 + -(b - a) = p0.1 := by rw [h3]; ring
        rw [shiftPts, List.map_singleton, this]; rfl
      rw [h4, windowFill, if_pos (by simpa using hw), monoWedgeUpdate_nil, Outcome.bind_ok, windowFill]
      rfl
  · rintro q rfl
    have hq : p0.1 + (b - a) < q.1 := hlate q (by simp)
    have hpq := hp.trans_lt hq
    rw [minmaxSeqWindow_resized comp (l ++ [p]) p0 q rest e a b ha]
    have hab' : p0.1 + (b - a) < q.1 + (b - a) := by linarith
    have e' : p0 :: rest = l ++ p :: [q] := by rw [e]; simp
    have hres : (ofPts (p0 :: rest)).resize (.fin (p0.1 + (b - a))) (.fin (q.1 + (b - a))) (.fin q.2) =
        .ok (ofPts [(p0.1 + (b - a), line p q (p0.1 + (b - a))), q]) := by
      have hinc' := hinc
      rw [e'] at hinc' ⊢
      obtain ⟨prev, hskip⟩ := resizeLoop_skip (p0.1 + (b - a)) (q.1 + (b - a)) hab' Signal.empty p [q] hp l none hinc'
      unfold Signal.resize
      rw [beginTime_le hinc' hp]
      simp only [Bool.false_eq_true, if_false, Outcome.bind_ok]
      rw [hskip, resizeLoop_two _ _ hab' p q hp hq, if_pos (by linarith)]
    rw [hres, Outcome.map'_ok, addTime_ofPts _ _ (increasing_cons.2 ⟨by simpa using hq, increasing_single _⟩), Outcome.bind_ok]
    set w := b - a with hwd
    set v0 := line p q (p0.1 + w) with hv0
    have hsh : shiftPts (-w) [(p0.1 + w, v0), q] = [(p0.1, v0), (q.1 - w, q.2)] := by
      simp [shiftPts, sub_eq_add_neg]
    have hT : p0.1 < q.1 - w := by linarith
    rw [hsh, window_two comp hw hT]
    refine ⟨fun h => by rw [if_pos (by linarith)], fun k hk0 hk1 hk2 => ?_⟩
    rw [if_neg (by linarith)]
    cases k with
    | zero =>
      cases fuel with
      | zero => simp [windowLoop]
      | succ fuel =>
        rw [windowLoop_last comp ha (s := p0.1) (by simp at hk2; linarith) _ _ _ rfl _ _ (by simp), Outcome.bind_ok]
        exact simplify_holdPts ha p0.1 0 (q.1 - w) q.2 0 hk1
    | succ k =>
      push_cast at hk1 hk2
      have hkk : (0 : K) ≤ k * a := mul_nonneg (Nat.cast_nonneg _) ha.le
      cases fuel with
      | zero => simp [windowLoop]
      | succ fuel =>
        have hv : v0 + (q.2 - v0) / (q.1 - w - p0.1) * a = eval (p0 :: rest) (p0.1 + b) := by
          rw [e', eval_seg l p q [] (e' ▸ hinc) (by linarith) (by linarith), hv0]
          have h1 : q.1 - p.1 ≠ 0 := sub_ne_zero.2 hpq.ne'
          have h2 : q.1 - w - p0.1 ≠ 0 := sub_ne_zero.2 hT.ne'
          have hb : b = w + a := by rw [hwd]; ring
          rw [hb]
          simp only [line]
          field_simp
          ring
        rw [windowLoop_ins comp ha (s := p0.1) (T := q.1 - w) (by linarith) fuel _ rfl ⟨.fin (q.1 - w), .fin q.2, 0⟩ rfl []
          [] (by simp), hv]
        have := windowLoop_hold comp (v := eval (p0 :: rest) (p0.1 + b)) (vl := q.2) ha (q.1 - w) 0 k (p0.1 + a)
          [(p0.1 + a, eval (p0 :: rest) (p0.1 + b))] fuel (by linarith) (by linarith) (by simp)
        rw [List.nil_append, this]
        by_cases hf : fuel ≤ k
        · rw [if_pos hf, if_pos (by omega)]; rfl
        · rw [if_neg hf, if_neg (by omega), Outcome.bind_ok]
          exact simplify_holdPts ha p0.1 _ (q.1 - w) q.2 (k + 1) (by push_cast; linarith)

-- one late sample: k = 7, and the value 13/10 is held from 1 to 7
example : minSeqWindow 8 (ofPts [((0 : ℚ), 1), (10, 2)]) (.fin 1) (.fin 3) =
    .ok (ofPts [(1, 13/10), (7, 13/10), (8, 2)]) := by decide +kernel
example : windowPts (0 : ℚ) 1 (eval [(0, 1), (10, 2)] 3) 8 2 7 = [(1, 13/10), (7, 13/10), (8, 2)] := by decide +kernel
example : minSeqWindow 7 (ofPts [((0 : ℚ), 1), (10, 2)]) (.fin 1) (.fin 3) = .diverge := by decide +kernel
-- no inserted sample
example : maxSeqWindow 1 (ofPts [((0 : ℚ), 1), (1, 5), (6, 2)]) (.fin 4) (.fin 6) = .ok (ofPts [(4, 2)]) := by
  decide +kernel
-- one late sample, but before `s + 2 (b - a)`; two late samples; none
example : maxSeqWindow 9 (ofPts [((0 : ℚ), 1), (1, 5), (3, 2)]) (.fin 4) (.fin 6) = .ub .derefEnd := by decide +kernel
example : maxSeqWindow 9 (ofPts [((0 : ℚ), 1), (3, 5), (6, 2)]) (.fin 4) (.fin 6) = .throw .invalidArgument := by
  decide +kernel
example : maxSeqWindow 9 (ofPts [((0 : ℚ), 1), (1, 5), (2, 2)]) (.fin 4) (.fin 6) = .ub .derefEnd := by decide +kernel

/-- **C51**, a consequence: for `0 < a < b` the windowed minimum and the windowed maximum of a finite signal have
the same outcome, whatever the signal.  So the claim can only be right of both if every window has a single
value. -/
theorem C51_same_partial [Archimedean K] (x : Signal K) (xs : List (K × K)) (h : Represents x xs) (a b : K) (ha : 0 < a)
    (hab : a < b) (fuel : Nat) :
    minSeqWindow fuel x (.fin a) (.fin b) = maxSeqWindow fuel x (.fin a) (.fin b) := by
  unfold minSeqWindow maxSeqWindow
  cases xs with
  | nil =>
    obtain ⟨-, rfl⟩ := (represents_iff _ _).1 h
    rw [minmaxSeqWindow_eq, minmaxSeqWindow_eq]
    have h0 : ((.fin a : D K).eq 0) = false := by
      rw [D.zero_def]; simpa using ha.ne'
    rw [h0]
    rfl
  | cons p0 rest =>
    obtain ⟨h1, h2, h3⟩ := C51_outcome_partial Sample.le x p0 rest h a b ha hab fuel
    obtain ⟨g1, g2, g3⟩ := C51_outcome_partial Sample.ge x p0 rest h a b ha hab fuel
    rcases hl : (p0 :: rest).filter fun p => decide (p0.1 + (b - a) < p.1) with _ | ⟨q, _ | ⟨r, l⟩⟩
    · rw [h2 hl, g2 hl]
    · rcases lt_or_ge q.1 (p0.1 + (b - a) + (b - a)) with h4 | h4
      · rw [(h3 q hl).1 h4, (g3 q hl).1 h4]
      · obtain ⟨k, hk1, hk2⟩ : ∃ k : Nat, p0.1 + k * a < q.1 - (b - a) ∧ q.1 - (b - a) ≤ p0.1 + (k + 1) * a := by
          obtain ⟨n, hn⟩ := Archimedean.arch (q.1 - (b - a) - p0.1) ha
          rw [nsmul_eq_mul] at hn
          have hex : ∃ n : Nat, q.1 - (b - a) ≤ p0.1 + (n + 1) * a := ⟨n, by linarith⟩
          classical
          refine ⟨Nat.find hex, ?_, Nat.find_spec hex⟩
          rcases hf : Nat.find hex with _ | m
          · have hm := List.mem_filter.1 (show q ∈ (p0 :: rest).filter _ by rw [hl]; simp)
            have := hm.2
            simp only [decide_eq_true_eq] at this
            push_cast; linarith
          · have := Nat.find_min hex (m := m) (by omega)
            push_cast; exact not_le.1 this
        rw [(h3 q hl).2 k h4 hk1 hk2, (g3 q hl).2 k h4 hk1 hk2]
    · have h4 : 2 ≤ ((p0 :: rest).filter fun p => decide (p0.1 + (b - a) < p.1)).length := by rw [hl]; simp
      rw [h1 h4, g1 h4]

example : minSeqWindow 8 (ofPts [((0 : ℚ), 1), (1, 5), (10, 2)]) (.fin 1) (.fin 3) =
    .ok (ofPts [(1, 13/3), (7, 13/3), (8, 2)]) := by decide +kernel

end Verif
