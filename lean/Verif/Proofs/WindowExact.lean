import Verif.Proofs.SignalOps
import Verif.Proofs.Window
import Verif.Proofs.Equiv

/-! # The windowed extrema on finite signals in exact arithmetic -/

set_option linter.unusedSectionVars false

namespace Verif
open Spec

section
variable {α : Type}

/-- The update of a wedge with one element. -/
theorem monoWedgeUpdate_one (comp : α → α → Bool) (f v : α) :
    monoWedgeUpdate comp [f] v = .ok (if comp f v then [f, v] else [v]) := by
  cases h : comp f v <;>
    simp [monoWedgeUpdate, monoWedgeSearch, monoWedgeSearchLoop, lowerBound, lowerBoundLoop, isPartitioned, h]

theorem monoWedgeUpdate_nil (comp : α → α → Bool) (v : α) : monoWedgeUpdate comp [] v = .ok [v] := by
  simp [monoWedgeUpdate, monoWedgeSearch]

end

variable {K : Type} [Field K] [LinearOrder K] [IsStrictOrderedRing K] [Arith K] [ExactArith K]

/-- An increasing list splits at any time. -/
theorem split_late (c : K) : ∀ (pts : List (K × K)), Increasing pts →
    ∃ l, pts = l ++ pts.filter (fun p => decide (c < p.1)) ∧ ∀ p ∈ l, p.1 ≤ c
  | [], _ => ⟨[], rfl, by simp⟩
  | p :: pts, h => by
    obtain ⟨l, e, hl⟩ := split_late c pts (increasing_cons.1 h).2
    by_cases hp : c < p.1
    · refine ⟨[], ?_, by simp⟩
      rw [List.nil_append, List.filter_eq_self.2]
      intro q hq
      rcases List.mem_cons.1 hq with rfl | hq
      · simpa using hp
      · simpa using hp.trans ((increasing_cons.1 h).1 q hq)
    · refine ⟨p :: l, ?_, ?_⟩
      · rw [List.filter_cons_of_neg (by simpa using hp), List.cons_append, ← e]
      · intro q hq
        rcases List.mem_cons.1 hq with rfl | hq
        · exact not_lt.1 hp
        · exact hl q hq

/-- One round after an update: the only sample that is not expired is the new one. -/
theorem popExpired_step (comp : Cmp K) (a s t : K) (f i : Sample K) (hf : f.time = .fin s)
    (hi : i.time = .fin t) (ha : 0 < a) (hs : s ≤ t - a) :
    (popExpired (.fin (t - a)) (if comp f i then [f, i] else [i])) = .ok [i] := by
  have h1 : ¬ t ≤ t - a := not_le.2 (sub_lt_self t ha)
  split <;> simp [popExpired, hf, hi, hs, h1]

theorem popExpired_last (comp : Cmp K) (a t : K) (f i : Sample K)
    (hi : i.time = .fin t) (ha : 0 < a) :
    ∃ w, (popExpired (.fin (t - a)) (if comp f i then [f, i] else [i])) = .ok w := by
  have h1 : ¬ t ≤ t - a := not_le.2 (sub_lt_self t ha)
  split
  · rw [popExpired]
    split
    · exact ⟨[i], by simp [popExpired, hi, h1]⟩
    · exact ⟨_, rfl⟩
  · exact ⟨[i], by simp [popExpired, hi, h1]⟩

/-- The points `(s + j a, v)` for `j = 1, ..., k`. -/
def holdPts (s a v : K) : Nat → List (K × K)
  | 0 => []
  | k + 1 => (s + a, v) :: holdPts (s + a) a v k

/-- A round that inserts a sample. -/
theorem windowLoop_ins (comp : Cmp K) {a s T v d : K} (ha : 0 < a) (hT : s < T - a) (fuel : Nat)
    (p : Sample K) (hp : p = ⟨.fin s, .fin v, .fin d⟩) (i : Sample K) (hi : i.time = .fin T) (rest : List (Sample K))
    (zs : List (K × K)) (hz : ∀ q, zs.getLast? = some q → q.1 < s + a) :
    windowLoop comp (.fin a) (fuel + 1) (some p) (i :: rest) [p] (ofPts zs) =
      windowLoop comp (.fin a) fuel (some ⟨.fin (s + a), .fin (v + d * a), 0⟩) (i :: rest)
        [⟨.fin (s + a), .fin (v + d * a), 0⟩] (ofPts (zs ++ [(s + a, v + d * a)])) := by
  have e0 : (vback [p].head?.toList : Outcome (Sample K)) = .ok p := rfl
  rw [SMap.windowLoop_cons, e0, Outcome.bind_ok]
  have e1 : p.time.lt (i.time - .fin a) = true := by
    rw [hp, hi, D.sub_fin]; simpa using hT
  have hadd : (D.fin s + D.fin a : D K) = .fin (s + a) := D.add_fin _ _
  have e2 : p.interpolate (.fin (s + a)) = .fin (v + d * a) := by
    rw [hp, interpolate_fin]; simp
  have e3 : p.time + .fin a = .fin (s + a) := by rw [hp]; exact hadd
  simp only [e1, if_true, derefPrev, Outcome.map'_ok, Outcome.bind_ok, e2, e3, D.sub_fin]
  rw [monoWedgeUpdate_one, Outcome.bind_ok,
    popExpired_step comp a s (s + a) p ⟨.fin (s + a), .fin (v + d * a), 0⟩ (by rw [hp]) rfl ha (by simp), Outcome.bind_ok]
  have e4 : (ofPts zs).pushBackTV (.fin (s + a)) (.fin (v + d * a)) = .ok (ofPts (zs ++ [(s + a, v + d * a)])) := by
    rcases List.eq_nil_or_concat zs with rfl | ⟨l, q, rfl⟩
    · rfl
    · rw [List.concat_eq_append] at hz ⊢
      exact pushBack_snoc l q (s + a, v + d * a) 0 (hz q (by simp))
  rw [e4, Outcome.bind_ok]

/-- The last round. -/
theorem windowLoop_last (comp : Cmp K) {a s T vl : K} (ha : 0 < a) (hT : T - a ≤ s) (fuel : Nat)
    (p : Sample K) (prev : Option (Sample K)) (hp : p.time = .fin s) (d : D K)
    (zs : List (K × K)) (hz : ∀ q, zs.getLast? = some q → q.1 < T) :
    windowLoop comp (.fin a) (fuel + 1) prev [⟨.fin T, .fin vl, d⟩] [p] (ofPts zs) =
      .ok (ofPts (zs ++ [(T, vl)])) := by
  have e0 : (vback [p].head?.toList : Outcome (Sample K)) = .ok p := rfl
  rw [SMap.windowLoop_cons, e0, Outcome.bind_ok]
  have e1 : p.time.lt (.fin (T - a)) = false := by
    rw [hp]; simpa using hT
  simp only [D.sub_fin, e1, Bool.false_eq_true, if_false, Outcome.bind_ok]
  rw [monoWedgeUpdate_one, Outcome.bind_ok]
  obtain ⟨w, hw⟩ := popExpired_last comp a T p ⟨.fin T, .fin vl, d⟩ rfl ha
  rw [hw, Outcome.bind_ok]
  have e4 : (ofPts zs).pushBackTV (.fin T) (.fin vl) = .ok (ofPts (zs ++ [(T, vl)])) := by
    rcases List.eq_nil_or_concat zs with rfl | ⟨l, q, rfl⟩
    · rfl
    · rw [List.concat_eq_append] at hz ⊢
      exact pushBack_snoc l q (T, vl) 0 (hz q (by simp))
  rw [e4, Outcome.bind_ok]; simp [windowLoop]

/-- The rounds after the first inserted sample: the inserted samples have derivative 0, so that the value is
held. -/
theorem windowLoop_hold (comp : Cmp K) {a v vl : K} (ha : 0 < a) (T : K) (d : D K) : ∀ (k : Nat) (s : K)
    (zs : List (K × K)) (fuel : Nat), s + k * a < T → T ≤ s + (k + 1) * a →
    (∀ q, zs.getLast? = some q → q.1 ≤ s) →
    windowLoop comp (.fin a) fuel (some ⟨.fin s, .fin v, 0⟩) [⟨.fin T, .fin vl, d⟩] [⟨.fin s, .fin v, 0⟩] (ofPts zs) =
      if fuel ≤ k then .diverge else .ok (ofPts (zs ++ holdPts s a v k ++ [(T, vl)])) := by
  intro k
  induction k with
  | zero =>
    intro s zs fuel h1 h2 hz
    cases fuel with
    | zero => simp [windowLoop]
    | succ fuel =>
      rw [if_neg (by simp), windowLoop_last comp ha (s := s) (by simp at h2; linarith) _ _ _ rfl]
      · simp [holdPts]
      · intro q hq
        refine (hz q hq).trans_lt ?_
        simpa using h1
  | succ k ih =>
    intro s zs fuel h1 h2 hz
    push_cast at h1 h2
    cases fuel with
    | zero => simp [windowLoop]
    | succ fuel =>
      have hk : (0 : K) ≤ k * a := mul_nonneg (Nat.cast_nonneg _) ha.le
      have e1 := windowLoop_ins comp (d := 0) (v := v) ha (s := s) (T := T) (by linarith) fuel ⟨.fin s, .fin v, 0⟩ rfl
        ⟨.fin T, .fin vl, d⟩ rfl [] zs (fun q hq => (hz q hq).trans_lt (by linarith))
      have e : v + 0 * a = v := by ring
      rw [e] at e1
      rw [e1, ih (s + a) _ fuel (by linarith) (by linarith) (by simp)]
      simp [holdPts]

theorem holdPts_mem (a v : K) : ∀ (k : Nat) (s : K) (p : K × K), p ∈ holdPts s a v k →
    p.2 = v ∧ ∃ j : Nat, 1 ≤ j ∧ j ≤ k ∧ p.1 = s + j * a
  | 0, _, _, h => by simp [holdPts] at h
  | k + 1, s, p, h => by
    rcases List.mem_cons.1 h with rfl | h
    · exact ⟨rfl, 1, le_rfl, by omega, by simp⟩
    · obtain ⟨h1, j, h2, h3, h4⟩ := holdPts_mem a v k (s + a) p h
      exact ⟨h1, j + 1, by omega, by omega, by rw [h4]; push_cast; ring⟩

theorem holdPts_increasing {a : K} (ha : 0 < a) (v T vl : K) : ∀ (k : Nat) (s : K), s + k * a < T →
    Increasing (holdPts s a v k ++ [(T, vl)])
  | 0, s, _ => by simp [holdPts, increasing_single]
  | k + 1, s, h => by
    rw [holdPts, List.cons_append, increasing_cons]
    push_cast at h
    refine ⟨?_, holdPts_increasing ha v T vl k (s + a) (by linarith)⟩
    intro q hq
    rcases List.mem_append.1 hq with hq | hq
    · obtain ⟨-, j, h2, -, h4⟩ := holdPts_mem a v k (s + a) q hq
      rw [h4]
      have : (1 : K) ≤ j := by exact_mod_cast h2
      have := mul_pos (lt_of_lt_of_le zero_lt_one this) ha
      simpa using this
    · simp at hq; subst hq
      have : (0 : K) ≤ k * a := mul_nonneg (Nat.cast_nonneg _) ha.le
      dsimp only; linarith

/-- What `simplify` leaves of the held value. -/
theorem keep_holdPts (a v T vl : K) : ∀ (k : Nat) (s : K),
    keep v (holdPts s a v k ++ [(T, vl)]) =
      (if 1 ≤ k ∧ vl ≠ v then [(s + k * a, v)] else []) ++ [(T, vl)]
  | 0, s => by simp [holdPts, keep]
  | 1, s => by
    by_cases h : vl = v <;> simp [holdPts, keep, h]
  | k + 2, s => by
    have ih := keep_holdPts a v T vl (k + 1) (s + a)
    rw [holdPts, List.cons_append]
    rw [show holdPts (s + a) a v (k + 1) ++ [(T, vl)] = (s + a + a, v) :: (holdPts (s + a + a) a v k ++ [(T, vl)]) from rfl]
      at ih ⊢
    rw [keep, if_pos ⟨rfl, rfl⟩, ih]
    congr 1
    have e : s + a + ((k + 1 : ℕ) : K) * a = s + ((k + 2 : ℕ) : K) * a := by push_cast; ring
    rw [e]
    by_cases h : vl = v <;> simp [h]

/-- The points that the windowed version returns: `s` is the begin, `T` the last sample's time (after the
shift), `v` the held value, `k` the number of inserted samples. -/
def windowPts (s a v T vl : K) : Nat → List (K × K)
  | 0 => [(T, vl)]
  | k + 1 => (s + a, v) :: ((if 1 ≤ k ∧ vl ≠ v then [(s + (k + 1) * a, v)] else []) ++ [(T, vl)])

theorem resizeShift_eq (x : Signal K) (s e f dt : D K) :
    x.resizeShift s e f dt = (x.resize s e f).map' (fun o => o.addTime dt) := by
  unfold Signal.resizeShift
  cases x.resize s e f <;> rfl

/-- The window after the first loop, and the rest, for two samples. -/
theorem window_two (comp : Cmp K) {s w T v0 vl a : K} (hw : 0 < w) (hT : s < T) (fuel : Nat) :
    (windowFill comp (.fin (s + w)) none (ofPts [(s, v0), (T, vl)]).samples [] >>= fun p =>
        windowLoop comp (.fin a) fuel p.1 p.2.1 p.2.2 Signal.empty >>= fun z => z.simplify) =
      if T < s + w then .ub .derefEnd else
        windowLoop comp (.fin a) fuel (some ⟨.fin s, .fin v0, .fin ((vl - v0) / (T - s))⟩) [⟨.fin T, .fin vl, 0⟩]
          [⟨.fin s, .fin v0, .fin ((vl - v0) / (T - s))⟩] (ofPts []) >>= fun z => z.simplify := by
  rw [samples_cons₂ [] hT]
  have e : (ofPts [(T, vl)]).samples = [⟨.fin T, .fin vl, 0⟩] := rfl
  rw [e, windowFill, if_pos (by simpa using hw), monoWedgeUpdate_nil, Outcome.bind_ok, windowFill]
  by_cases h : T < s + w
  · rw [if_pos (by simpa using h), if_pos h, monoWedgeUpdate_one, Outcome.bind_ok, windowFill]
    rfl
  · rw [if_neg (by simpa using h), if_neg h]
    rfl

/-- The call after the resize. -/
theorem minmaxSeqWindow_resized (comp : Cmp K) (l : List (K × K)) (p0 q : K × K) (rest : List (K × K))
    (hl : p0 :: rest = l ++ [q]) (a b : K) (ha : 0 < a) (fuel : Nat) :
    minmaxSeqWindow fuel comp (ofPts (p0 :: rest)) (.fin a) (.fin b) =
      (((ofPts (p0 :: rest)).resize (.fin (p0.1 + (b - a))) (.fin (q.1 + (b - a))) (.fin q.2)).map'
          fun o => o.addTime (.fin (-(b - a)))) >>= fun x' =>
        windowFill comp (.fin (p0.1 + (b - a))) none x'.samples [] >>= fun p =>
        windowLoop comp (.fin a) fuel p.1 p.2.1 p.2.2 Signal.empty >>= fun z => z.simplify := by
  rw [minmaxSeqWindow_eq]
  have h0 : ((.fin a : D K).eq 0) = false := by
    rw [D.zero_def]; simpa using ha.ne'
  have hlast : (ofPts (p0 :: rest)).samples.getLast? = some ⟨.fin q.1, .fin q.2, 0⟩ := by
    rw [hl, ofPts, List.map_append]
    exact build_append_singleton _ _
  have hback : (ofPts (p0 :: rest)).back = .ok ⟨.fin q.1, .fin q.2, 0⟩ := by
    rw [Signal.back, hlast]
  have hend : (ofPts (p0 :: rest)).endTime = .fin q.1 := by
    rw [Signal.endTime, hlast]
  rw [h0, hback, ofPts_beginTime, hend]
  simp only [Bool.false_eq_true, if_false, Outcome.bind_ok, D.sub_fin, D.add_fin, D.neg_fin, resizeShift_eq]

/-- The held value and `simplify`. -/
theorem simplify_holdPts {a : K} (ha : 0 < a) (s v T vl : K) (k : Nat) (hT : s + k * a < T) :
    (ofPts (holdPts s a v k ++ [(T, vl)])).simplify = .ok (ofPts (windowPts s a v T vl k)) := by
  have hinc := holdPts_increasing ha v T vl k s hT
  cases k with
  | zero =>
    rw [holdPts, List.nil_append, simplify_fin _ _ (by simp [increasing_single])]
    rfl
  | succ k =>
    rw [holdPts, List.cons_append] at hinc ⊢
    rw [simplify_fin _ _ hinc, keep_holdPts, windowPts]
    have : s + a + (k : K) * a = s + (k + 1) * a := by ring
    rw [this]

end Verif
