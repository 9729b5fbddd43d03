import Verif.Proofs.Reach
import Verif.Props.Rounding
import Verif.Props.SignalOps

/-!
# The class invariant of `Signal`: C102, and the algebra of its transformations: C103

C102 is false in binary64: `shift` adds to every timestamp without checking, and different timestamps may be
rounded to the same.
-/

set_option linter.unusedSectionVars false
set_option exponentiation.threshold 1100

namespace Verif
open Spec

/-! ## C102 -/

/-- Full statement of **C102**: whatever signal a program can obtain (with finite shifts) has strictly increasing
timestamps and derivatives that are the slopes. -/
def C102_statement (K : Type) [Field K] [LinearOrder K] [Arith K] : Prop :=
  ∀ s : Signal K, Obtainable (fun dt => ∃ q, dt = .fin q) s → WF s

/-- Two samples at the times 0 and 2^-60. -/
def nearPts : List (ℚ × ℚ) := [(0, 3), (1 / 2 ^ 60, 5)]

def nearSig : Signal B64 := ofPts (K := B64) nearPts

/-- `nearSig` shifted by 1. -/
def nearShifted : Signal B64 := nearSig.addTime (.fin (1 : ℚ))

theorem nearSig_wf : WF nearSig :=
  ((represents_iff (K := B64) _ _).2 ⟨(by simp [Increasing, nearPts] : Increasing nearPts), rfl⟩ :
    Represents nearSig nearPts).1

theorem nearSig_shift : nearSig.shift (.fin (1 : ℚ)) = .ok nearShifted := shift_wf nearSig_wf _

theorem C102_refuted : ¬ C102_statement B64 := by
  intro h
  have h1 : Obtainable (fun dt : D B64 => ∃ q, dt = .fin q) nearShifted :=
    .shift ⟨(1 : ℚ), rfl⟩ (.ofSamples (ofSamples_wf nearSig_wf)) nearSig_shift
  have h2 := (h _ h1).1.1
  revert h2
  decide +kernel

/-- Such a signal can be used, but not copied or shifted any more: the copy constructor throws. -/
theorem C102_copy_throws : ∃ x z : Signal B64, WF x ∧ x.shift (.fin (1 : ℚ)) = .ok z ∧
    Signal.ofSamples z.samples = .throw .invalidArgument ∧ z.shift (.fin (-1 : ℚ)) = .throw .invalidArgument := by
  have h : Signal.ofSamples nearShifted.samples = .throw .invalidArgument := by decide +kernel
  refine ⟨nearSig, nearShifted, nearSig_wf, nearSig_shift, h, ?_⟩
  unfold Signal.shift
  rw [h]
  rfl

section any
variable {K : Type} [Field K] [LinearOrder K] [IsStrictOrderedRing K] [Arith K]

/-- What holds of **C102** for every rounding (missing: `shift` and `resize_shift`): whatever is obtained by the other
members, by `synchronize` and `compute_robustness` from signals so obtained has strictly increasing timestamps and
derivatives that are the slopes. -/
theorem C102_other_partial (s : Signal K) (h : Obtainable (fun _ => False) s) : WF s :=
  wf_obtainable (fun _ h => h.elim) h

/-- What holds of **C102** in ideal arithmetic: everything. -/
theorem C102_exact_partial [ExactArith K] : C102_statement K := by
  intro s h
  refine wf_obtainable ?_ h
  rintro dt ⟨q, rfl⟩ s hs
  exact wf_addTime q hs

/-- What `shift` does for every monotone rounding: it keeps the number of samples, the values and derivatives, adds to
the times, and they do not get out of order (but may become equal). -/
theorem C102_order_partial [MonoArith K] (s : Signal K) (pts : List (K × K)) (h : Represents s pts) (dt : K) :
    ∃ z, s.shift (.fin dt) = .ok z ∧ z.samples.map Sample.value = s.samples.map Sample.value ∧
      z.samples.map Sample.derivative = s.samples.map Sample.derivative ∧
      z.samples.map Sample.time = pts.map (fun p => Arith.rnd (p.1 + dt)) ∧
      (z.samples.map Sample.time).Pairwise (fun a b => a.le b = true) := by
  have ht : s.samples.map Sample.time = pts.map (fun p => .fin p.1) := by
    have := congrArg (List.map Prod.fst) h.2
    simpa [List.map_map, Function.comp_def, tv, lift] using this
  have hz : (s.addTime (.fin dt)).samples.map Sample.time = pts.map (fun p => Arith.rnd (p.1 + dt)) := by
    have : (s.addTime (.fin dt)).samples.map Sample.time = (s.samples.map Sample.time).map (· + .fin dt) := by
      simp [Signal.addTime, List.map_map, Function.comp_def]
    rw [this, ht, List.map_map]
    rfl
  refine ⟨_, shift_wf h.1 _, by simp [Signal.addTime, List.map_map, Function.comp_def],
    by simp [Signal.addTime, List.map_map, Function.comp_def], hz, ?_⟩
  rw [hz, List.pairwise_map]
  have hi : Increasing pts := ((represents_iff _ _).1 h).1
  unfold Increasing at hi
  rw [List.pairwise_map] at hi
  exact hi.imp fun hab => MonoArith.rnd_mono _ _ (by linarith)

end any

/-- What holds of **C102** for `shift` in binary64: if successive timestamps are more than 2^-52 times the largest
shifted timestamp apart, then the timestamps after the shift are finite and strictly increasing, and right up to a
relative error of 2^-53.  (The derivatives are not adjusted to the rounded times.) -/
theorem C102_spacing_partial (s : Signal B64) (pts : List (ℚ × ℚ)) (h : Represents (K := B64) s pts) (dt H : ℚ)
    (hdt : IsB64 dt) (hp : ∀ p ∈ pts, IsB64 p.1 ∧ |p.1 + dt| ≤ H) (hH : H ≤ 2 ^ 1023)
    (hgap : pts.Pairwise fun p q => 1 / 2 ^ 52 * H < q.1 - p.1) :
    ∃ (z : Signal B64) (zs : List (ℚ × ℚ)), s.shift (D.fin (K := B64) dt) = .ok z ∧
      z.samples.map tv = zs.map (lift (K := B64)) ∧
      Increasing zs ∧ List.Forall₂ (fun p q : ℚ × ℚ => q.2 = p.2 ∧ |q.1 - (p.1 + dt)| ≤ 1 / 2 ^ 53 * |p.1 + dt|) pts zs := by
  have hr : ∀ p ∈ pts, ∃ r, B64.rnd (p.1 + dt) = .fin r ∧ B64.Near r (p.1 + dt) := fun p hm =>
    B64.rnd_sum (hp p hm).1 hdt ((hp p hm).2.trans hH)
  choose! g hg using hr
  refine ⟨_, pts.map (fun p => (g p, p.2)), shift_wf h.1 _, ?_, ?_, ?_⟩
  · have e1 : (s.addTime (D.fin (K := B64) dt)).samples.map tv =
        (s.samples.map tv).map (fun p => (p.1 + D.fin (K := B64) dt, p.2)) := by
      simp only [Signal.addTime, List.map_map, Function.comp_def]
      rfl
    have e2 : ∀ l : List (ℚ × ℚ), (∀ p ∈ l, B64.rnd (p.1 + dt) = .fin (g p)) →
        (l.map (lift (K := B64))).map (fun p => (p.1 + D.fin (K := B64) dt, p.2)) =
          (l.map (fun p => (g p, p.2))).map (lift (K := B64)) := by
      intro l hl
      induction l with
      | nil => rfl
      | cons p l ih =>
        exact congrArg₂ List.cons (Prod.ext (hl p List.mem_cons_self) rfl)
          (ih fun q hq => hl q (List.mem_cons_of_mem _ hq))
    exact e1.trans ((congrArg _ h.2).trans (e2 pts fun p hm => (hg p hm).1))
  · unfold Increasing
    rw [List.map_map, List.pairwise_map]
    refine (List.pairwise_iff_forall_sublist.2 fun {a b} hab => ?_)
    have ha := hab.subset (List.mem_cons_self)
    have hb := hab.subset (List.mem_cons_of_mem _ List.mem_cons_self)
    have hgp := List.pairwise_iff_forall_sublist.1 hgap hab
    exact B64.near_strict (hg a ha).2 (hg b hb).2 (hp a ha).2 (hp b hb).2 (by linarith)
  · rw [List.forall₂_map_right_iff, List.forall₂_same]
    exact fun p hm => ⟨rfl, (hg p hm).2⟩

-- the hypotheses of the last theorem hold for samples at 0, 1/10 (rounded) and 1 and a shift by 1000
example : IsB64 1000 ∧ ([0, 3602879701896397 / 2 ^ 55, 1] : List ℚ).Pairwise (fun a b => 1 / 2 ^ 52 * 1001 < b - a) ∧
    ∀ t ∈ ([0, 3602879701896397 / 2 ^ 55, 1] : List ℚ), IsB64 t ∧ |t + 1000| ≤ 1001 := by
  refine ⟨⟨1000, 0, by norm_num, by norm_num, by norm_num, by norm_num⟩, by norm_num, ?_⟩
  intro t ht
  simp only [List.mem_cons, List.not_mem_nil, or_false] at ht
  rcases ht with rfl | rfl | rfl
  · exact ⟨⟨0, 0, by norm_num, by norm_num, by norm_num, by norm_num⟩, by norm_num⟩
  · exact ⟨⟨3602879701896397, -55, by norm_num, by norm_num, by norm_num, by norm_num⟩, by norm_num [abs_le]⟩
  · exact ⟨⟨1, 0, by norm_num, by norm_num, by norm_num, by norm_num⟩, by norm_num [abs_le]⟩

-- a signal obtained in several steps
example : Obtainable (fun dt : D ℚ => ∃ q, dt = .fin q) (ofPts [(3, 0), (4, 2), (6, 2), (7, 0)]) :=
  .shift (s := ofPts [(0, 0), (1, 2), (3, 2), (4, 0)]) ⟨3, rfl⟩
    (.simplify (s := exSig) (.ofSamples (ofSamples_wf exSig_represents.1)) (by decide +kernel)) (by decide +kernel)

/-! ## C103 -/

section any
variable {K : Type} [Field K] [LinearOrder K] [IsStrictOrderedRing K] [Arith K]

/-- **C103.** `resize_shift` is `resize` followed by `shift`, for every rounding, for all signals and arguments,
including the exceptions. -/
theorem C103_resize_shift (s : Signal K) (a b fill dt : D K) :
    s.resizeShift a b fill dt = s.resize a b fill >>= fun z => z.shift dt := by
  unfold Signal.resizeShift
  exact Outcome.bind_congr_ok fun z hz => (shift_wf (wf_resize hz) dt).symm

end any

section exact
variable {K : Type} [Field K] [LinearOrder K] [IsStrictOrderedRing K] [Arith K] [ExactArith K]

theorem shift_map {s : Signal K} (h : WF s) (dt : K) : s.shift (.fin dt) = .ok ((shiftMap dt).sig s) := shift_wf h _

/-- **C103.** A signal can be shifted before or after it is resized. -/
theorem C103_shift_resize (s : Signal K) (h : WF s) (hne : s.samples ≠ []) (a b fill : D K) (dt : K) :
    (s.shift (.fin dt) >>= fun z => z.resize (a + .fin dt) (b + .fin dt) fill) =
      (s.resize a b fill >>= fun z => z.shift (.fin dt)) := by
  rw [shift_map h, Outcome.bind_ok]
  refine ((shiftMap dt).resize hne a b fill).trans ?_
  cases hz : s.resize a b fill with
  | ok z => exact (shift_map (wf_resize hz) dt).symm
  | throw e => rfl
  | abort => rfl
  | ub e => rfl
  | diverge => rfl

/-- **C103.** A signal can be shifted before or after it is simplified. -/
theorem C103_shift_simplify (s : Signal K) (h : WF s) (dt : K) :
    (s.shift (.fin dt) >>= fun z => z.simplify) = (s.simplify >>= fun z => z.shift (.fin dt)) := by
  rw [shift_map h, Outcome.bind_ok, (shiftMap dt).simplify]
  cases hz : s.simplify with
  | ok z => exact (shift_map (wf_simplify hz) dt).symm
  | throw e => rfl
  | abort => rfl
  | ub e => rfl
  | diverge => rfl

/-- **C103.** Two signals can be shifted before or after they are synchronized. -/
theorem C103_shift_synchronize (x y : Signal K) (hx : WF x) (hy : WF y) (nx : x.samples ≠ []) (ny : y.samples ≠ [])
    (dt : K) :
    (x.shift (.fin dt) >>= fun x' => y.shift (.fin dt) >>= fun y' => synchronize x' y') =
      (synchronize x y >>= fun p => p.1.shift (.fin dt) >>= fun x' => p.2.shift (.fin dt) >>= fun y' => .ok (x', y')) := by
  rw [shift_map hx, shift_map hy, Outcome.bind_ok, Outcome.bind_ok, (shiftMap dt).synchronize (.inr ⟨nx, ny⟩)]
  cases hz : synchronize x y with
  | ok p =>
    obtain ⟨z, z'⟩ := p
    rw [Outcome.bind_ok, shift_map (wf_synchronize hz).1, shift_map (wf_synchronize hz).2]
    rfl
  | throw e => rfl
  | abort => rfl
  | ub e => rfl
  | diverge => rfl

theorem resize_closed {l : List (K × K)} {p q : K × K} (hinc : Increasing (l ++ [p, q])) {a b : K} (fill : K) (hab : a < b)
    (hp : p.1 ≤ a) (hq : a < q.1) : (ofPts (l ++ [p, q])).resize (.fin a) (.fin b) (.fin fill) =
      .ok (ofPts [(a, line p q a), if q.1 ≤ b then q else (b, line p q b)]) := by
  obtain ⟨prev, hskip⟩ := resizeLoop_skip a b hab Signal.empty p [q] hp l none hinc
  unfold Signal.resize
  rw [beginTime_le hinc hp]
  simp only [Bool.false_eq_true, if_false, Outcome.bind_ok]
  rw [hskip, resizeLoop_two a b hab p q hp hq]

/-- **C103.** Resizing to [a, b] and then to [a', b'], where a' is in [a, b), is resizing to [a', min(b, b')] (if the
first call returns the restriction of the signal, which is when a is between the last two samples: C14). -/
theorem C103_resize_resize (s : Signal K) (l : List (K × K)) (p q : K × K) (h : Represents s (l ++ [p, q]))
    (a b fill a' b' fill' : K) (hp : p.1 ≤ a) (ha : a ≤ a') (hb : a' < b) (hb' : a' < b') (hq : a' < q.1) :
    (s.resize (.fin a) (.fin b) (.fin fill) >>= fun z => z.resize (.fin a') (.fin b') (.fin fill')) =
      s.resize (.fin a') (.fin (min b b')) (.fin fill') := by
  obtain ⟨hinc, rfl⟩ := (represents_iff _ _).1 h
  have hpq : p.1 < q.1 := hp.trans_lt (ha.trans_lt hq)
  rw [resize_closed hinc fill (ha.trans_lt hb) hp (ha.trans_lt hq),
    resize_closed hinc fill' (lt_min hb hb') (hp.trans ha) hq, Outcome.bind_ok]
  set z : K × K := if q.1 ≤ b then q else (b, line p q b) with hz
  have hz1 : z.1 = min b q.1 := by
    rw [hz]; split
    · rename_i hc; rw [min_eq_right hc]
    · rename_i hc; rw [min_eq_left (not_le.1 hc).le]
  have hz2 : z = (z.1, line p q z.1) := by
    rw [hz]; split
    · rw [line_right hpq]
    · rfl
  have haz : a < z.1 := by rw [hz1]; exact lt_min (ha.trans_lt hb) (ha.trans_lt hq)
  have hinc' : Increasing ([] ++ [(a, line p q a), z]) := by simp [Increasing, haz]
  refine (resize_closed hinc' fill' hb' ha (by rw [hz1]; exact lt_min hb hq)).trans ?_
  have hl : ∀ t, line (a, line p q a) z t = line p q t := fun t => by rw [hz2]; exact line_sub hpq haz
  rw [hl, hl, hz1]
  congr 3
  by_cases h1 : q.1 ≤ b
  · rw [min_eq_right h1]
    have e : z = q := by rw [hz, if_pos h1]
    rw [e]
    by_cases h2 : q.1 ≤ b'
    · rw [if_pos h2, if_pos (le_min h1 h2)]
    · rw [if_neg h2, if_neg (fun hc => h2 (hc.trans (min_le_right _ _))),
        min_eq_right ((not_le.1 h2).le.trans h1)]
  · have e : z = (b, line p q b) := by rw [hz, if_neg h1]
    have h1' := (not_le.1 h1).le
    have h3 : ¬ q.1 ≤ min b b' := fun hc => h1 (hc.trans (min_le_left _ _))
    rw [min_eq_left h1', e, if_neg h3]
    by_cases h2 : b ≤ b'
    · rw [if_pos h2, min_eq_left h2]
    · rw [if_neg h2, min_eq_right (not_le.1 h2).le]

end exact

-- resizing and shifting the signal (0,0), (1,2), (2,2), (3,2), (4,0)
example : exSig.resizeShift (.fin (7 / 2)) (.fin 5) (.fin 9) (.fin 10) = .ok (ofPts [(27 / 2, 1), (14, 0)]) := by
  decide +kernel
example : (exSig.resize (.fin 3) (.fin (15 / 4)) (.fin 9) >>= fun z => z.resize (.fin (7 / 2)) (.fin 5) (.fin 9)) =
    .ok (ofPts [(7 / 2, 1), (15 / 4, 1 / 2)]) := by decide +kernel

end Verif
