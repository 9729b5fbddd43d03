import Verif.Proofs.Pair

/-! # Negation of the values -/

set_option linter.unusedSectionVars false

namespace Verif
open Spec

variable {K : Type} [Field K] [LinearOrder K] [IsStrictOrderedRing K] [Arith K]

section odd
variable [OddArith K]

/-- Negation of values and derivatives. -/
def negMap : SMap K K where
  α := id
  ρ := id
  β := fun v => -v
  δ := fun v => -v
  lt' := fun _ _ => rfl
  eq' := fun _ _ => rfl
  diff' := fun _ _ => rfl
  add' := fun _ _ => rfl
  ρlt' := fun _ _ => rfl
  ρeq' := fun _ _ => rfl
  ρneg' := fun _ => rfl
  ρsub' := fun _ _ => rfl
  ρzero' := rfl
  slope' := fun x y t => by rw [D.neg_sub, D.neg_div]; rfl
  interp' := fun v d t => by rw [D.neg_mul, D.neg_add]; rfl
  zero' := D.neg_zero
  veq' := D.eq_neg
  deq' := D.eq_neg

/-- The signal with all samples negated. -/
def negSig (s : Signal K) : Signal K := ⟨s.samples.map Sample.neg⟩

theorem negMap_sig : (negMap.sig : Signal K → Signal K) = negSig := rfl
theorem negMap_smp : (negMap.smp : Sample K → Sample K) = Sample.neg := rfl

omit [IsStrictOrderedRing K] [Arith K] [OddArith K] in
@[simp] theorem Sample.neg_neg (a : Sample K) : a.neg.neg = a := by simp [Sample.neg]

omit [IsStrictOrderedRing K] [Arith K] [OddArith K] in
@[simp] theorem negSig_negSig (s : Signal K) : negSig (negSig s) = s := by
  simp [negSig, Function.comp_def]

theorem wf_negSig {s : Signal K} (h : WF s) : WF (negSig s) := negMap.wf h

theorem ge_neg (a b : Sample K) : Sample.ge a.neg b.neg = Sample.le a b := by
  simp [Sample.ge, Sample.le, Sample.gt, Sample.lt, Sample.neg, D.lt_neg]

theorem le_neg (a b : Sample K) : Sample.le a.neg b.neg = Sample.ge a b := by
  simp [Sample.ge, Sample.le, Sample.gt, Sample.lt, Sample.neg, D.lt_neg]

theorem negate_eq (x : Signal K) :
    RobustnessOp.negate x = (Signal.ofSamples x.samples).map' negSig :=
  negMap.ofSamples x.samples

theorem negate_wf {x : Signal K} (h : WF x) : RobustnessOp.negate x = .ok (negSig x) := by
  rw [negate_eq, ofSamples_wf h]; rfl

theorem temporal_neg_ge (r : RobustnessOp K) (y : Signal K) (i : Interval K) :
    r.temporal Sample.ge (negSig y) i = (r.temporal Sample.le y i).map' negSig :=
  SMap.temporal (φ := negMap) ge_neg r r rfl y i i rfl rfl

theorem temporal_neg_le (r : RobustnessOp K) (y : Signal K) (i : Interval K) :
    r.temporal Sample.le (negSig y) i = (r.temporal Sample.ge y i).map' negSig :=
  SMap.temporal (φ := negMap) le_neg r r rfl y i i rfl rfl

theorem minmaxSeq_neg_ge (y : Signal K) :
    minmaxSeq Sample.ge (negSig y) = (minmaxSeq Sample.le y).map' negSig :=
  SMap.minmaxSeq (φ := negMap) ge_neg y

theorem minmaxSeq_neg_le (y : Signal K) :
    minmaxSeq Sample.le (negSig y) = (minmaxSeq Sample.ge y).map' negSig :=
  SMap.minmaxSeq (φ := negMap) le_neg y

end odd

section exact
variable [ExactArith K]

theorem D.neg_div_neg {n d : D K} (hd : d ≠ .fin 0) : (-n) / (-d) = n / d := by
  cases d with
  | fin b =>
    have hb : b ≠ 0 := by rintro rfl; exact hd rfl
    have hb' : -b ≠ 0 := neg_ne_zero.2 hb
    cases n with
    | fin a => simp only [D.neg_fin, D.div_fin _ _ hb, D.div_fin _ _ hb', neg_div_neg_eq]
    | pinf =>
      change (if -b < 0 then (.pinf : D K) else .ninf) = (if b < 0 then .ninf else .pinf)
      rcases lt_or_gt_of_ne hb with h | h
      · rw [if_neg (by linarith), if_pos h]
      · rw [if_pos (by linarith), if_neg (by linarith)]
    | ninf =>
      change (if -b < 0 then (.ninf : D K) else .pinf) = (if b < 0 then .pinf else .ninf)
      rcases lt_or_gt_of_ne hb with h | h
      · rw [if_neg (by linarith), if_pos h]
      · rw [if_pos (by linarith), if_neg (by linarith)]
    | nan => simp
  | _ => cases n <;> rfl

theorem timeIntersect_neg {p q : Sample K} (hd : q.derivative - p.derivative ≠ .fin 0) :
    p.neg.timeIntersect q.neg = p.timeIntersect q := by
  unfold Sample.timeIntersect Sample.neg
  simp only [D.neg_sub, D.neg_mul, D.neg_add, D.neg_div_neg hd]

theorem minmaxPair_neg_ge (nd : Bool) {x y : Signal K} (hx : FinT x) (hy : FinT y) :
    minmaxPair nd Sample.ge (negSig x) (negSig y) false =
      (minmaxPair nd Sample.le x y false).map' negSig :=
  SMap.minmaxPair (φ := negMap) ge_neg
    (fun _ _ _ _ h hch => ⟨timeIntersect_neg (den_ne (.inl rfl) h hch),
      timeIntersect_neg (den_ne' (.inl rfl) h hch)⟩)
    (fun t => ⟨t, rfl⟩) nd hx hy (.inl rfl)

theorem minmaxPair_neg_le (nd : Bool) {x y : Signal K} (hx : FinT x) (hy : FinT y) :
    minmaxPair nd Sample.le (negSig x) (negSig y) false =
      (minmaxPair nd Sample.ge x y false).map' negSig :=
  SMap.minmaxPair (φ := negMap) le_neg
    (fun _ _ _ _ h hch => ⟨timeIntersect_neg (den_ne (.inr rfl) h hch),
      timeIntersect_neg (den_ne' (.inr rfl) h hch)⟩)
    (fun t => ⟨t, rfl⟩) nd hx hy (.inl rfl)

theorem finT_negSig {s : Signal K} (h : FinT s) : FinT (negSig s) :=
  wf_times_map (φ := negMap) h.1 h.2 (fun t => ⟨t, rfl⟩)

end exact

end Verif
