import Verif.Proofs.Shift
import Verif.Proofs.Perturb
import Verif.Spec.Relax

/-! # Formulas with other thresholds -/

set_option linter.unusedSectionVars false

namespace Verif
open Spec

section
variable {K : Type} [Field K] [LinearOrder K] [IsStrictOrderedRing K] [Arith K] [ExactArith K]

namespace RaisedD

@[simp] theorem fin (d q : K) : raised d (.fin q) = .fin (q + d) := rfl
@[simp] theorem pinf (d : K) : raised d .pinf = .pinf := rfl
@[simp] theorem ninf (d : K) : raised d .ninf = .ninf := rfl
@[simp] theorem nan (d : K) : raised d .nan = .nan := rfl

theorem lt (d : K) (a b : D K) : (raised d a).lt (raised d b) = a.lt b := by
  cases a <;> cases b <;> simp [D.lt]

theorem eq (d : K) (a b : D K) : (raised d a).eq (raised d b) = a.eq b := by
  cases a <;> cases b <;> simp [D.eq]

theorem neg (d : K) (a : D K) : -raised (-d) a = raised d (-a) := by
  cases a with
  | fin q => show D.fin (-(q + -d)) = D.fin (-q + d); congr 1; ring
  | _ => rfl

theorem sub (d : K) (a b : D K) : raised d a - raised d b = a - b := by
  cases a <;> cases b <;> first | rfl | (simp only [fin, D.sub_fin]; congr 1; ring)

theorem add_left (d : K) (a b : D K) : raised d a + b = raised d (a + b) := by
  cases a <;> cases b <;> first | rfl | (simp only [fin, D.add_fin]; congr 1; ring)

theorem add_right (d : K) (a b : D K) : a + raised d b = raised d (a + b) := by
  cases a <;> cases b <;> first | rfl | (simp only [fin, D.add_fin]; congr 1; ring)

theorem sub_left (d : K) (a b : D K) : raised d a - b = raised d (a - b) := by
  rw [D.sub_def, add_left, ← D.sub_def]

theorem sub_right (d : K) (a b : D K) : a - raised (-d) b = raised d (a - b) := by
  rw [D.sub_def, neg, add_right, ← D.sub_def]

end RaisedD

/-- Add `d` to the values. -/
def raiseMap (d : K) : SMap K K where
  α := id
  ρ := id
  β := raised d
  δ := id
  lt' := fun _ _ => rfl
  eq' := fun _ _ => rfl
  diff' := fun _ _ => rfl
  add' := fun _ _ => rfl
  ρlt' := fun _ _ => rfl
  ρeq' := fun _ _ => rfl
  ρneg' := fun _ => rfl
  ρsub' := fun _ _ => rfl
  ρzero' := rfl
  slope' := fun x y t => by rw [RaisedD.sub]; rfl
  interp' := fun v s t => by rw [RaisedD.add_left]; rfl
  zero' := rfl
  veq' := RaisedD.eq d
  deq' := fun _ _ => rfl

section
variable (d : K)

/-- The crossing stays where it is. -/
theorem timeIntersect_raise (p q : Sample K) :
    ((raiseMap d).smp p).timeIntersect ((raiseMap d).smp q) = (raiseMap d).α (p.timeIntersect q) := by
  unfold Sample.timeIntersect
  simp only [SMap.smp, raiseMap, id, RaisedD.sub]

theorem raise_ge (x y : Sample K) : Sample.ge ((raiseMap d).smp x) ((raiseMap d).smp y) = Sample.ge x y := by
  show (!(raised d x.value).lt (raised d y.value)) = !x.value.lt y.value
  rw [RaisedD.lt]
theorem raise_le (x y : Sample K) : Sample.le ((raiseMap d).smp x) ((raiseMap d).smp y) = Sample.le x y := by
  show (!(raised d y.value).lt (raised d x.value)) = !y.value.lt x.value
  rw [RaisedD.lt]

theorem raise_cmp {comp : Cmp K} (hm : MinOrMax comp) (x y : Sample K) :
    comp ((raiseMap d).smp x) ((raiseMap d).smp y) = comp x y := by
  rcases hm with rfl | rfl
  · exact raise_le d x y
  · exact raise_ge d x y

theorem minmaxPair_raise {comp : Cmp K} (hm : MinOrMax comp) (nd : Bool) {x y : Signal K} (hx : FinT x)
    (hy : FinT y) :
    minmaxPair nd comp ((raiseMap d).sig x) ((raiseMap d).sig y) false =
      (minmaxPair nd comp x y false).map' (raiseMap d).sig :=
  SMap.minmaxPair (φ := raiseMap d) (raise_cmp d hm)
    (fun p q _ _ _ _ => ⟨timeIntersect_raise d p q, timeIntersect_raise d q p⟩)
    (fun t => ⟨t, rfl⟩) nd hx hy (.inl rfl)

theorem minmaxFold_raise {comp : Cmp K} (hm : MinOrMax comp) (nd : Bool) : ∀ (xs : List (Signal K))
    (acc : Signal K), FinT acc → (∀ x ∈ xs, FinT x) →
    minmaxFold nd comp false ((raiseMap d).sig acc) (xs.map (raiseMap d).sig) =
      (minmaxFold nd comp false acc xs).map' (raiseMap d).sig := by
  intro xs
  induction xs with
  | nil => intro acc _ _; rfl
  | cons x xs ih =>
    intro acc h1 hx
    rw [List.map_cons, minmaxFold, minmaxFold,
      minmaxPair_raise d hm nd h1 (hx x (by simp)), Outcome.bind_map', Outcome.map'_bind]
    apply Outcome.bind_congr_ok
    intro z hz
    exact ih z (minmaxPair_finT_exact hm h1 (hx x (by simp)) hz).1 fun y hy => hx y (by simp [hy])

theorem minmaxVec_raise {comp : Cmp K} (hm : MinOrMax comp) (nd : Bool) (xs : List (Signal K))
    (hx : ∀ x ∈ xs, FinT x) :
    minmaxVec nd comp (xs.map (raiseMap d).sig) false = (minmaxVec nd comp xs false).map' (raiseMap d).sig := by
  match xs with
  | [] =>
    have := SMap.pushBackTV (raiseMap d) Signal.empty 0 .ninf
    rw [SMap.sig_empty] at this
    exact this
  | [x] => rfl
  | [x, y] => exact minmaxPair_raise d hm nd (hx x (by simp)) (hx y (by simp))
  | x :: y :: w :: r =>
    exact minmaxFold_raise d hm nd (y :: w :: r) x (hx x (by simp)) fun s hs => hx s (by simp [hs])

end

theorem relaxArgs_length (d : K) (es : List (Expr K)) : (relaxArgs d es).length = es.length := by
  induction es with
  | nil => rfl
  | cons e es ih => simp [relaxArgs, ih]

mutual
theorem compute_relax (r : RobustnessOp K) (ht : TraceFin r.trace)
    (hm : (r.minTime, r.maxTime) = (.pinf, .ninf) ∨ ∃ a b, (r.minTime, r.maxTime) = (.fin a, .fin b)) :
    ∀ (d : K) (e : Expr K), NoUntil e → r.compute (relax d e) = (r.compute e).map' (raiseMap d).sig
  | d, .const b, _ => by
    rw [relax, RobustnessOp.compute, RobustnessOp.const]
    have := SMap.ofSamples (raiseMap d) [⟨r.minTime, if b then .pinf else .ninf, 0⟩, ⟨r.maxTime, if b then .pinf else .ninf, 0⟩]
    rw [← this]
    simp only [List.map_cons, List.map_nil, SMap.smp_mk0]
    cases b <;> rfl
  | d, .pred n op q, _ => by
    have key : ∀ q', (∀ v, RobustnessOp.predValue op q' v = raised d (RobustnessOp.predValue op q v)) →
        r.compute (.pred n op q') = (r.compute (.pred n op q)).map' (raiseMap d).sig := by
      intro q' h
      rw [RobustnessOp.compute, RobustnessOp.compute, RobustnessOp.pred, RobustnessOp.pred, Outcome.map'_bind]
      congr 1
      funext x
      rw [← SMap.ofSamples]
      simp only [List.map_map]
      congr 1
      refine List.map_congr_left fun s _ => ?_
      simp only [Function.comp, SMap.smp_mk0, h]
      rfl
    cases op
    all_goals
      rw [relax]
      apply key
      intro v
      simp only [RobustnessOp.predValue, RaisedD.sub_left, RaisedD.sub_right]
  | d, .not e, h => by
    have h' : NoUntil e := by cases h; assumption
    rw [relax, compute_not, compute_not, compute_relax r ht hm (-d) e h', Outcome.bind_map', Outcome.map'_bind]
    congr 1
    funext x
    unfold RobustnessOp.negate
    rw [← SMap.ofSamples]
    simp only [SMap.sig_samples, List.map_map]
    congr 1
    refine List.map_congr_left fun s _ => ?_
    simp only [Function.comp, Sample.neg, SMap.smp]
    congr 1
    exact RaisedD.neg d _
  | d, .and args, h => by
    have h' : ∀ e ∈ args, NoUntil e := by cases h; assumption
    rw [relax, compute_and, compute_and, computeArgs_relax r ht hm d args h', Outcome.bind_map',
      Outcome.map'_bind]
    apply Outcome.bind_congr_ok
    intro ys hys
    exact minmaxVec_raise d (.inl rfl) _ ys fun x hx => (computeArgs_finT r ht hm args ys hys x hx).1
  | d, .or args, h => by
    have h' : ∀ e ∈ args, NoUntil e := by cases h; assumption
    rw [relax, compute_or, compute_or, computeArgs_relax r ht hm d args h', Outcome.bind_map',
      Outcome.map'_bind]
    apply Outcome.bind_congr_ok
    intro ys hys
    exact minmaxVec_raise d (.inr rfl) _ ys fun x hx => (computeArgs_finT r ht hm args ys hys x hx).1
  | d, .always e i, h => by
    have h' : NoUntil e := by cases h; assumption
    rw [relax, compute_always, compute_always, compute_relax r ht hm d e h', Outcome.bind_map',
      Outcome.map'_bind]
    congr 1
    funext x
    exact SMap.temporal (φ := raiseMap d) (raise_le d) r r rfl x i i rfl rfl
  | d, .eventually e i, h => by
    have h' : NoUntil e := by cases h; assumption
    rw [relax, compute_eventually, compute_eventually, compute_relax r ht hm d e h', Outcome.bind_map',
      Outcome.map'_bind]
    congr 1
    funext x
    exact SMap.temporal (φ := raiseMap d) (raise_ge d) r r rfl x i i rfl rfl
  | _, .untl _ _ _, h => by cases h

theorem computeArgs_relax (r : RobustnessOp K) (ht : TraceFin r.trace)
    (hm : (r.minTime, r.maxTime) = (.pinf, .ninf) ∨ ∃ a b, (r.minTime, r.maxTime) = (.fin a, .fin b)) :
    ∀ (d : K) (es : List (Expr K)), (∀ e ∈ es, NoUntil e) →
      r.computeArgs (relaxArgs d es) = (r.computeArgs es).map' (fun ys => ys.map (raiseMap d).sig)
  | _, [], _ => rfl
  | d, e :: es, h => by
    rw [relaxArgs, RobustnessOp.computeArgs, RobustnessOp.computeArgs,
      compute_relax r ht hm d e (h e (by simp)), computeArgs_relax r ht hm d es fun e he => h e (by simp [he])]
    cases r.compute e with
    | ok x => cases r.computeArgs es <;> rfl
    | _ => rfl
end

end

/-! ## The semantics of formulas with other thresholds -/

theorem margin_ge_eased (v : ℝ) {lo hi c c' : ℝ} (h1 : lo ≤ c - c') (h2 : c - c' ≤ hi) :
    ((v - c : ℝ) : EReal) + lo ≤ ((v - c' : ℝ) : EReal) ∧ ((v - c' : ℝ) : EReal) ≤ ((v - c : ℝ) : EReal) + hi := by
  rw [← EReal.coe_add, ← EReal.coe_add, EReal.coe_le_coe_iff, EReal.coe_le_coe_iff]
  constructor <;> linarith

theorem margin_le_eased (v : ℝ) {lo hi c c' : ℝ} (h1 : lo ≤ c' - c) (h2 : c' - c ≤ hi) :
    ((c - v : ℝ) : EReal) + lo ≤ ((c' - v : ℝ) : EReal) ∧ ((c' - v : ℝ) : EReal) ≤ ((c - v : ℝ) : EReal) + hi := by
  rw [← EReal.coe_add, ← EReal.coe_add, EReal.coe_le_coe_iff, EReal.coe_le_coe_iff]
  constructor <;> linarith

theorem add_le_sub_neg (a b : EReal) (d : ℝ) : a + d ≤ b ↔ a ≤ b + ((-d : ℝ) : EReal) := by
  have := sub_le_iff a b (-d)
  rw [← this, EReal.coe_neg, sub_eq_add_neg, neg_neg]

mutual
/-- If every predicate gets easier by between `lo` and `hi`, so does the formula. -/
theorem rob_eased {T : ℝ} {x : String → ℝ → ℝ} : ∀ {lo hi : ℝ} {e e' : Expr ℝ}, Eased lo hi e e' → ∀ t,
    rob T x e t + lo ≤ rob T x e' t ∧ rob T x e' t ≤ rob T x e t + hi
  | _, _, _, _, .ge n h1 h2, t => by simp only [rob, margin]; exact margin_ge_eased _ h1 h2
  | _, _, _, _, .gt n h1 h2, t => by simp only [rob, margin]; exact margin_ge_eased _ h1 h2
  | _, _, _, _, .le n h1 h2, t => by simp only [rob, margin]; exact margin_le_eased _ h1 h2
  | _, _, _, _, .lt n h1 h2, t => by simp only [rob, margin]; exact margin_le_eased _ h1 h2
  | lo, hi, _, _, .not h, t => by
    obtain ⟨h1, h2⟩ := rob_eased h t
    simp only [rob]
    rw [add_le_sub_neg, neg_neg] at h1
    constructor
    · rw [add_le_sub_neg]
      exact neg_shift h2
    · exact neg_shift h1
  | lo, hi, _, _, .and h, t => by simp only [rob]; exact robAll_eased h t
  | lo, hi, _, _, .or h, t => by simp only [rob]; exact robAny_eased h t
  | lo, hi, _, _, .always (e := e) (e' := e') h, t => by
    have ih := fun t => rob_eased (T := T) (x := x) h t
    simp only [rob]
    constructor
    · refine le_iInf₂ fun t' ht' => ?_
      exact le_trans (add_mono' lo (iInf₂_le (f := fun t' _ => rob T x e t') t' ht')) (ih t').1
    · rw [← sub_le_iff]
      refine le_iInf₂ fun t' ht' => ?_
      rw [sub_le_iff]
      exact (iInf₂_le (f := fun t' _ => rob T x e' t') t' ht').trans (ih t').2
  | lo, hi, _, _, .eventually (e := e) (e' := e') h, t => by
    have ih := fun t => rob_eased (T := T) (x := x) h t
    simp only [rob]
    rw [add_le_sub_neg]
    constructor
    · refine iSup₂_le fun t' ht' => ?_
      exact ((add_le_sub_neg _ _ _).1 (ih t').1).trans
        (add_mono' _ (le_iSup₂ (f := fun t' _ => rob T x e' t') t' ht'))
    · refine iSup₂_le fun t' ht' => ?_
      exact (ih t').2.trans (add_mono' _ (le_iSup₂ (f := fun t' _ => rob T x e t') t' ht'))
  | lo, hi, _, _, .untl (e := e) (e' := e') (f := f) (f' := f') h h', t => by
    have ih := fun t => rob_eased (T := T) (x := x) h t
    have ih' := fun t => rob_eased (T := T) (x := x) h' t
    simp only [rob]
    rw [add_le_sub_neg]
    constructor
    · refine iSup₂_le fun t' ht' => ?_
      refine le_trans ?_ (add_mono' _ (le_iSup₂
        (f := fun t' _ => rob T x f' t' ⊓ ⨅ u ∈ Set.Icc t t', rob T x e' u) t' ht'))
      rw [← add_le_sub_neg]
      refine le_inf ?_ (le_iInf₂ fun u hu => ?_)
      · exact (add_mono' _ inf_le_left).trans (ih' t').1
      · exact (add_mono' _ (inf_le_right.trans (iInf₂_le (f := fun u _ => rob T x e u) u hu))).trans (ih u).1
    · refine iSup₂_le fun t' ht' => ?_
      refine le_trans ?_ (add_mono' _ (le_iSup₂
        (f := fun t' _ => rob T x f t' ⊓ ⨅ u ∈ Set.Icc t t', rob T x e u) t' ht'))
      rw [← sub_le_iff]
      refine le_inf ?_ (le_iInf₂ fun u hu => ?_)
      · rw [sub_le_iff]
        exact inf_le_left.trans (ih' t').2
      · rw [sub_le_iff]
        exact (inf_le_right.trans (iInf₂_le (f := fun u _ => rob T x e' u) u hu)).trans (ih u).2

theorem robAll_eased {T : ℝ} {x : String → ℝ → ℝ} : ∀ {lo hi : ℝ} {es es' : List (Expr ℝ)},
    EasedAll lo hi es es' → ∀ t,
    robAll T x es t + lo ≤ robAll T x es' t ∧ robAll T x es' t ≤ robAll T x es t + hi
  | lo, hi, _, _, .nil, t => by simp [robAll]
  | lo, hi, _, _, .cons h hs, t => by
    obtain ⟨h1, h2⟩ := rob_eased (T := T) (x := x) h t
    obtain ⟨h3, h4⟩ := robAll_eased (T := T) (x := x) hs t
    simp only [robAll]
    constructor
    · exact le_inf ((add_mono' _ inf_le_left).trans h1) ((add_mono' _ inf_le_right).trans h3)
    · rw [← sub_le_iff]
      refine le_inf ?_ ?_ <;> rw [sub_le_iff]
      · exact inf_le_left.trans h2
      · exact inf_le_right.trans h4

theorem robAny_eased {T : ℝ} {x : String → ℝ → ℝ} : ∀ {lo hi : ℝ} {es es' : List (Expr ℝ)},
    EasedAll lo hi es es' → ∀ t,
    robAny T x es t + lo ≤ robAny T x es' t ∧ robAny T x es' t ≤ robAny T x es t + hi
  | lo, hi, _, _, .nil, t => by simp [robAny]
  | lo, hi, _, _, .cons h hs, t => by
    obtain ⟨h1, h2⟩ := rob_eased (T := T) (x := x) h t
    obtain ⟨h3, h4⟩ := robAny_eased (T := T) (x := x) hs t
    simp only [robAny]
    rw [add_le_sub_neg] at h1 h3 ⊢
    constructor
    · exact sup_le (h1.trans (add_mono' _ le_sup_left)) (h3.trans (add_mono' _ le_sup_right))
    · exact sup_le (h2.trans (add_mono' _ le_sup_left)) (h4.trans (add_mono' _ le_sup_right))
end

end Verif
