import Verif.Props.Start
import Verif.Props.Synchronize

/-!
# Independence of the sampling: C70
-/

set_option linter.unusedSectionVars false

namespace Verif
open Spec

/-- Two lists of points that are samples of the same function. -/
def SameFunction {K : Type} [Field K] [LinearOrder K] (xs ys : List (K × K)) : Prop :=
  dom xs = dom ys ∧ ∀ t ∈ dom xs, eval xs t = eval ys t

/-- The claim of C70: the robustness at a time depends on the functions that the signals are samples of, and
not on where they are sampled. -/
def SamplingIrrelevant (K : Type) [Field K] [LinearOrder K] [Arith K] : Prop :=
  ∀ (nd : Bool) (fuel : Nat) (phi : Expr K) (trace trace' : Trace K) (sy : Bool),
    (∀ n, Uses n phi → ∃ x x' xs xs', trace.lookup n = some x ∧ Represents x xs ∧
      trace'.lookup n = some x' ∧ Represents x' xs' ∧ SameFunction xs xs') →
    ∀ z z' zs zs', computeRobustness nd fuel phi trace sy = .ok z → Represents z zs →
      computeRobustness nd fuel phi trace' sy = .ok z' → Represents z' zs' → SameFunction zs zs'

/-! ## C70 -/

def rsX : List (ℚ × ℚ) := [(0, 3), (2, 0), (4, 2)]
/-- The same function with a sample in the middle of the first segment. -/
def rsY : List (ℚ × ℚ) := [(0, 3), (1, 3/2), (2, 0), (4, 2)]

theorem rs_same : SameFunction rsX rsY := by
  refine ⟨?_, ?_⟩
  · ext t
    simp only [rsX, rsY, dom, List.mem_cons, List.not_mem_nil, or_false, exists_eq_or_imp, exists_eq_left,
      Set.mem_ofPred_eq]
    constructor
    · rintro ⟨h1, h2⟩
      exact ⟨by rcases h1 with h | h | h <;> simp [h], by rcases h2 with h | h | h <;> simp [h]⟩
    · rintro ⟨h1, h2⟩
      refine ⟨.inl ?_, .inr (.inr ?_)⟩
      · rcases h1 with h | h | h | h <;> linarith
      · rcases h2 with h | h | h | h <;> linarith
  · intro t _
    simp only [rsX, rsY, eval, line]
    by_cases h1 : t ≤ 1
    · rw [if_pos (by linarith), if_pos h1]; ring
    · rw [if_neg h1]
      by_cases h2 : t ≤ 2
      · rw [if_pos h2, if_pos h2]; ring
      · rw [if_neg h2, if_neg h2]

def rsPhi : Expr ℚ := .eventually (.pred "x" .GE 0) ⟨.dbl 0, .dbl .pinf⟩

/-- **C70 is false**: `F (x >= 0)` has at time 1 the robustness 5/2, and 2 if `x` is sampled there.  (2 is
right.) -/
theorem C70_refuted : ¬ SamplingIrrelevant ℚ := by
  intro h
  have iX : Increasing rsX := by unfold Increasing; decide +kernel
  have iY : Increasing rsY := by unfold Increasing; decide +kernel
  have := h false 0 rsPhi [("x", ofPts rsX)] [("x", ofPts rsY)] false
    (by
      intro n hn
      have : n = "x" := by cases hn with | eventually h => cases h; rfl
      subst this
      exact ⟨_, _, rsX, rsY, rfl, represents_ofPts iX, rfl, represents_ofPts iY, rs_same⟩)
    (ofPts [(0, 3), (2, 2), (4, 2)]) (ofPts [(0, 3), (1, 2), (2, 2), (4, 2)])
    [(0, 3), (2, 2), (4, 2)] [(0, 3), (1, 2), (2, 2), (4, 2)] (by decide +kernel)
    (represents_ofPts (by unfold Increasing; decide +kernel)) (by decide +kernel)
    (represents_ofPts (by unfold Increasing; decide +kernel))
  have := this.2 1 ⟨⟨(0, 3), by simp, by norm_num⟩, ⟨(4, 2), by simp, by norm_num⟩⟩
  norm_num [eval, line] at this

/-- **C70, partial:** for the formulas of C61 the value at the start of the trace does not depend on the
sampling, and for formulas of predicates, Not, And and Or the value at no time does.  Missing: later times
of formulas with temporal operators, where the claim is false. -/
theorem C70_resample_partial (nd : Bool) (fuel : Nat) (trace trace' : Trace ℝ) (sy : Bool) (t0 T : ℝ)
    (sig sig' : String → List (ℝ × ℝ)) (phi : Expr ℝ) (hp : Combination phi)
    (hs : Aligned trace t0 sig phi) (hs' : Aligned trace' t0 sig' phi)
    (hT : ∀ n, Uses n phi → dom (sig n) = Set.Icc t0 T)
    (hf : ∀ n, Uses n phi → SameFunction (sig n) (sig' n)) :
    ∃ z zs z' zs', computeRobustness nd fuel phi trace sy = .ok z ∧ Represents z zs ∧
      computeRobustness nd fuel phi trace' sy = .ok z' ∧ Represents z' zs' ∧
      eval zs t0 = eval zs' t0 ∧ (Propositional phi → ∀ t ∈ Set.Icc t0 T, eval zs t = eval zs' t) := by
  obtain ⟨z, zs, z', zs', h1, h2, h3, h4, h5, h6⟩ := C62_lipschitz nd fuel trace trace' sy t0 T 0 sig sig' phi hp
    hs hs' hT (fun n hn => by rw [← (hf n hn).1, hT n hn])
    (fun n hn t ht => by
      show |eval (sig n) t - eval (sig' n) t| ≤ 0
      rw [(hf n hn).2 t (by rw [hT n hn]; exact ht), sub_self, abs_zero])
  refine ⟨z, zs, z', zs', h1, h2, h3, h4, ?_, fun hpp t ht => ?_⟩
  · exact sub_eq_zero.1 (abs_nonpos_iff.1 h5)
  · exact sub_eq_zero.1 (abs_nonpos_iff.1 (h6 hpp t ht))

section exact
variable {K : Type} [Field K] [LinearOrder K] [IsStrictOrderedRing K] [Arith K] [ExactArith K]

/-- The points of the robustness of a predicate. -/
theorem pred_points (nd : Bool) (fuel : Nat) (name : String) (op : ComparisonOp) (c : K) :
    ∃ a b : K, ∀ (trace : Trace K) (sy : Bool) (xs : List (K × K)), Increasing xs →
      trace.lookup name = some (ofPts xs) →
      computeRobustness nd fuel (.pred name op (.fin c)) trace sy =
        .ok (ofPts (xs.map fun p => (p.1, a * p.2 + b))) := by
  obtain ⟨a, b, hab⟩ : ∃ a b : K, ∀ v : K, RobustnessOp.predValue op (.fin c) (.fin v) = .fin (a * v + b) := by
    cases op
    · exact ⟨1, -c, by intro v; simp [RobustnessOp.predValue]; ring⟩
    · exact ⟨1, -c, by intro v; simp [RobustnessOp.predValue]; ring⟩
    · exact ⟨-1, c, by intro v; simp [RobustnessOp.predValue]; ring⟩
    · exact ⟨-1, c, by intro v; simp [RobustnessOp.predValue]; ring⟩
  refine ⟨a, b, fun trace sy xs hi hl => ?_⟩
  have hz : Increasing (xs.map fun p => (p.1, a * p.2 + b)) := by
    unfold Increasing; rw [List.map_map]; exact hi
  unfold computeRobustness
  rw [RobustnessOp.compute, RobustnessOp.pred, lookup_at hl, Outcome.bind_ok]
  apply ofSamples_pts hz
  have h3 : List.map tv (List.map (fun s => (⟨s.time, RobustnessOp.predValue op (.fin c) s.value, 0⟩ : Sample K))
      (ofPts xs).samples) =
      ((ofPts xs).samples.map tv).map fun p => (p.1, RobustnessOp.predValue op (.fin c) p.2) := by
    simp [tv]
  rw [h3, (represents_ofPts hi).2]
  simp [lift, hab]

theorem sampleAt_fst (f : K → K) (ts : List K) : (sampleAt f ts).map Prod.fst = ts := by
  rw [sampleAt, List.map_map]; exact List.map_id'' (fun _ => rfl) ts

/-- Synchronizing first and applying affine functions then is the same as the other way round. -/
theorem sync_affine {xs ys : List (K × K)} (ix : Increasing xs) (iy : Increasing ys) {x' y' : Signal K}
    (h : synchronize (ofPts xs) (ofPts ys) = .ok (x', y')) (a b c d : K) :
    ∃ us vs, Increasing us ∧ Increasing vs ∧ x' = ofPts us ∧ y' = ofPts vs ∧
      synchronize (ofPts (xs.map fun p => (p.1, a * p.2 + b))) (ofPts (ys.map fun p => (p.1, c * p.2 + d))) =
      synchronize (ofPts (us.map fun p => (p.1, a * p.2 + b))) (ofPts (vs.map fun p => (p.1, c * p.2 + d))) := by
  obtain ⟨e, e1, e2, e3⟩ := sync_fin_ok ix iy h
  obtain ⟨ts, t1, t2, t3, t4, t5, -, -⟩ := sync_fin_iff ix iy e e1 e2 e3
  rw [h] at t3
  simp only [Outcome.ok.injEq, Prod.mk.injEq] at t3
  have hx : xs ≠ [] := by rintro rfl; simp at e1
  have hy : ys ≠ [] := by rintro rfl; simp at e2
  have fst_map : ∀ (l : List (K × K)) (a b : K), (l.map fun p => (p.1, a * p.2 + b)).map Prod.fst =
      l.map Prod.fst := by intro l a b; rw [List.map_map]; rfl
  have inc_map : ∀ {l : List (K × K)} (a b : K), Increasing l → Increasing (l.map fun p => (p.1, a * p.2 + b)) := by
    intro l a b h; unfold Increasing; rw [fst_map]; exact h
  have dm : ∀ (l : List (K × K)) (a b : K), dom (l.map fun p => (p.1, a * p.2 + b)) = dom l :=
    fun l a b => dom_map_snd l fun p => a * p.2 + b
  have jx := (increasing_sampleAt (eval xs) ts).2 t1
  have jy := (increasing_sampleAt (eval ys) ts).2 t1
  refine ⟨_, _, jx, jy, t3.1, t3.2, ?_⟩
  obtain ⟨us, u1, u2, u3, -⟩ := sync_fin_iff (inc_map a b ix) (inc_map c d iy) e (by rw [fst_map]; exact e1)
    (by rw [fst_map]; exact e2) (by rw [dm, dm]; exact e3)
  obtain ⟨vs, v1, v2, v3, -⟩ := sync_fin_iff (inc_map a b jx) (inc_map c d jy) e
    (by rw [fst_map, sampleAt_fst]; exact t4) (by rw [fst_map, sampleAt_fst]; exact t4)
    (by rw [dm, dm]; exact fun t ht => e3 t ((t5 _ t).1 ht.1))
  have hu : us = ts := by
    refine sorted_ext u1 t1 fun t => ?_
    rw [u2, t2, fst_map, fst_map, dm, dm]
  have hv : vs = ts := by
    refine sorted_ext v1 t1 fun t => ?_
    rw [v2, fst_map, fst_map, dm, dm, sampleAt_fst, sampleAt_fst, or_self]
    exact ⟨fun h => h.1, fun h => ⟨h, mem_dom_of_mem (by rw [sampleAt_fst]; exact h),
      mem_dom_of_mem (by rw [sampleAt_fst]; exact h)⟩⟩
  subst hu; subst hv
  have fix : ∀ f : K → K, ∀ t ∈ vs, eval (sampleAt f vs) t = f t := by
    intro f t ht
    exact eval_mem ((increasing_sampleAt f vs).2 t1) (p := (t, f t))
      (List.mem_map_of_mem (f := fun t => (t, f t)) ht)
  have hne : ∀ f : K → K, sampleAt f vs ≠ [] := by
    intro f h0
    have := congrArg (List.map Prod.fst) h0
    rw [sampleAt_fst] at this
    rw [this] at t4; simp at t4
  rw [u3, v3]
  have ex : sampleAt (eval (xs.map fun p => (p.1, a * p.2 + b))) vs =
      sampleAt (eval ((sampleAt (eval xs) vs).map fun p => (p.1, a * p.2 + b))) vs := by
    refine List.map_congr_left fun t ht => ?_
    rw [eval_affine_map a b _ _ hx, eval_affine_map a b _ _ (hne _), fix _ t ht]
  have ey : sampleAt (eval (ys.map fun p => (p.1, c * p.2 + d))) vs =
      sampleAt (eval ((sampleAt (eval ys) vs).map fun p => (p.1, c * p.2 + d))) vs := by
    refine List.map_congr_left fun t ht => ?_
    rw [eval_affine_map c d _ _ hy, eval_affine_map c d _ _ (hne _), fix _ t ht]
  rw [ex, ey]

/-- **C70, partial:** synchronizing two signals before computing the conjunction or disjunction of their
predicates gives the same outcome and the same samples as leaving it to `compute_robustness` (as
`examples/basic_robustness.cc` does), in exact arithmetic. -/
theorem C70_presynchronized_partial (nd : Bool) (fuel : Nat) (trace trace' : Trace K) (sy sy' : Bool)
    (m n : String) (op op' : ComparisonOp) (c d : K) (x y x' y' : Signal K) (xs ys : List (K × K))
    (hx : Represents x xs) (hy : Represents y ys) (h : synchronize x y = .ok (x', y'))
    (lx : trace.lookup m = some x) (ly : trace.lookup n = some y)
    (lx' : trace'.lookup m = some x') (ly' : trace'.lookup n = some y') :
    computeRobustness nd fuel (.and [.pred m op (.fin c), .pred n op' (.fin d)]) trace' sy' =
      computeRobustness nd fuel (.and [.pred m op (.fin c), .pred n op' (.fin d)]) trace sy ∧
    computeRobustness nd fuel (.or [.pred m op (.fin c), .pred n op' (.fin d)]) trace' sy' =
      computeRobustness nd fuel (.or [.pred m op (.fin c), .pred n op' (.fin d)]) trace sy := by
  obtain ⟨ix, rfl⟩ := (represents_iff x xs).1 hx
  obtain ⟨iy, rfl⟩ := (represents_iff y ys).1 hy
  obtain ⟨a, b, hp⟩ := pred_points nd fuel m op c
  obtain ⟨a', b', hq⟩ := pred_points nd fuel n op' d
  obtain ⟨us, vs, iu, iv, rfl, rfl, e⟩ := sync_affine ix iy h a b a' b'
  have p1 := hp trace sy xs ix lx
  have q1 := hq trace sy ys iy ly
  have p2 := hp trace' sy' us iu lx'
  have q2 := hq trace' sy' vs iv ly'
  unfold computeRobustness at p1 q1 p2 q2 ⊢
  rw [compute_and_pair p1 q1, compute_and_pair p2 q2, compute_or_pair p1 q1, compute_or_pair p2 q2]
  simp only [minmaxPair_eq, Bool.false_eq_true, if_false, e]
  exact ⟨trivial, trivial⟩

end exact

/-- Where the hypotheses hold: different timestamps, and a crossing at time 4/3. -/
example : synchronize (ofPts [(0, 0), (2, 2), (3, 0)]) (ofPts [(0, 2), (4, 0)] : Signal ℚ) =
      .ok (ofPts [(0, 0), (2, 2), (3, 0)], ofPts [(0, 2), (2, 1), (3, 1/2)]) ∧
    computeRobustness false 0 (.and [.pred "x" .GE 0, .pred "y" .GT 0])
      ([("x", ofPts [(0, 0), (2, 2), (3, 0)]), ("y", ofPts [(0, 2), (4, 0)])] : Trace ℚ) false =
      .ok (ofPts [(0, 0), (4/3, 4/3), (2, 1), (8/3, 2/3), (3, 0)]) := by decide +kernel

/-- The real trace of `Props/Soundness.lean`, with one more sample. -/
example : SameFunction (K := ℝ) [(0, 1), (1, 5), (2, 3)] [(0, 1), (1/2, 3), (1, 5), (2, 3)] := by
  refine ⟨?_, ?_⟩
  · ext t
    simp only [dom, List.mem_cons, List.not_mem_nil, or_false, exists_eq_or_imp, exists_eq_left,
      Set.mem_ofPred_eq]
    constructor
    · rintro ⟨h1, h2⟩
      exact ⟨by rcases h1 with h | h | h <;> simp [h], by rcases h2 with h | h | h <;> simp [h]⟩
    · rintro ⟨h1, h2⟩
      refine ⟨.inl ?_, .inr (.inr ?_)⟩
      · rcases h1 with h | h | h | h <;> linarith
      · rcases h2 with h | h | h | h <;> linarith
  · intro t _
    simp only [eval, line]
    by_cases h1 : t ≤ 1/2
    · rw [if_pos (by linarith), if_pos h1]; ring
    · rw [if_neg h1]
      by_cases h2 : t ≤ 1
      · rw [if_pos h2, if_pos h2]; ring
      · rw [if_neg h2, if_neg h2]

end Verif
