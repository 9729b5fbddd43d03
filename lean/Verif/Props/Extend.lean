import Verif.Props.Start
import Verif.Model.Exact

/-!
# Longer traces: C79
-/

set_option linter.unusedSectionVars false

namespace Verif
open Spec

/-- The full statement of **C79**: if every signal that is used gets further samples at the end, the first sample
of the robustness of a formula of `Safety true` (Always only under an even number of negations, Eventually only
under an odd number) does not get larger. -/
def LongerTrace (K : Type) [Field K] [LinearOrder K] [Arith K] : Prop :=
  ∀ (nd : Bool) (fuel : Nat) (phi : Expr K) (trace trace' : Trace K) (sy : Bool) (t0 T T' : K)
    (sig more : String → List (K × K)), Safety true phi →
    (∀ n, Uses n phi → ∃ x x', trace.lookup n = some x ∧ Represents x (sig n) ∧
      trace'.lookup n = some x' ∧ Represents x' (sig n ++ more n) ∧
      dom (sig n) = Set.Icc t0 T ∧ dom (sig n ++ more n) = Set.Icc t0 T') →
    ∀ z z' zs zs', computeRobustness nd fuel phi trace sy = .ok z → Represents z zs →
      computeRobustness nd fuel phi trace' sy = .ok z' → Represents z' zs' → eval zs' t0 ≤ eval zs t0

/-! ## C79 -/

/-- `G (G ((G p and s) or q) or r)`, each predicate with the threshold 9/2. -/
def ltPhi : Expr ℚ :=
  .always (.or [.always (.or [.and [.always (.pred "p" .GE (.fin (9/2))) ⟨.dbl 0, .dbl .pinf⟩,
    .pred "s" .GE (.fin (9/2))], .pred "q" .GE (.fin (9/2))]) ⟨.dbl 0, .dbl .pinf⟩, .pred "r" .GE (.fin (9/2))])
    ⟨.dbl 0, .dbl .pinf⟩

/-- The signals up to time 20. -/
def ltPts (n : String) : List (ℚ × ℚ) :=
  if n = "p" then [(0, -10), (10, 30), (20, 30)] else
  if n = "s" then [(0, 50), (10, 50), (20, -50)] else
  if n = "q" then [(0, 0), (10, 10), (20, 5)] else [(0, 10), (10, 3), (20, 3)]

/-- One more sample. -/
def ltMore (n : String) : List (ℚ × ℚ) :=
  if n = "p" then [(30, 12)] else
  if n = "s" then [(30, 50)] else
  if n = "q" then [(30, 5)] else [(30, 3)]

def ltTrace (f : String → List (ℚ × ℚ)) : Trace ℚ :=
  [("p", ofPts (f "p")), ("q", ofPts (f "q")), ("r", ofPts (f "r")), ("s", ofPts (f "s"))]

theorem lt_uses {n : String} (h : Uses n ltPhi) : n = "p" ∨ n = "q" ∨ n = "r" ∨ n = "s" := by
  unfold ltPhi at h
  cases h with | always h =>
  cases h with | or he h =>
  simp only [List.mem_cons, List.not_mem_nil, or_false] at he
  rcases he with rfl | rfl
  · cases h with | always h =>
    cases h with | or he h =>
    simp only [List.mem_cons, List.not_mem_nil, or_false] at he
    rcases he with rfl | rfl
    · cases h with | and he h =>
      simp only [List.mem_cons, List.not_mem_nil, or_false] at he
      rcases he with rfl | rfl
      · cases h with | always h => cases h; simp
      · cases h; simp
    · cases h; simp
  · cases h; simp

theorem lt_safety : Safety true ltPhi := by
  have hi : IntervalBuilt (⟨.dbl 0, .dbl .pinf⟩ : Interval ℚ) := .inl rfl
  refine .always hi (.or (by decide) ?_)
  intro e he
  simp only [List.mem_cons, List.not_mem_nil, or_false] at he
  rcases he with rfl | rfl
  · refine .always hi (.or (by decide) ?_)
    intro e he
    simp only [List.mem_cons, List.not_mem_nil, or_false] at he
    rcases he with rfl | rfl
    · refine .and (by decide) ?_
      intro e he
      simp only [List.mem_cons, List.not_mem_nil, or_false] at he
      rcases he with rfl | rfl
      · exact .always hi (.pred _ _ _ _)
      · exact .pred _ _ _ _
    · exact .pred _ _ _ _
  · exact .pred _ _ _ _

theorem dom_three (a b c u v w : ℚ) (h1 : a < b) (h2 : b < c) : dom [(a, u), (b, v), (c, w)] = Set.Icc a c := by
  ext t
  simp only [dom, List.mem_cons, List.not_mem_nil, or_false, exists_eq_or_imp, exists_eq_left,
    Set.mem_ofPred_eq, Set.mem_Icc]
  refine ⟨fun h => ⟨?_, ?_⟩, fun h => ⟨.inl h.1, .inr (.inr h.2)⟩⟩
  · rcases h.1 with h | h | h <;> linarith
  · rcases h.2 with h | h | h <;> linarith

theorem dom_four (a b c d u v w x : ℚ) (h1 : a < b) (h2 : b < c) (h3 : c < d) :
    dom [(a, u), (b, v), (c, w), (d, x)] = Set.Icc a d := by
  ext t
  simp only [dom, List.mem_cons, List.not_mem_nil, or_false, exists_eq_or_imp, exists_eq_left,
    Set.mem_ofPred_eq, Set.mem_Icc]
  refine ⟨fun h => ⟨?_, ?_⟩, fun h => ⟨.inl h.1, .inr (.inr (.inr h.2))⟩⟩
  · rcases h.1 with h | h | h | h <;> linarith
  · rcases h.2 with h | h | h | h <;> linarith

/-- **C79 is false**: one more sample per signal raises the robustness of `G (G ((G p and s) or q) or r)` from -1/38
to 3/26, so the formula, said to be violated by the short trace, is said to be satisfied by the long one.  (The
right values are positive: the error of Always between samples gets smaller when `G p` gets smaller, because the
crossing with `q` is elsewhere.) -/
theorem C79_refuted : ¬ LongerTrace ℚ := by
  intro h
  have hz : computeRobustness false 0 ltPhi (ltTrace ltPts) false =
      .ok (ofPts [(0, -1/38), (10/3, -1/38), (150/19, -1/38), (10, 1/2), (12, 1/2), (270/19, 1/2), (20, 1/2)]) := by
    decide +kernel
  have hz' : computeRobustness false 0 ltPhi (ltTrace fun n => ltPts n ++ ltMore n) false =
      .ok (ofPts [(0, 3/26), (100/13, 3/26), (25/3, 1/2), (10, 1/2), (69/5, 1/2), (270/19, 1/2), (20, 1/2),
        (51/2, 1/2), (131/5, 15/2), (30, 15/2)]) := by
    decide +kernel
  have := h false 0 ltPhi (ltTrace ltPts) (ltTrace fun n => ltPts n ++ ltMore n) false 0 20 30 ltPts ltMore lt_safety
    (by
      intro n hn
      refine ⟨ofPts (ltPts n), ofPts (ltPts n ++ ltMore n), ?_, represents_ofPts ?_, ?_, represents_ofPts ?_, ?_, ?_⟩
      · rcases lt_uses hn with rfl | rfl | rfl | rfl <;> rfl
      · rcases lt_uses hn with rfl | rfl | rfl | rfl <;> (unfold Increasing; decide +kernel)
      · rcases lt_uses hn with rfl | rfl | rfl | rfl <;> rfl
      · rcases lt_uses hn with rfl | rfl | rfl | rfl <;> (unfold Increasing; decide +kernel)
      · rcases lt_uses hn with rfl | rfl | rfl | rfl <;>
          exact dom_three _ _ _ _ _ _ (by norm_num) (by norm_num)
      · rcases lt_uses hn with rfl | rfl | rfl | rfl <;>
          exact dom_four _ _ _ _ _ _ _ _ (by norm_num) (by norm_num) (by norm_num))
    _ _ _ _ hz (represents_ofPts (by unfold Increasing; decide +kernel)) hz'
    (represents_ofPts (by unfold Increasing; decide +kernel))
  revert this
  decide +kernel

/-- A longer trace makes the semantics of safety formulas smaller and that of co-safety formulas larger. -/
theorem rob_longer {t0 T T' : ℝ} (hTT : T ≤ T') {x y : String → ℝ → ℝ} {pol : Bool} {e : Expr ℝ} (hp : Safety pol e) :
    (∀ n, Uses n e → ∀ t ∈ Set.Icc t0 T, x n t = y n t) → ∀ t ∈ Set.Icc t0 T,
      (pol = true → rob T' y e t ≤ rob T x e t) ∧ (pol = false → rob T x e t ≤ rob T' y e t) := by
  have hw : ∀ i t, window T i t ⊆ window T' i t := fun i t t' h => ⟨h.1, h.2.1, h.2.2.trans hTT⟩
  induction hp with
  | pred pol n op c =>
    intro h t ht
    simp [rob, h n (.pred op _) t ht]
  | not _ ih =>
    intro h t ht
    have := ih (fun n hn => h n (.not hn)) t ht
    rename_i pol _ _
    simp only [rob, EReal.neg_le_neg_iff]
    cases pol <;> simpa using this
  | and _ _ ih =>
    intro h t ht
    have h' := fun e he => ih e he (fun n hn => h n (.and he hn)) t ht
    simp only [rob, le_robAll]
    exact ⟨fun hb e he => (robAll_le he).trans ((h' e he).1 hb), fun hb e he => (robAll_le he).trans ((h' e he).2 hb)⟩
  | or _ _ ih =>
    intro h t ht
    have h' := fun e he => ih e he (fun n hn => h n (.or he hn)) t ht
    simp only [rob, robAny_le]
    exact ⟨fun hb e he => ((h' e he).1 hb).trans (le_robAny he), fun hb e he => ((h' e he).2 hb).trans (le_robAny he)⟩
  | always hi _ ih =>
    intro h t ht
    have h' := ih (fun n hn => h n (.always hn))
    simp only [rob]
    refine ⟨fun _ => le_iInf₂ fun t' ht' => ?_, by simp⟩
    have := window_ge hi ht'
    exact (iInf₂_le t' (hw _ _ ht')).trans ((h' t' ⟨ht.1.trans this.1, this.2⟩).1 rfl)
  | eventually hi _ ih =>
    intro h t ht
    have h' := ih (fun n hn => h n (.eventually hn))
    simp only [rob]
    refine ⟨by simp, fun _ => iSup₂_le fun t' ht' => ?_⟩
    have := window_ge hi ht'
    exact ((h' t' ⟨ht.1.trans this.1, this.2⟩).2 rfl).trans (le_iSup₂ (f := fun t' _ => rob T' y _ t') t' (hw _ _ ht'))

/-- What holds of **C79** (missing: temporal operators around And and Or of formulas with temporal operators):
for combinations by Not, And and Or of formulas in which the temporal operators are on top of the Boolean ones,
further samples at the end do not raise the first sample of the robustness of a safety formula and do not lower
that of a co-safety formula; so a negative verdict on a safety formula is final - every longer trace violates it -
and so is a positive verdict on a co-safety formula. -/
theorem C79_longer_partial (nd : Bool) (fuel : Nat) (pol : Bool) (phi : Expr ℝ) (trace trace' : Trace ℝ)
    (sy : Bool) (t0 T T' : ℝ) (sig more : String → List (ℝ × ℝ)) (hp : Combination phi) (hpol : Safety pol phi)
    (hs : Aligned trace t0 sig phi) (hs' : Aligned trace' t0 (fun n => sig n ++ more n) phi)
    (hT : ∀ n, Uses n phi → dom (sig n) = Set.Icc t0 T)
    (hT' : ∀ n, Uses n phi → dom (sig n ++ more n) = Set.Icc t0 T') :
    ∃ z zs z' zs', computeRobustness nd fuel phi trace sy = .ok z ∧ Represents z zs ∧
      computeRobustness nd fuel phi trace' sy = .ok z' ∧ Represents z' zs' ∧
      (pol = true → eval zs' t0 ≤ eval zs t0) ∧ (pol = false → eval zs t0 ≤ eval zs' t0) ∧
      (pol = true → eval zs t0 < 0 → ¬ Sat T' (fun n => eval (sig n ++ more n)) phi t0) ∧
      (pol = false → 0 < eval zs t0 → Sat T' (fun n => eval (sig n ++ more n)) phi t0) := by
  obtain ⟨z, zs, e, hr, h0, hd⟩ := C34_total nd fuel trace sy t0 sig phi hp.plain hs
  obtain ⟨z', zs', e', hr', -, hd'⟩ := C34_total nd fuel trace' sy t0 (fun n => sig n ++ more n) phi hp.plain hs'
  obtain ⟨r, -, ht⟩ := eval_start h0 ((represents_iff _ _).1 hr).1
  have hD := dom_common hp.plain hT hd
  have ht0 : t0 ∈ Set.Icc t0 T := hD ▸ ht
  obtain ⟨n, hn⟩ := plain_uses hp.plain
  have hTT : T ≤ T' := by
    have h1 : T ∈ dom (sig n) := by rw [hT n hn]; exact ⟨ht0.2, le_rfl⟩
    have h2 : T ∈ dom (sig n ++ more n) := by
      obtain ⟨⟨p, hp, hp'⟩, q, hq, hq'⟩ := h1
      exact ⟨⟨p, List.mem_append_left _ hp, hp'⟩, q, List.mem_append_left _ hq, hq'⟩
    rw [hT' n hn] at h2
    exact h2.2
  have hmono := rob_longer (t0 := t0) hTT (x := fun n => eval (sig n)) (y := fun n => eval (sig n ++ more n)) hpol
    (fun n hn t ht => by
      obtain ⟨x, -, hx, -⟩ := hs' n hn
      exact (eval_append_left (more n) ((represents_iff _ _).1 hx).1 (by rw [hT n hn]; exact ht)).symm) t0 ht0
  have hv := combination_exact nd fuel trace sy t0 T sig phi hp hs hT z zs e hr
  have hv' := combination_exact nd fuel trace' sy t0 T' (fun n => sig n ++ more n) phi hp hs' hT' z' zs' e' hr'
  rw [← hv, ← hv'] at hmono
  refine ⟨z, zs, z', zs', e, hr, e', hr', fun h => EReal.coe_le_coe_iff.1 (hmono.1 h),
    fun h => EReal.coe_le_coe_iff.1 (hmono.2 h), fun h hneg => ?_, fun h hpos => ?_⟩
  · refine (rob_sat T' _ phi t0).2 ?_
    rw [← hv']
    exact (hmono.1 h).trans_lt (EReal.coe_lt_coe_iff.2 hneg)
  · refine (rob_sat T' _ phi t0).1 ?_
    rw [← hv']
    exact lt_of_lt_of_le (EReal.coe_lt_coe_iff.2 hpos) (hmono.2 h)

/-! Concrete cases meeting the hypotheses. -/

-- G (x >= 0) and not F (y >= 3) is a safety formula of the class
example : let phi : Expr ℝ := .and [.always (.pred "x" .GE (.fin 0)) ⟨.dbl 0, .dbl .pinf⟩,
      .not (.eventually (.pred "y" .GE (.fin 3)) ⟨.dbl 0, .dbl .pinf⟩)]
    Combination phi ∧ Safety true phi := by
  refine ⟨.and (by decide) fun e he => ?_, .and (by decide) fun e he => ?_⟩ <;>
    simp only [List.mem_cons, List.not_mem_nil, or_false] at he
  · rcases he with rfl | rfl
    · exact .stack (.always (.propositional (.pred _ _ _)))
    · exact .not (.stack (.eventually (.propositional (.pred _ _ _))))
  · rcases he with rfl | rfl
    · exact .always (.inl rfl) (.pred _ _ _ _)
    · exact .not (.eventually (.inl rfl) (.pred _ _ _ _))

-- its robustness falls from 1 to 1/2 with one more sample of x and y
example : let phi : Expr ℚ := .and [.always (.pred "x" .GE (.fin 0)) ⟨.dbl 0, .dbl .pinf⟩,
      .not (.eventually (.pred "y" .GE (.fin 3)) ⟨.dbl 0, .dbl .pinf⟩)]
    (computeRobustness false 0 phi [("x", ofPts [(0, 1), (1, 3)]), ("y", ofPts [(0, 1), (1, 2)])] false).map'
      (fun z => z.samples.head?.map fun a => a.value) = .ok (some (.fin 1)) ∧
    (computeRobustness false 0 phi [("x", ofPts [(0, 1), (1, 3), (2, 1/2)]), ("y", ofPts [(0, 1), (1, 2), (2, 1)])]
      false).map' (fun z => z.samples.head?.map fun a => a.value) = .ok (some (.fin (1/2))) := by
  decide +kernel

end Verif
