import Verif.Props.Start

/-!
# The sign of the robustness as a verdict: C68
-/

set_option linter.unusedSectionVars false

namespace Verif
open Spec

/-- The claim of C68: at every time of the trace, a positive robustness means that the formula is satisfied
and a negative one that it is not.  Only for formulas with the interval `[0, inf)`, as bounded intervals are
ignored (C31). -/
def VerdictRight : Prop :=
  ∀ (nd : Bool) (fuel : Nat) (trace : Trace ℝ) (sy : Bool) (t0 T : ℝ) (sig : String → List (ℝ × ℝ))
    (phi : Expr ℝ), Plain phi → Unbounded phi → Aligned trace t0 sig phi →
    (∀ n, Uses n phi → dom (sig n) = Set.Icc t0 T) →
    ∀ z zs, computeRobustness nd fuel phi trace sy = .ok z → Represents z zs → ∀ t ∈ Set.Icc t0 T,
      (0 < eval zs t → Sat T (fun n => eval (sig n)) phi t) ∧
      (eval zs t < 0 → ¬ Sat T (fun n => eval (sig n)) phi t)

/-- A signal that falls from 2 to -10 and then rises to -1. -/
noncomputable def vPts : List (ℝ × ℝ) := [(0, 2), (1, -10), (2, -1)]

noncomputable def vTrace : Trace ℝ := [("x", ofPts vPts)]

theorem vPts_increasing : Increasing vPts := by unfold Increasing vPts; norm_num

theorem vPts_dom : dom vPts = Set.Icc 0 2 := by
  ext t
  simp only [vPts, dom, List.mem_cons, List.not_mem_nil, or_false, exists_eq_or_imp, exists_eq_left,
    Set.mem_Icc, Set.mem_ofPred_eq]
  constructor
  · rintro ⟨h1 | h1 | h1, h2 | h2 | h2⟩ <;> constructor <;> linarith
  · rintro ⟨h1, h2⟩; exact ⟨.inl h1, .inr (.inr h2)⟩

/-- The formula `F (x >= 0)`. -/
noncomputable def vPhi : Expr ℝ := .eventually (.pred "x" .GE (.fin 0)) ⟨.dbl 0, .dbl .pinf⟩

theorem vPhi_stack : Stack vPhi := .eventually (.propositional (.pred _ _ _))

theorem vPhi_uses (n : String) (h : Uses n vPhi) : n = "x" := by
  cases h with | eventually h => cases h; rfl

theorem vTrace_aligned (phi : Expr ℝ) (h : ∀ n, Uses n phi → n = "x") :
    Aligned vTrace 0 (fun _ => vPts) phi := by
  intro n hn
  obtain rfl := h n hn
  exact ⟨_, rfl, represents_ofPts vPts_increasing, 2, _, rfl⟩

theorem vPhi_computed : computeRobustness false 0 vPhi vTrace false =
    .ok (ofPts [(0, 2), (1, -1), (2, -1)]) := by
  have hp : computeRobustness false 0 (.pred "x" .GE (.fin 0)) vTrace false = .ok (ofPts vPts) := by
    obtain ⟨z, zs, e, hz, hm, -, hv⟩ := C20_predicate false 0 vTrace false "x" .GE 0 _ _ rfl
      (represents_ofPts vPts_increasing)
    rw [e]
    obtain ⟨hi, rfl⟩ := (represents_iff _ _).1 hz
    have hl := congrArg List.length hm
    simp only [vPts, List.map_cons, List.map_nil, List.length_map, List.length_cons, List.length_nil] at hl
    have : zs = vPts := by
      obtain ⟨a, b, c, rfl⟩ := List.length_eq_three.1 hl
      simp only [vPts, List.map_cons, List.map_nil, List.cons.injEq, and_true] at hm
      obtain ⟨ha, hb, hc⟩ := hm
      have h1 := hv 0 (by rw [vPts_dom]; norm_num)
      have h2 := hv 1 (by rw [vPts_dom]; norm_num)
      have h3 := hv 2 (by rw [vPts_dom]; norm_num)
      obtain ⟨a1, a2⟩ := a
      obtain ⟨b1, b2⟩ := b
      obtain ⟨c1, c2⟩ := c
      simp only at ha hb hc
      subst ha hb hc
      norm_num [eval, line, vPts] at h1 h2 h3
      rw [h1, h2, show c2 = -1 by linarith]
      rfl
    rw [this]
  have := (eventually_fin hp (represents_ofPts vPts_increasing) (by simp [vPts]) ⟨.dbl 0, .dbl .pinf⟩
    default_high).1
  rw [show vPhi = .eventually (.pred "x" .GE (.fin 0)) ⟨.dbl 0, .dbl .pinf⟩ from rfl, this]
  congr 2
  norm_num [sufPts, vPts, suf]

/-- **C68 is false.** For `F (x >= 0)` on the signal 2, -10, -1 at the times 0, 1, 2: at time 1/2 the
robustness is 1/2, but `x` is negative from there on. -/
theorem C68_refuted : ¬ VerdictRight := by
  intro h
  have hz : Increasing [((0 : ℝ), (2 : ℝ)), (1, -1), (2, -1)] := by unfold Increasing; norm_num
  have := (h false 0 vTrace false 0 2 (fun _ => vPts) vPhi vPhi_stack.plain (.eventually (.pred _ _ _))
    (vTrace_aligned _ vPhi_uses) (fun _ _ => vPts_dom) _ _ vPhi_computed (represents_ofPts hz) (1 / 2)
    (by norm_num)).1 (by norm_num [eval, line])
  obtain ⟨t, ⟨ht, -, hT⟩, hs⟩ := this
  have ht' : (1 / 2 : ℝ) ≤ t := by
    have h0 : (D.fin (0 : ℝ)).le (.fin (t - 1 / 2)) = true := ht
    rw [D.le_fin, decide_eq_true_eq] at h0
    linarith
  have hs' : (0 : ℝ) ≤ eval vPts t := by
    have h0 : (D.fin (0 : ℝ)).le (.fin (eval vPts t)) = true := hs
    rwa [D.le_fin, decide_eq_true_eq] at h0
  simp only [eval, line, vPts] at hs'
  split at hs' <;> norm_num at hs' <;> nlinarith

/-- **C68, partial:** Not, Always and Eventually nested around a formula of predicates, Not, And and Or: both
verdicts are right at every sample of the result.  Missing: the times in between, where the claim is false
(safety and co-safety formulas have one right verdict at all times: C39, C40), And and Or of temporal formulas
(at the start of the trace: C61), and Until (C32). -/
theorem C68_samples_partial (nd : Bool) (fuel : Nat) (trace : Trace ℝ) (sy : Bool) (t0 T : ℝ)
    (sig : String → List (ℝ × ℝ)) (phi : Expr ℝ) (hp : Stack phi) (hs : Aligned trace t0 sig phi)
    (hT : ∀ n, Uses n phi → dom (sig n) = Set.Icc t0 T) :
    ∃ z zs, computeRobustness nd fuel phi trace sy = .ok z ∧ Represents z zs ∧ dom zs = Set.Icc t0 T ∧
      ∀ p ∈ zs, (0 < p.2 → Sat T (fun n => eval (sig n)) phi p.1) ∧
        (p.2 < 0 → ¬ Sat T (fun n => eval (sig n)) phi p.1) := by
  obtain ⟨z, zs, e, hz, hd, h⟩ := C61_samples_exact nd fuel trace sy t0 T sig phi hp hs hT
  refine ⟨z, zs, e, hz, hd, fun p hp => ⟨fun h0 => (rob_sat T _ phi _).1 ?_, fun h0 => (rob_sat T _ phi _).2 ?_⟩⟩
  · rw [← h p hp]; exact EReal.coe_lt_coe_iff.2 h0
  · rw [← h p hp]; exact EReal.coe_lt_coe_iff.2 h0

-- the witness of the refutation: the sample at time 1 has the value -1 and the verdict is right
example : ¬ Sat 2 (fun _ => eval vPts) vPhi 1 := by
  obtain ⟨z, zs, e, hz, -, h⟩ := C68_samples_partial false 0 vTrace false 0 2 (fun _ => vPts) vPhi vPhi_stack
    (vTrace_aligned _ vPhi_uses) fun _ _ => vPts_dom
  rw [vPhi_computed] at e
  obtain rfl := Outcome.ok.inj e
  have hi : Increasing [((0 : ℝ), (2 : ℝ)), (1, -1), (2, -1)] := by unfold Increasing; norm_num
  obtain rfl := represents_unique (represents_ofPts hi) hz
  exact (h (1, -1) (by simp)).2 (by norm_num)

end Verif
