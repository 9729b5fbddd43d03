import Verif.Props.Soundness
import Verif.Proofs.Start
import Verif.Proofs.Perturb

/-!
# The value at the start of the trace, and perturbations of the trace: C61, C62
-/

set_option linter.unusedSectionVars false

namespace Verif
open Spec

theorem _root_.Verif.Spec.Stack.plain {K : Type} [Field K] [LinearOrder K] [Arith K] {e : Expr K} (h : Stack e) : Plain e := by
  induction h with
  | propositional h => exact h.plain
  | not _ ih => exact .not ih
  | always _ ih => exact .always (.inl rfl) ih
  | eventually _ ih => exact .eventually (.inl rfl) ih

theorem _root_.Verif.Spec.Combination.plain {K : Type} [Field K] [LinearOrder K] [Arith K] {e : Expr K} (h : Combination e) : Plain e := by
  induction h with
  | stack h => exact h.plain
  | not _ ih => exact .not ih
  | and hl _ ih => exact .and hl ih
  | or hl _ ih => exact .or hl ih

theorem stack_agrees (nd : Bool) (fuel : Nat) (trace : Trace ℝ) (sy : Bool) (t0 T : ℝ)
    (sig : String → List (ℝ × ℝ)) (phi : Expr ℝ) (hp : Stack phi) (hs : Aligned trace t0 sig phi)
    (hT : ∀ n, Uses n phi → dom (sig n) = Set.Icc t0 T) :
    ∀ z zs, computeRobustness nd fuel phi trace sy = .ok z → Represents z zs →
      Agrees zs (rob T (fun n => eval (sig n)) phi) := by
  induction hp with
  | @propositional e h =>
    intro z zs hz hr
    obtain ⟨z', zs', e1, hz', hd, hv⟩ := C38_boolean_fragment_exact nd fuel trace sy t0 T sig e h hs
    rw [hz] at e1
    simp only [Outcome.ok.injEq] at e1; subst e1
    obtain rfl := represents_unique hr hz'
    have i1 := ((represents_iff _ _).1 hr).1
    refine ⟨fun p hp => ?_, .inl hv⟩
    rw [← hv _ (mem_dom_of_mem' hp), eval_mem i1 hp]
  | @not e he ih =>
    intro z zs hz hr
    have hs' : Aligned trace t0 sig e := fun n hn => hs n (.not hn)
    obtain ⟨z1, zs1, e1, hz1, -, -⟩ := C34_total nd fuel trace sy t0 sig e he.plain hs'
    obtain ⟨i1, rfl⟩ := (represents_iff _ _).1 hz1
    have e2 : computeRobustness nd fuel (.not e) trace sy = .ok (ofPts (negPts zs1)) := by
      rw [C21_not_negates, e1]; exact congrArg Outcome.ok (negSig_ofPts i1)
    rw [hz] at e2
    simp only [Outcome.ok.injEq] at e2; subst e2
    obtain rfl := represents_unique hr (represents_ofPts (increasing_negPts.2 i1))
    have := (ih hs' (fun n hn => hT n (.not hn)) _ _ e1 hz1).neg
    convert this using 2 with t
    rw [rob]
  | @always e he ih =>
    intro z zs hz hr
    have hs' : Aligned trace t0 sig e := fun n hn => hs n (.always hn)
    have hT' : ∀ n, Uses n e → dom (sig n) = Set.Icc t0 T := fun n hn => hT n (.always hn)
    obtain ⟨z1, zs1, e1, hz1, h0, hdz⟩ := C34_total nd fuel trace sy t0 sig e he.plain hs'
    have i1 := ((represents_iff _ _).1 hz1).1
    have e2 := (eventually_fin e1 hz1 (StartsAt.ne h0) _ default_high).2
    rw [Interval.default, hz] at e2
    simp only [Outcome.ok.injEq] at e2; subst e2
    obtain rfl := represents_unique hr (represents_ofPts (increasing_sufPts.2 i1))
    have := (ih hs' hT' _ _ e1 hz1).inf i1 (dom_common he.plain hT' hdz)
    convert this using 2 with t
    rw [rob, window_default]
  | @eventually e he ih =>
    intro z zs hz hr
    have hs' : Aligned trace t0 sig e := fun n hn => hs n (.eventually hn)
    have hT' : ∀ n, Uses n e → dom (sig n) = Set.Icc t0 T := fun n hn => hT n (.eventually hn)
    obtain ⟨z1, zs1, e1, hz1, h0, hdz⟩ := C34_total nd fuel trace sy t0 sig e he.plain hs'
    have i1 := ((represents_iff _ _).1 hz1).1
    have e2 := (eventually_fin e1 hz1 (StartsAt.ne h0) _ default_high).1
    rw [Interval.default, hz] at e2
    simp only [Outcome.ok.injEq] at e2; subst e2
    obtain rfl := represents_unique hr (represents_ofPts (increasing_sufPts.2 i1))
    have := (ih hs' hT' _ _ e1 hz1).sup i1 (dom_common he.plain hT' hdz)
    convert this using 2 with t
    rw [rob, window_default]

/-- **C61.** Not, Always and Eventually with the interval `[0, inf)`, nested to any depth around a formula
of predicates, Not, And and Or: the computed robustness equals the dense-time quantitative semantics at
every sample of the result. -/
theorem C61_samples_exact (nd : Bool) (fuel : Nat) (trace : Trace ℝ) (sy : Bool) (t0 T : ℝ)
    (sig : String → List (ℝ × ℝ)) (phi : Expr ℝ) (hp : Stack phi) (hs : Aligned trace t0 sig phi)
    (hT : ∀ n, Uses n phi → dom (sig n) = Set.Icc t0 T) :
    ∃ z zs, computeRobustness nd fuel phi trace sy = .ok z ∧ Represents z zs ∧ dom zs = Set.Icc t0 T ∧
      ∀ p ∈ zs, (p.2 : EReal) = rob T (fun n => eval (sig n)) phi p.1 := by
  obtain ⟨z, zs, e, hz, -, hd⟩ := C34_total nd fuel trace sy t0 sig phi hp.plain hs
  exact ⟨z, zs, e, hz, dom_common hp.plain hT hd,
    (stack_agrees nd fuel trace sy t0 T sig phi hp hs hT z zs e hz).1⟩

theorem eval_start {t0 : ℝ} {zs : List (ℝ × ℝ)} (h : ∃ v r, zs = (t0, v) :: r) (hi : Increasing zs) :
    ∃ r, zs = (t0, eval zs t0) :: r ∧ t0 ∈ dom zs := by
  obtain ⟨v, r, rfl⟩ := h
  have := eval_head (t0, v) r hi
  exact ⟨r, by rw [show eval ((t0, v) :: r) t0 = v from this], mem_dom_of_mem' (p := (t0, v)) (by simp)⟩

theorem combination_exact (nd : Bool) (fuel : Nat) (trace : Trace ℝ) (sy : Bool) (t0 T : ℝ)
    (sig : String → List (ℝ × ℝ)) (phi : Expr ℝ) (hp : Combination phi) (hs : Aligned trace t0 sig phi)
    (hT : ∀ n, Uses n phi → dom (sig n) = Set.Icc t0 T) :
    ∀ z zs, computeRobustness nd fuel phi trace sy = .ok z → Represents z zs →
      ((eval zs t0 : ℝ) : EReal) = rob T (fun n => eval (sig n)) phi t0 := by
  induction hp with
  | @stack e h =>
    intro z zs hz hr
    obtain ⟨z', zs', e1, hz', h0, hd⟩ := C34_total nd fuel trace sy t0 sig e h.plain hs
    rw [hz] at e1
    simp only [Outcome.ok.injEq] at e1; subst e1
    obtain rfl := represents_unique hr hz'
    obtain ⟨r, hr', -⟩ := eval_start h0 ((represents_iff _ _).1 hr).1
    exact (stack_agrees nd fuel trace sy t0 T sig e h hs hT z zs hz hr).1 (t0, eval zs t0)
      ((congrArg (fun l => (t0, eval zs t0) ∈ l) hr').mpr (by simp))
  | @not e he ih =>
    intro z zs hz hr
    have hs' : Aligned trace t0 sig e := fun n hn => hs n (.not hn)
    obtain ⟨z1, zs1, e1, hz1, -, -⟩ := C34_total nd fuel trace sy t0 sig e he.plain hs'
    obtain ⟨i1, rfl⟩ := (represents_iff _ _).1 hz1
    have e2 : computeRobustness nd fuel (.not e) trace sy = .ok (ofPts (negPts zs1)) := by
      rw [C21_not_negates, e1]; exact congrArg Outcome.ok (negSig_ofPts i1)
    rw [hz] at e2
    simp only [Outcome.ok.injEq] at e2; subst e2
    obtain rfl := represents_unique hr (represents_ofPts (increasing_negPts.2 i1))
    rw [eval_negPts, rob, EReal.coe_neg, ih hs' (fun n hn => hT n (.not hn)) _ _ e1 hz1]
  | @and args hl hsub ih =>
    intro z zs hz hr
    have ih' : ∀ e : Expr ℝ, ∃ zs : List (ℝ × ℝ), e ∈ args → ∃ x,
        computeRobustness nd fuel e trace sy = .ok x ∧ Represents x zs ∧ (∃ v r, zs = (t0, v) :: r) := by
      intro e
      by_cases he : e ∈ args
      · obtain ⟨z, zs, h1, h2, h3, h4⟩ :=
          C34_total nd fuel trace sy t0 sig e (hsub e he).plain fun n hn => hs n (.and he hn)
        exact ⟨zs, fun _ => ⟨z, h1, h2, h3⟩⟩
      · exact ⟨[], fun h => absurd h he⟩
    choose p hpe using ih'
    have hne : args ≠ [] := by rintro rfl; simp at hl
    obtain ⟨z', zs', e1, hz', h0, hdz, hv⟩ := C24_and_nary nd fuel trace sy t0 p args hne hpe
    rw [hz] at e1
    simp only [Outcome.ok.injEq] at e1; subst e1
    obtain rfl := represents_unique hr hz'
    obtain ⟨r, -, ht⟩ := eval_start h0 ((represents_iff _ _).1 hr).1
    have hb : ∀ e ∈ args, ((eval (p e) t0 : ℝ) : EReal) = rob T (fun n => eval (sig n)) e t0 := by
      intro e he
      obtain ⟨x, h1, h2, -⟩ := hpe e he
      exact ih e he (fun n hn => hs n (.and he hn)) (fun n hn => hT n (.and he hn)) _ _ h1 h2
    have hv := hv t0 ht
    rw [rob]
    apply le_antisymm
    · rw [le_robAll]
      intro e he
      rw [← hb e he]
      exact EReal.coe_le_coe_iff.2 (hv.2 ⟨e, he, rfl⟩)
    · obtain ⟨e, he, hee⟩ := hv.1
      rw [hee, hb e he]
      exact robAll_le he
  | @or args hl hsub ih =>
    intro z zs hz hr
    have ih' : ∀ e : Expr ℝ, ∃ zs : List (ℝ × ℝ), e ∈ args → ∃ x,
        computeRobustness nd fuel e trace sy = .ok x ∧ Represents x zs ∧ (∃ v r, zs = (t0, v) :: r) := by
      intro e
      by_cases he : e ∈ args
      · obtain ⟨z, zs, h1, h2, h3, h4⟩ :=
          C34_total nd fuel trace sy t0 sig e (hsub e he).plain fun n hn => hs n (.or he hn)
        exact ⟨zs, fun _ => ⟨z, h1, h2, h3⟩⟩
      · exact ⟨[], fun h => absurd h he⟩
    choose p hpe using ih'
    have hne : args ≠ [] := by rintro rfl; simp at hl
    obtain ⟨z', zs', e1, hz', h0, hdz, hv⟩ := C24_or_nary nd fuel trace sy t0 p args hne hpe
    rw [hz] at e1
    simp only [Outcome.ok.injEq] at e1; subst e1
    obtain rfl := represents_unique hr hz'
    obtain ⟨r, -, ht⟩ := eval_start h0 ((represents_iff _ _).1 hr).1
    have hb : ∀ e ∈ args, ((eval (p e) t0 : ℝ) : EReal) = rob T (fun n => eval (sig n)) e t0 := by
      intro e he
      obtain ⟨x, h1, h2, -⟩ := hpe e he
      exact ih e he (fun n hn => hs n (.or he hn)) (fun n hn => hT n (.or he hn)) _ _ h1 h2
    have hv := hv t0 ht
    rw [rob]
    apply le_antisymm
    · obtain ⟨e, he, hee⟩ := hv.1
      rw [hee, hb e he]
      exact le_robAny he
    · rw [robAny_le]
      intro e he
      rw [← hb e he]
      exact EReal.coe_le_coe_iff.2 (hv.2 ⟨e, he, rfl⟩)

/-- **C61.** For combinations of such formulas by Not, And and Or the value of the first sample of the
computed robustness is the dense-time robustness at the start of the trace; so both verdicts at the start
of the trace are right. -/
theorem C61_start_exact (nd : Bool) (fuel : Nat) (trace : Trace ℝ) (sy : Bool) (t0 T : ℝ)
    (sig : String → List (ℝ × ℝ)) (phi : Expr ℝ) (hp : Combination phi) (hs : Aligned trace t0 sig phi)
    (hT : ∀ n, Uses n phi → dom (sig n) = Set.Icc t0 T) :
    ∃ z first rest v, computeRobustness nd fuel phi trace sy = .ok z ∧ z.samples = first :: rest ∧
      first.time = .fin t0 ∧ first.value = .fin v ∧
      (v : EReal) = rob T (fun n => eval (sig n)) phi t0 ∧
      (0 < v → Sat T (fun n => eval (sig n)) phi t0) ∧
      (v < 0 → ¬ Sat T (fun n => eval (sig n)) phi t0) := by
  obtain ⟨z, zs, e, hz, h0, hd⟩ := C34_total nd fuel trace sy t0 sig phi hp.plain hs
  have hv := combination_exact nd fuel trace sy t0 T sig phi hp hs hT z zs e hz
  obtain ⟨r, hr, -⟩ := eval_start h0 ((represents_iff _ _).1 hz).1
  have hm := hz.2
  rw [hr] at hm
  cases hss : z.samples with
  | nil => rw [hss] at hm; simp at hm
  | cons first rest =>
    rw [hss] at hm
    simp only [List.map_cons, List.cons.injEq, tv, lift, Prod.mk.injEq] at hm
    refine ⟨z, first, rest, eval zs t0, e, hss, hm.1.1, hm.1.2, hv, fun h => ?_, fun h => ?_⟩
    · exact (rob_sat T _ phi t0).1 (by rw [← hv]; exact EReal.coe_lt_coe_iff.2 h)
    · exact (rob_sat T _ phi t0).2 (by rw [← hv]; exact EReal.coe_lt_coe_iff.2 h)

/-! ## C62 -/

/-- `y` differs from the signals of the trace by at most `δ`. -/
def Close (δ t0 T : ℝ) (phi : Expr ℝ) (x y : String → ℝ → ℝ) : Prop :=
  ∀ n, Uses n phi → ∀ t ∈ Set.Icc t0 T, |x n t - y n t| ≤ δ

theorem sat_of_close {δ t0 T : ℝ} {phi : Expr ℝ} {x y : String → ℝ → ℝ} (hp : Plain phi)
    (hc : Close δ t0 T phi x y) {t v : ℝ} (ht : t ∈ Set.Icc t0 T) :
    ((v : EReal) ≤ rob T x phi t → δ < v → Sat T y phi t) ∧
    (rob T x phi t ≤ (v : EReal) → v < -δ → ¬ Sat T y phi t) := by
  have hw : ∀ i t t', IntervalBuilt i → t' ∈ window T i t → t ≤ t' ∧ t' ≤ T :=
    fun i t t' hi h => window_ge hi h
  constructor
  · intro h hv
    have h1 := h.trans (rob_close hp hw hc t ht)
    rw [← sub_le_iff, ← EReal.coe_sub] at h1
    exact (rob_sat T y phi t).1 (lt_of_lt_of_le (EReal.coe_lt_coe_iff.2 (sub_pos.2 hv)) h1)
  · intro h hv
    have hc' : Close δ t0 T phi y x := fun n hn t ht => by rw [abs_sub_comm]; exact hc n hn t ht
    have h1 := (rob_close hp hw hc' t ht).trans (add_mono' δ h)
    rw [← EReal.coe_add] at h1
    exact (rob_sat T y phi t).2 (lt_of_le_of_lt h1 (EReal.coe_lt_coe_iff.2 (by linarith)))

/-- **C62.** A computed robustness above `δ` of a safety formula means that every trace of real-time
functions (not only piecewise linear ones) that is within `δ` of the sampled one satisfies the formula. -/
theorem C62_safety_margin (nd : Bool) (fuel : Nat) (trace : Trace ℝ) (sy : Bool) (t0 T δ : ℝ)
    (sig : String → List (ℝ × ℝ)) (phi : Expr ℝ) (hp : Safety true phi) (hs : Aligned trace t0 sig phi)
    (hT : ∀ n, Uses n phi → dom (sig n) = Set.Icc t0 T) (z : Signal ℝ) (zs : List (ℝ × ℝ))
    (hz : computeRobustness nd fuel phi trace sy = .ok z) (hr : Represents z zs)
    (y : String → ℝ → ℝ) (hc : Close δ t0 T phi (fun n => eval (sig n)) y) (t : ℝ)
    (ht : t ∈ Set.Icc t0 T) (hv : δ < eval zs t) : Sat T y phi t := by
  obtain ⟨z', zs', e, hr', -, h⟩ := C39_safety_sound nd fuel trace sy t0 T sig phi hp hs hT
  rw [hz] at e
  simp only [Outcome.ok.injEq] at e; subst e
  obtain rfl := represents_unique hr hr'
  exact (sat_of_close hp.plain hc ht).1 (h t ht).1 hv

/-- **C62.** A computed robustness below `-δ` of a co-safety formula means that every trace within `δ` of
the sampled one violates the formula. -/
theorem C62_cosafety_margin (nd : Bool) (fuel : Nat) (trace : Trace ℝ) (sy : Bool) (t0 T δ : ℝ)
    (sig : String → List (ℝ × ℝ)) (phi : Expr ℝ) (hp : Safety false phi) (hs : Aligned trace t0 sig phi)
    (hT : ∀ n, Uses n phi → dom (sig n) = Set.Icc t0 T) (z : Signal ℝ) (zs : List (ℝ × ℝ))
    (hz : computeRobustness nd fuel phi trace sy = .ok z) (hr : Represents z zs)
    (y : String → ℝ → ℝ) (hc : Close δ t0 T phi (fun n => eval (sig n)) y) (t : ℝ)
    (ht : t ∈ Set.Icc t0 T) (hv : eval zs t < -δ) : ¬ Sat T y phi t := by
  obtain ⟨z', zs', e, hr', -, h⟩ := C40_cosafety_sound nd fuel trace sy t0 T sig phi hp hs hT
  rw [hz] at e
  simp only [Outcome.ok.injEq] at e; subst e
  obtain rfl := represents_unique hr hr'
  exact (sat_of_close hp.plain hc ht).2 (h t ht).1 hv

/-- **C62.** For the formulas of C61 both verdicts at the start of the trace hold for all traces within the
absolute value of the first sample. -/
theorem C62_start_margin (nd : Bool) (fuel : Nat) (trace : Trace ℝ) (sy : Bool) (t0 T δ : ℝ)
    (sig : String → List (ℝ × ℝ)) (phi : Expr ℝ) (hp : Combination phi) (hs : Aligned trace t0 sig phi)
    (hT : ∀ n, Uses n phi → dom (sig n) = Set.Icc t0 T) (z : Signal ℝ) (zs : List (ℝ × ℝ))
    (hz : computeRobustness nd fuel phi trace sy = .ok z) (hr : Represents z zs)
    (y : String → ℝ → ℝ) (hc : Close δ t0 T phi (fun n => eval (sig n)) y) :
    (δ < eval zs t0 → Sat T y phi t0) ∧ (eval zs t0 < -δ → ¬ Sat T y phi t0) := by
  have h := combination_exact nd fuel trace sy t0 T sig phi hp hs hT z zs hz hr
  obtain ⟨z', zs', e, hr', h0, hd⟩ := C34_total nd fuel trace sy t0 sig phi hp.plain hs
  rw [hz] at e
  simp only [Outcome.ok.injEq] at e; subst e
  obtain rfl := represents_unique hr hr'
  obtain ⟨r, -, ht⟩ := eval_start h0 ((represents_iff _ _).1 hr).1
  rw [dom_common hp.plain hT hd] at ht
  exact ⟨(sat_of_close hp.plain hc ht).1 h.le, (sat_of_close hp.plain hc ht).2 h.ge⟩

/-- **C62.** Changing the signals by at most `δ` changes the first sample of the computed robustness by at
most `δ`, and the robustness of a formula without temporal operators by at most `δ` at every time. -/
theorem C62_lipschitz (nd : Bool) (fuel : Nat) (trace trace' : Trace ℝ) (sy : Bool) (t0 T δ : ℝ)
    (sig sig' : String → List (ℝ × ℝ)) (phi : Expr ℝ) (hp : Combination phi)
    (hs : Aligned trace t0 sig phi) (hs' : Aligned trace' t0 sig' phi)
    (hT : ∀ n, Uses n phi → dom (sig n) = Set.Icc t0 T)
    (hT' : ∀ n, Uses n phi → dom (sig' n) = Set.Icc t0 T)
    (hc : Close δ t0 T phi (fun n => eval (sig n)) fun n => eval (sig' n)) :
    ∃ z zs z' zs', computeRobustness nd fuel phi trace sy = .ok z ∧ Represents z zs ∧
      computeRobustness nd fuel phi trace' sy = .ok z' ∧ Represents z' zs' ∧
      |eval zs t0 - eval zs' t0| ≤ δ ∧
      (Propositional phi → ∀ t ∈ Set.Icc t0 T, |eval zs t - eval zs' t| ≤ δ) := by
  have hw : ∀ i t t', IntervalBuilt i → t' ∈ window T i t → t ≤ t' ∧ t' ≤ T :=
    fun i t t' hi h => window_ge hi h
  have hc' : Close δ t0 T phi (fun n => eval (sig' n)) fun n => eval (sig n) :=
    fun n hn t ht => by rw [abs_sub_comm]; exact hc n hn t ht
  obtain ⟨z, zs, e, hr, h0, hd⟩ := C34_total nd fuel trace sy t0 sig phi hp.plain hs
  obtain ⟨z', zs', e', hr', -, hd'⟩ := C34_total nd fuel trace' sy t0 sig' phi hp.plain hs'
  obtain ⟨r, -, ht⟩ := eval_start h0 ((represents_iff _ _).1 hr).1
  have hD := dom_common hp.plain hT hd
  have hD' := dom_common hp.plain hT' hd'
  have key : ∀ t ∈ Set.Icc t0 T, ((eval zs t : ℝ) : EReal) = rob T (fun n => eval (sig n)) phi t →
      ((eval zs' t : ℝ) : EReal) = rob T (fun n => eval (sig' n)) phi t →
      |eval zs t - eval zs' t| ≤ δ := by
    intro t ht h1 h2
    have a := rob_close hp.plain hw hc t ht
    have b := rob_close hp.plain hw hc' t ht
    rw [← h1, ← h2, ← EReal.coe_add, EReal.coe_le_coe_iff] at a b
    rw [abs_le]; constructor <;> linarith
  refine ⟨z, zs, z', zs', e, hr, e', hr', key t0 (hD ▸ ht)
    (combination_exact nd fuel trace sy t0 T sig phi hp hs hT z zs e hr)
    (combination_exact nd fuel trace' sy t0 T sig' phi hp hs' hT' z' zs' e' hr'), fun hpp t ht => ?_⟩
  obtain ⟨w, ws, e1, hw1, -, hv1⟩ := C38_boolean_fragment_exact nd fuel trace sy t0 T sig phi hpp hs
  obtain ⟨w', ws', e2, hw2, -, hv2⟩ := C38_boolean_fragment_exact nd fuel trace' sy t0 T sig' phi hpp hs'
  rw [e] at e1; rw [e'] at e2
  simp only [Outcome.ok.injEq] at e1 e2; subst e1; subst e2
  obtain rfl := represents_unique hr hw1
  obtain rfl := represents_unique hr' hw2
  exact key t ht (hv1 t (hD ▸ ht)) (hv2 t (hD' ▸ ht))

/-! Concrete cases meeting the hypotheses. -/

/-- `G F (x >= 0) and F (x >= 4)`. -/
noncomputable def exStart : Expr ℝ :=
  .and [.Always (.Eventually (.pred "x" .GE (.fin 0))), .Eventually (.pred "x" .GE (.fin 4))]

theorem exStart_combination : Combination exStart := by
  refine .and (by simp) fun e he => ?_
  simp only [List.mem_cons, List.not_mem_nil, or_false] at he
  rcases he with rfl | rfl
  · exact .stack (.always (.eventually (.propositional (.pred _ _ _))))
  · exact .stack (.eventually (.propositional (.pred _ _ _)))

theorem exStart_uses (n : String) (h : Uses n exStart) : n = "x" := by
  cases h with
  | and he h =>
    simp only [List.mem_cons, List.not_mem_nil, or_false] at he
    rcases he with rfl | rfl
    · cases h with | always h => cases h with | eventually h => cases h; rfl
    · cases h with | eventually h => cases h; rfl

-- the value is 1 (as `F (x >= 4)` has margin 1 at time 1), so the formula holds
example : Sat 2 (fun _ => eval [(0, 1), (1, 5), (2, 3)]) exStart 0 := by
  refine ⟨fun t ht => ⟨2, ?_, ?_⟩, ⟨1, ?_, ?_⟩, trivial⟩
  · obtain ⟨-, -, h⟩ := ht
    rw [Interval.default, window_default]; exact ⟨h, le_rfl⟩
  · simp only [Sat, holds, D.le_fin, decide_eq_true_eq, eval, line]; norm_num
  · rw [Interval.default, window_default]; norm_num
  · simp only [Sat, holds, D.le_fin, decide_eq_true_eq, eval, line]; norm_num
example : ∃ z first rest v, computeRobustness false 0 exStart realTrace false = .ok z ∧
    z.samples = first :: rest ∧ first.time = .fin 0 ∧ first.value = .fin v ∧
    (v : EReal) = rob 2 (fun _ => eval [(0, 1), (1, 5), (2, 3)]) exStart 0 := by
  obtain ⟨z, a, r, v, h1, h2, h3, h4, h5, -⟩ := C61_start_exact false 0 realTrace false 0 2 _ exStart
    exStart_combination (realTrace_aligned _ exStart_uses) fun _ _ => realTrace_dom
  exact ⟨z, a, r, v, h1, h2, h3, h4, h5⟩
-- a trace that is not piecewise linear within 1/2 of the sampled one
example : Close (1 / 2) 0 2 exStart (fun _ => eval [(0, 1), (1, 5), (2, 3)])
    (fun _ t => eval [(0, 1), (1, 5), (2, 3)] t + (if t < 1 then 1 / 2 else -(1 / 2))) := by
  intro n _ t _
  simp only
  split <;> norm_num

end Verif
